import Verif.Model.ParserTools
import Verif.Spec.PseudoParser
import Verif.Spec.Tree
import Mathlib.Data.List.Chain

/-!
# Specification of the conversion from source texts to node sequences
-/

namespace RUSure.Spec
open RUSure

/-- The ranges of the children of a node follow each other, from its start to its end. -/
def Divided (n : PNode) : Prop :=
  ∀ c cs, n.children = c :: cs → c.lo = n.lo ∧ ((c :: cs).getLast (by simp)).hi = n.hi
    ∧ (c :: cs).IsChain fun a b => a.hi = some b.lo

/-- Parts of a program: white space, and tokens. -/
inductive Piece where
  | white (t : Text)
  | token (t : Text)
  deriving DecidableEq, Repr

/-- The text of a part. -/
def Piece.text : Piece → Text
  | white t => t
  | token t => t

/-- The parts of a program that a node sequence consists of: its decorations and its tokens, unless
they are empty. -/
def piecesOf {M : Type} (nodes : List (Node M)) : List Piece :=
  (leaves nodes).filterMap fun n => match n with
    | .deco t => if t = [] then none else some (.white t)
    | .tok t _ => if t = [] then none else some (.token t)
    | _ => none

/-- The parts that a token of the code is expected to become: white space is decoration, string
literals are split further, and everything else is left as it is. -/
def tokenPieces (cc : CharClass) (type : TokenType) (t : Text) : List Piece :=
  if t.all cc.isSpace then [.white t]
  else if type = .string then (subtokenize cc t).map .token
  else [.token t]

/-- Brackets are no white space. -/
def BracketsVisible (cc : CharClass) : Prop := ∀ c ∈ ['(', ')', '[', ']', '{', '}'], cc.isSpace c = false

/-- The widths of indentation that say how wide an indent is: the lengths of the runs of spaces that
directly follow an indent. -/
def indentWidths : List MarkedToken → List Nat
  | [] => []
  | [_] => []
  | a :: b :: ts =>
    (if a = .indent ∧ b.string.head? = some ' ' then [b.string.length] else []) ++ indentWidths (b :: ts)

end RUSure.Spec
