import Verif.Model.DebugView

/-!
# What debug views show
-/

namespace RUSure.Debug

/-! ## Literals of Python -/

/-- The value of a digit. -/
def digitValue (c : Char) : Nat := if c.toNat < 58 then c.toNat - 48 else c.toNat - 87

/-- The value of a hexadecimal number. -/
def unhex (t : Text) : Nat := t.foldl (fun a c => 16 * a + digitValue c) 0

/-- Reads a character. -/
def decode : Text → Option (Char × Text)
  | '\\' :: c :: r =>
    if c = 't' then some ('\t', r)
    else if c = 'n' then some ('\n', r)
    else if c = 'r' then some ('\r', r)
    else if c = 'x' then some (Char.ofNat (unhex (r.take 2)), r.drop 2)
    else if c = 'u' then some (Char.ofNat (unhex (r.take 4)), r.drop 4)
    else if c = 'U' then some (Char.ofNat (unhex (r.take 8)), r.drop 8)
    else some (c, r)
  | c :: r => some (c, r)
  | [] => none

/-- `Body q t s`: the text `t` is what follows the quotation mark `q` in a literal of the string `s`. -/
inductive Body (q : Char) : Text → Text → Prop
  | done : Body q [q] []
  | step {t r s : Text} {c : Char} (h : decode t = some (c, r)) (hq : t.head? ≠ some q) (hr : Body q r s) :
    Body q t (c :: s)

/-- `Literal t s`: the text `t` is a literal of the string `s`. -/
def Literal (t s : Text) : Prop := ∃ q b, (q = '\'' ∨ q = '"') ∧ t = q :: b ∧ Body q b s

/-! ## Lines -/

section
variable {M : Type}

/-- All nodes, from left to right, parents before children, with their depths. -/
def rows (depth : Nat) : List (Node M) → List (Nat × Node M)
  | [] => []
  | n :: ns =>
    (depth, n) :: (match n with
      | .group cs _ => rows (depth + 1) cs
      | _ => []) ++ rows depth ns

/-- What is to be shown of a text: a literal of all of it, or of its beginning. -/
def shown (printable : Char → Bool) (t : Text) : Text :=
  if t.length ≤ 80 then pyRepr printable t else pyRepr printable (t.take 77) ++ "...".toList

/-- A match type in brackets, if there is one. -/
def bracket : Option Text → Text
  | none => []
  | some m => '(' :: m ++ [')']

/-- What is to be said about a node: its kind, its match type, and the beginning of its text. -/
def line (printable : Char → Bool) (names : M → Option Text) : Node M → Text
  | .deco t => "DEC: ".toList ++ shown printable t
  | .tok t m => "TOK".toList ++ bracket (names m) ++ ": ".toList ++ shown printable t
  | .group cs m => "GROUP".toList ++ bracket (names m) ++ ": ".toList ++ shown printable (renderTextL cs)
  | .rstart => "RegionStartNode()".toList
  | .rend => "RegionEndNode()".toList
  | .exit => "EarlyExitNode()".toList

/-- The texts of tokens and decorations are short enough to be shown in full. -/
def Short (ns : List (Node M)) : Prop :=
  ∀ r ∈ rows 0 ns, match r.2 with
    | .deco t => t.length ≤ 80
    | .tok t _ => t.length ≤ 80
    | _ => True

end

end RUSure.Debug
