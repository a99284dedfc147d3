import Verif.Model.PseudoParser
import Verif.Spec.Desugar
import Verif.Spec.Lexer
import Verif.Spec.StackParser

/-!
# Specification of the pseudo parser
-/

namespace RUSure.Spec
open RUSure

/-- Parentheses, square brackets and braces. -/
def bracketPairs : List (Text × Text) := [(['('], [')']), (['['], [']']), (['{'], ['}'])]

/-- The tokens after which a language starts a new group, among the given tokens of the code. -/
def splittersOf (digit : Char → Bool) (lang : Language) (toks : List Text) : List Text :=
  lang.params.splitTokens ++ toks.filter fun t => lang.params.splitTypes.contains (typeOf digit lang t)

/-- Tokens of Python code with markers for its indentation. -/
inductive MarkedToken where
  | text (t : Text)
  | indent
  | dedent
  deriving DecidableEq, Repr

/-- The text of a token; markers have none. -/
def MarkedToken.string : MarkedToken → Text
  | text t => t
  | _ => []

/-- The type of a token. -/
def MarkedToken.type (digit : Char → Bool) : MarkedToken → TokenType
  | text t => typeOf digit .pythonPreprocessor t
  | indent => .pythonIndent
  | dedent => .pythonDedent

/-- Brackets around tokens, with indents and dedents as one more kind. -/
def markedPairs : List (MarkedToken × MarkedToken) :=
  [(.text ['('], .text [')']), (.text ['['], .text [']']), (.text ['{'], .text ['}']), (.indent, .dedent)]

/-- The marked tokens of a result, by their types. -/
def markedTokens (r : ParseResult) : List MarkedToken :=
  List.zipWith (fun t ty => if ty = .pythonIndent then .indent else if ty = .pythonDedent then .dedent
    else .text t) r.tokens r.types

/-- `all` consists of the tokens of the code with `nPre` openers in front and `nPost` closers at the
end, which a newline may follow. Nothing is added if and only if the brackets are balanced. -/
structure Completed (toks all : List Text) (nPre nPost : Nat) : Prop where
  shape : ∃ pre post, all = pre ++ toks ++ post ∧ pre.length = nPre ∧ post.length = nPost
    ∧ (∀ t ∈ pre, t ∈ bracketPairs.map Prod.fst)
    ∧ ∀ t ∈ post, t ∈ bracketPairs.map Prod.snd ∨ t = ['\n']
  balanced : Balanced bracketPairs none all
  unchanged : nPre = 0 ∧ nPost = 0 ↔ Balanced bracketPairs none toks

/-- The text `raw` in the code of a token: its own text, or nothing for an added bracket or newline. -/
def RawText (raw t : Text) : Prop :=
  raw = t ∨ raw = [] ∧ (t ∈ bracketPairs.map Prod.fst ∨ t ∈ bracketPairs.map Prod.snd ∨ t = ['\n'])

/-- A tree of tokens with brackets: without its groups it is the tree of the brackets, the ranges of
the children of each node divide its range, the leaves cover each token once and in order, nodes for
tokens outside of brackets are leaves, and groups are not. -/
structure TreeOf {T : Type} (pairs : List (T × T)) (tokens : List T) (root : PNode) : Prop where
  brackets : ∃ ns, Forest pairs none 0 tokens ns
    ∧ unsplitNode root = [.mk 0 (some tokens.length) .root ns]
  range : RangeOk root
  leaves : tokenLeaves root = (List.range tokens.length).map fun i => (i, some (i + 1))
  flat : ∀ x, InTree x root → (x.ann = .sibling → x.children = []) ∧ (x.ann = .split → x.children ≠ [])

/-- How a tree is grouped: groups end with splitters, they have splitters only at their ends, no
splitter is left outside of unsplittable brackets, and there are no groups within those. -/
structure Grouped {T : Type} (tokens splitters : List T) (un : List (T × T)) (root : PNode) : Prop where
  groups : ∀ x, InTree x root → WellGrouped tokens splitters x.children
  complete : ∀ x, Reached un tokens x root → x.ann ≠ .paired → x.ann ≠ .split →
    ∀ c ∈ x.children, c.ann ≠ .split → ¬ CoversSplitter tokens splitters c
  whole : ∀ x, InTree x root → HasBrackets un tokens x → ∀ y, InTree y x → y.ann ≠ .split

end RUSure.Spec
