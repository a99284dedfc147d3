import Verif.Model.Truncation
import Verif.Spec.ParserTools

/-!
# Specification of truncation points and docstrings
-/

namespace RUSure.Spec
open RUSure

/-- Where in the code the token with a given index begins. -/
def startOf (raw : List Text) (k : Nat) : Nat := (raw.take k).flatten.length

/-- The token with index `j` contains the character at the cursor. -/
def CursorAt (raw : List Text) (cursor j : Nat) : Prop :=
  startOf raw j ≤ cursor ∧ cursor < startOf raw (j + 1)

/-- The brackets at the positions `lo` and `hi` belong together: what is in between is balanced. -/
def BracketsMatch {T : Type} (pairs : List (T × T)) (tokens : List T) (lo hi : Nat) : Prop :=
  ∃ pre o inner c post, tokens = pre ++ o :: (inner ++ c :: post) ∧ pre.length = lo
    ∧ lo + 1 + inner.length = hi ∧ (o, c) ∈ pairs ∧ Balanced pairs (some o) inner

/-- The brackets that are asked for: all, those with given types, or those of which one is written in
the code as given. -/
def Chosen (raw : List Text) (types : List TokenType) : PairChoice → Nat → Nat → Prop
  | .any, _, _ => True
  | .types a _, lo, _ => types[lo]? = some a
  | .texts a b, lo, hi => raw[lo]? = some a ∨ raw[hi]? = some b

/-- What directly follows the token `j` is within the brackets at `lo` and `hi`: the next token is, or
nothing is in between. -/
def Surrounds (lo hi j : Nat) : Prop := lo ≤ j ∧ j + 1 < hi ∨ lo = j ∧ hi = j + 1

/-- `hi` is the end of the innermost block around what follows the token `j`. -/
def BlockEnd (block : Nat → Nat → Prop) (j hi : Nat) : Prop :=
  ∃ lo, block lo hi ∧ Surrounds lo hi j ∧ ∀ lo' hi', block lo' hi' → Surrounds lo' hi' j → lo' ≤ lo

/-- The token `m` is not within brackets that are never split, and not alone within brackets. -/
def Exposed {T : Type} (pairs un : List (T × T)) (tokens : List T) (m : Nat) : Prop :=
  ∀ lo hi, BracketsMatch pairs tokens lo hi → lo < m → m < hi →
    hi ≠ lo + 2 ∧ ∀ o c, tokens[lo]? = some o → tokens[hi]? = some c → (o, c) ∉ un

/-- The token `m` is the first one after the token `j` with a property. -/
def FirstAfter (P : Nat → Prop) (j m : Nat) : Prop := j < m ∧ P m ∧ ∀ k, j < k → k < m → ¬ P k

/-- Where to truncate, for tokens with brackets: after the token that follows the end of the innermost
block; if there is none, after the first end of a statement; and otherwise at the end of the code. -/
inductive TruncatesAt (raw : List Text) (block : Nat → Nat → Prop) (stmt : Nat → Prop) (j : Nat) : Nat → Prop
  | block {hi} : BlockEnd block j hi → hi + 1 < raw.length → TruncatesAt raw block stmt j (startOf raw (hi + 2))
  | statement {m} : (∀ hi, BlockEnd block j hi → raw.length ≤ hi + 1) → FirstAfter stmt j m →
      TruncatesAt raw block stmt j (startOf raw (m + 1))
  | rest : (∀ hi, BlockEnd block j hi → raw.length ≤ hi + 1) → (∀ m, j < m → ¬ stmt m) →
      TruncatesAt raw block stmt j raw.flatten.length

/-! ### Docstrings -/

/-- Triple quotes. -/
def TripleQuotes (q : Text) : Prop := q = ['"', '"', '"'] ∨ q = ['\'', '\'', '\'']

/-- Only spaces. -/
def Spaces (t : Text) : Prop := ∀ c ∈ t, c = ' '

/-- A text that begins, after `n` spaces, like the definition of a function. -/
def FunctionText (n : Nat) (t : Text) : Prop :=
  ∃ s rest, Spaces s ∧ s.length = n ∧ t = s ++ ['d', 'e', 'f', ' '] ++ rest

/-- A text that begins, after `n` spaces, with triple quotes. -/
def DocText (n : Nat) (t : Text) : Prop :=
  ∃ s q rest, Spaces s ∧ s.length = n ∧ TripleQuotes q ∧ t = s ++ q ++ rest

/-- `b` directly follows `a` among the children of a node of the tree. -/
def Adjacent (root a b : PNode) : Prop := ∃ x l r, InTree x root ∧ x.children = l ++ a :: b :: r

/-- The characters by which definitions and docstrings are recognised are no white space, and a space
is. -/
def DocstringChars (cc : CharClass) : Prop :=
  cc.isSpace ' ' = true ∧ cc.isSpace 'd' = false ∧ cc.isSpace '"' = false ∧ cc.isSpace '\'' = false

/-- The first place at which `sub` occurs in `t`. -/
def FirstIn (sub t : Text) (i : Nat) : Prop :=
  (∃ mid rest, t = mid ++ sub ++ rest ∧ mid.length = i) ∧
    ∀ mid rest, t = mid ++ sub ++ rest → i ≤ mid.length

/-- A cursor cuts a text in two, as in `text[:cursor]` and `text[cursor:]`: a negative cursor counts from the end,
and a cursor that is outside is at the nearest end. -/
def CutAt (t : Text) (cursor : Int) (before after : Text) : Prop :=
  t = before ++ after ∧ ((before.length : Int) = cursor ∨ (cursor < 0 ∧ (after.length : Int) = -cursor)
    ∨ ((t.length : Int) < cursor ∧ after = []) ∨ (cursor < -(t.length : Int) ∧ before = []))

end RUSure.Spec
