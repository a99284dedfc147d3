import Verif.Model.Tree

/-!
# Model of `r_u_sure/parsing/subtokenizer.py`

The Unicode character predicates `str.isupper/islower/isdigit/isspace` are parameters.
-/

namespace RUSure

/-- `subtokenizer.py:30-35` `StateType`. -/
inductive SubState where
  | initial | upper | lower | number | special
  deriving DecidableEq, Repr

/-- The character predicates of the Python runtime. -/
structure CharClass where
  isUpper : Char → Bool
  isLower : Char → Bool
  isDigit : Char → Bool
  isSpace : Char → Bool

/-- `subtokenizer.py:92-99`: the class of a character. -/
def CharClass.state (K : CharClass) (c : Char) : SubState :=
  if K.isUpper c then .upper
  else if K.isLower c then .lower
  else if K.isDigit c then .number
  else .special

/-- `subtokenizer.py:73-85` membership in `normal_transitions`. -/
def normalTransition : SubState → SubState → Bool
  | .upper, .number => true
  | .upper, .special => true
  | .lower, .upper => true
  | .lower, .number => true
  | .lower, .special => true
  | .number, .upper => true
  | .number, .lower => true
  | .number, .special => true
  | .special, .upper => true
  | .special, .lower => true
  | .special, .number => true
  | _, _ => false

/-- Loop variables of `subtokenizer.py:87-90`; `prev` is `code[i - 1]` (`none` before the first
character, where the code never reads it). -/
structure SubLoop where
  tokens : List Text
  state : SubState
  memory : List Char
  prev : Option Char

/-- `subtokenizer.py:101-122`: how the next character splits the memory: returns the flushed tokens
and the new memory (before appending the character). -/
def subSplit (K : CharClass) (st : SubState) (memory : List Char) (prev : Option Char) (c : Char) :
    List Text × List Char :=
  let next := K.state c
  if normalTransition st next then ([memory], [])
  else if st = .upper ∧ next = .lower ∧ memory.length > 1 then
    ([memory.dropLast], memory.getLast?.toList)
  else if st = .special ∧ next = .special then
    if (c = ' ' ∨ c = '\t') ∧ some c = prev then
      if memory.length ≥ 20 then ([memory], []) else ([], memory)
    else if K.isSpace c ∨ prev.any K.isSpace then ([memory], [])
    else ([], memory)
  else ([], memory)

/-- `subtokenizer.py:91-126`: one iteration of the loop. -/
def subStep (K : CharClass) (L : SubLoop) (c : Char) : SubLoop :=
  let r := subSplit K L.state L.memory L.prev c
  { tokens := L.tokens ++ r.1
    memory := r.2 ++ [c]
    state := K.state c
    prev := some c }

/-- `subtokenizer.py:38-129` `code_to_tokens_simple_lossless`. -/
def subtokenize (K : CharClass) (code : Text) : List Text :=
  let L := code.foldl (subStep K) ⟨[], .initial, [], none⟩
  if L.memory ≠ [] then L.tokens ++ [L.memory] else L.tokens

end RUSure
