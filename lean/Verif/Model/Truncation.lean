import Verif.Model.ParserTools

/-!
# Model of `r_u_sure/parsing/pseudo_parser/utilities.py`: truncation points and docstrings

The function before these, `infer_python_spaces_per_indent`, is in `Model/ParserTools.lean`.
-/

namespace RUSure

/-- What a loop over a tree does after a node: go on with a state, or return a result. -/
inductive Flow (S R : Type) where
  | go (s : S)
  | done (r : R)
  deriving DecidableEq, Repr

/-! ### `utilities.py:158-248` `infer_match_pair_truncation_index` -/

/-- `utilities.py:162-165`: the argument `match_pair`. (Simplification: pairs of a string and a type,
which fail the assertion of line 194, cannot be written.) -/
inductive PairChoice where
  | any
  | types (left right : TokenType)
  | texts (left right : Text)
  deriving DecidableEq, Repr

/-- `utilities.py:202-219`: by how much the depth grows at a child. `sibs` are the children of its
parent. (`middle == child` need not be checked: a child of which the annotation is `middle` and which
is neither the left nor the right one of three is the middle one.) -/
def depthIncrement (raw : List Text) (types : List TokenType) (pair : PairChoice) (sibs : List PNode)
    (child : PNode) : Except ParseFail Nat :=
  if child.ann = .middle then
    match sibs with
    | [left, _, right] =>
      if left.ann = .left ∧ right.ann = .right then
        match pair with
        | .any => .ok 1
        | .types a b => do
          if (← tokenAt types left.lo) = a then
            if (← tokenAt types right.lo) = b then return 1 else .error .assertion
          else return 0
        | .texts a b => do
          if (← tokenAt raw left.lo) = a then return 1
          else if (← tokenAt raw right.lo) = b then return 1
          else return 0
      else .error .assertion
    | _ => .error .value
  else .ok 0

/-- `utilities.py:222-224`: the variables of the loop. -/
structure MatchScan where
  codeIndex : Nat
  cursorDepth : Option Nat
  finished : Bool
  deriving DecidableEq, Repr

/-- `utilities.py:234-236`, `279-281`: the index into the code after a leaf. -/
def indexAfter (raw : List Text) (n : PNode) (codeIndex : Nat) : Except ParseFail Nat :=
  if n.hi = some n.lo then .ok codeIndex
  else do return codeIndex + (← tokenAt raw n.lo).length

/-- `utilities.py:227-246`: the body of the loop at a leaf. -/
def matchLeaf (raw : List Text) (cursor : Int) (n : PNode) (depth : Nat) (s : MatchScan) :
    Except ParseFail (Flow MatchScan (Option Nat)) :=
  let found := cursor < s.codeIndex ∧ s.cursorDepth = none
  if found ∧ depth = 0 then .ok (.done none)
  else do
    let cursorDepth := if found then some depth else s.cursorDepth
    let codeIndex ← indexAfter raw n s.codeIndex
    if s.finished then return .done (some codeIndex)
    else return .go ⟨codeIndex, cursorDepth, s.finished || cursorDepth == some (depth + 1)⟩

mutual
/-- `utilities.py:196-220` `_traverse` together with the loop over what it yields, 226-246: a tree at a
given depth. -/
def scanMatch (raw : List Text) (types : List TokenType) (pair : PairChoice) (cursor : Int) :
    PNode → Nat → MatchScan → Except ParseFail (Flow MatchScan (Option Nat))
  | .mk lo hi ann cs, depth, s =>
    match cs with
    | [] => matchLeaf raw cursor (.mk lo hi ann []) depth s
    | c :: cs => scanMatchList raw types pair cursor (c :: cs) (c :: cs) depth s

/-- `utilities.py:201-220`: the loop over the children `sibs` of a node, from some child on. -/
def scanMatchList (raw : List Text) (types : List TokenType) (pair : PairChoice) (cursor : Int)
    (sibs : List PNode) : List PNode → Nat → MatchScan → Except ParseFail (Flow MatchScan (Option Nat))
  | [], _, s => .ok (.go s)
  | c :: cs, depth, s => do
    let inc ← depthIncrement raw types pair sibs c
    match ← scanMatch raw types pair cursor c (depth + inc) s with
    | .done r => return .done r
    | .go s' => scanMatchList raw types pair cursor sibs cs depth s'
end

/-- `utilities.py:158-248` `infer_match_pair_truncation_index`. -/
def inferMatchPairTruncation (root : PNode) (raw : List Text) (types : List TokenType)
    (pair : PairChoice) (cursor : Int) : Except ParseFail (Option Nat) :=
  if cursor = raw.flatten.length then .ok (some raw.flatten.length)
  else if 0 ≤ cursor ∧ cursor < raw.flatten.length then do
    match ← scanMatch raw types pair cursor root 0 ⟨0, none, false⟩ with
    | .done r => return r
    | .go _ => return none
  else .error .assertion

/-! ### `utilities.py:251-296` `infer_split_truncation_index` -/

/-- `utilities.py:269-270`: the variables of the loop. -/
structure SplitScan where
  codeIndex : Nat
  afterCursor : Bool
  deriving DecidableEq, Repr

/-- `utilities.py:284-288`: whether the loop stops at a leaf. `place` says what the parent's annotation
is and whether the leaf is its last child; the root has no parent. (Simplification: `==` of a node and
the last child of its parent is taken to say that it is this child; different siblings that are equal
would need equal ranges.) `none` as `splitters` raises. -/
def stopsAt (raw : List Text) (splitters : Option (List Text)) (place : Option (PAnn × Bool)) (n : PNode) :
    Except ParseFail Bool :=
  match place with
  | none => .error .type
  | some (ann, isLast) =>
    if ann = .split ∧ isLast = true then do
      let t ← tokenAt raw n.lo
      match splitters with
      | none => .error .type
      | some ss => return ss.contains t
    else .ok false

/-- `utilities.py:273-290`: the body of the loop at a leaf. -/
def splitLeaf (raw : List Text) (splitters : Option (List Text)) (cursor : Int)
    (place : Option (PAnn × Bool)) (n : PNode) (s : SplitScan) : Except ParseFail (Flow SplitScan Nat) := do
  let after := s.afterCursor || decide (cursor < s.codeIndex)
  let codeIndex ← indexAfter raw n s.codeIndex
  if after then
    if ← stopsAt raw splitters place n then return .done codeIndex
  return .go ⟨codeIndex, after⟩

mutual
/-- `utilities.py:272-290` the loop over `depth_first_traversal` (`stack_parser.py:355-378`). -/
def scanSplit (raw : List Text) (splitters : Option (List Text)) (cursor : Int)
    (place : Option (PAnn × Bool)) : PNode → SplitScan → Except ParseFail (Flow SplitScan Nat)
  | .mk lo hi ann cs, s =>
    match cs with
    | [] => splitLeaf raw splitters cursor place (.mk lo hi ann []) s
    | c :: cs => scanSplitList raw splitters cursor ann (c :: cs) s

/-- `stack_parser.py:369-370`: the children of a node, from some child on. -/
def scanSplitList (raw : List Text) (splitters : Option (List Text)) (cursor : Int) (ann : PAnn) :
    List PNode → SplitScan → Except ParseFail (Flow SplitScan Nat)
  | [], s => .ok (.go s)
  | c :: cs, s => do
    match ← scanSplit raw splitters cursor (some (ann, cs.isEmpty)) c s with
    | .done r => return .done r
    | .go s' => scanSplitList raw splitters cursor ann cs s'
end

/-- `utilities.py:251-296` `infer_split_truncation_index`. -/
def inferSplitTruncation (root : PNode) (raw : List Text) (splitters : Option (List Text)) (cursor : Int) :
    Except ParseFail Nat :=
  if cursor = raw.flatten.length then .ok raw.flatten.length
  else if 0 ≤ cursor ∧ cursor < raw.flatten.length then do
    match ← scanSplit raw splitters cursor none root ⟨0, false⟩ with
    | .done r => return r
    | .go s => return s.codeIndex
  else .error .assertion

/-! ### `utilities.py:299-353` `infer_truncation_with_fallbacks` -/

/-- `utilities.py:318-329`: the tokens at which statements end. -/
def SourceLanguage.truncationSplitters : SourceLanguage → List Text
  | .python => [['\n']]
  | .direct _ => [[';']]

/-- `utilities.py:318-329`: the brackets of blocks. -/
def SourceLanguage.blockPair : SourceLanguage → PairChoice
  | .python => .types .pythonIndent .pythonDedent
  | .direct _ => .texts ['{'] ['}']

/-- `utilities.py:318-329`, `332-338`: the width of an indent. Outside of Python it is passed on as it
is, and not used. -/
def truncationSpaces (cc : CharClass) (digit : Char → Bool) (lang : SourceLanguage) (code : Text)
    (spaces : Option Nat) : Except ParseFail Nat :=
  match spaces with
  | some n => .ok n
  | none => if lang = .python then inferSpacesPerIndent cc digit code [1, 2, 3, 4] else .ok 0

/-- `utilities.py:299-353` `infer_truncation_with_fallbacks`. (Unknown languages, which raise, are not
modelled.) -/
def inferTruncation (cc : CharClass) (digit : Char → Bool) (code : Text) (cursor : Int)
    (lang : SourceLanguage) (spaces : Option Nat) : Except ParseFail Nat := do
  let width ← truncationSpaces cc digit lang code spaces
  let r ← parseAndMaybePreprocess cc digit lang code width
  match ← inferMatchPairTruncation r.root r.raw r.types lang.blockPair cursor with
  | some i => return i
  | none => inferSplitTruncation r.root r.raw (some lang.truncationSplitters) cursor

/-! ### `utilities.py:68-155` `find_python_function_docstrings` -/

/-- `utilities.py:84-85` and the beginning of both regular expressions: the text after the leading
spaces. -/
def afterSpaces (t : Text) : Text := t.dropWhile (· == ' ')

/-- `utilities.py:85`, `129`: `re.compile(r' *def ').match(code)` succeeds. -/
def looksLikeFunction (t : Text) : Bool := ['d', 'e', 'f', ' '].isPrefixOf (afterSpaces t)

/-- `utilities.py:84`, `136`: the end of the match of `re.compile(r' *(\"\"\"|\'\'\')')`. -/
def docstringMatch (t : Text) : Option Nat :=
  if ['"', '"', '"'].isPrefixOf (afterSpaces t) ∨ ['\'', '\'', '\''].isPrefixOf (afterSpaces t) then
    some (t.length - (afterSpaces t).length + 3)
  else none

/-- `utilities.py:107-113`: the loop of `leading_indents` for `i`, `i + width`, …; `fuel` bounds the
number of rounds. -/
def leadingIndentsLoop (cc : CharClass) (width : Nat) (t : Text) : Nat → Nat → Nat → Nat
  | 0, _, count => count
  | fuel + 1, i, count =>
    if i < t.length then
      if ((t.take i).drop (i - width)).all cc.isSpace && decide ((t.take i).drop (i - width) ≠ []) then
        leadingIndentsLoop cc width t fuel (i + width) (i / width)
      else count
    else count

/-- `utilities.py:104-114` `leading_indents`. A step of zero raises. -/
def leadingIndents (cc : CharClass) (width : Nat) (t : Text) : Except ParseFail Nat :=
  if width = 0 then .error .value else .ok (leadingIndentsLoop cc width t t.length width 0)

/-- `utilities.py:117-153`: the body of the loop for a node and the sibling after it, if any. -/
def docstringAfter (cc : CharClass) (raw : List Text) (width : Nat) (node : PNode) (next : Option PNode) :
    Except ParseFail (List Nat) :=
  match next with
  | none => .ok []
  | some sibling =>
    if looksLikeFunction (node.text raw) then
      match docstringMatch (sibling.text raw) with
      | none => .ok []
      | some e => do
        let inner ← leadingIndents cc width (sibling.text raw)
        let outer ← leadingIndents cc width (node.text raw)
        if inner = outer + 1 then return [(raw.take sibling.lo).flatten.length + e] else return []
    else .ok []

mutual
/-- `utilities.py:117-153`: the nodes below a node. -/
def docstringsBelow (cc : CharClass) (raw : List Text) (width : Nat) : PNode → Except ParseFail (List Nat)
  | .mk _ _ _ cs => docstringsAmong cc raw width cs

/-- `utilities.py:117-153`: siblings and what is below them, in depth first order. (`Node.copy` and the
search for a node among the children of its parent have no counterpart here.) -/
def docstringsAmong (cc : CharClass) (raw : List Text) (width : Nat) :
    List PNode → Except ParseFail (List Nat)
  | [] => .ok []
  | c :: cs => do
    let here ← docstringAfter cc raw width c cs.head?
    let below ← docstringsBelow cc raw width c
    let rest ← docstringsAmong cc raw width cs
    return here ++ below ++ rest
end

/-- `utilities.py:68-155` `find_python_function_docstrings`. -/
def findDocstrings (cc : CharClass) (digit : Char → Bool) (code : Text) : Except ParseFail (List Nat) := do
  let width ← inferSpacesPerIndent cc digit code [1, 2, 3, 4]
  let r ← parseAndMaybePreprocess cc digit .python code width
  docstringsBelow cc r.raw width r.root

/-! ### `utilities.py:356-382` `infer_truncation_pydocstring` -/

/-- Python's `str.find`: where a text begins in another one for the first time. -/
def findText (sub : Text) : Text → Option Nat
  | [] => if sub.isEmpty then some 0 else none
  | c :: cs => if sub.isPrefixOf (c :: cs) then some 0 else (findText sub cs).map (· + 1)

/-- Where a bound of a slice is in a Python sequence: negative bounds count from the end, and bounds outside are
moved to the nearest end (as in `utilities.py:373` and `375`). -/
def sliceBound (length : Nat) (i : Int) : Nat :=
  if i < 0 then (length + i).toNat else min i.toNat length

/-- `utilities.py:356-382` `infer_truncation_pydocstring`. The cursor may be negative, as for slices. -/
def inferTruncationPydocstring (code : Text) (cursor : Int) : Except ParseFail (Option Int) :=
  let before := code.take (sliceBound code.length cursor)
  let quotes := before.drop (before.length - 3)
  if quotes = ['"', '"', '"'] ∨ quotes = ['\'', '\'', '\''] then
    match findText quotes (code.drop (sliceBound code.length cursor)) with
    | none => .ok none
    | some i => .ok (some (cursor + i + quotes.length))
  else .error .assertion

end RUSure
