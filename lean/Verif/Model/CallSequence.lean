import Verif.Model.ParserTools
import Verif.Model.PrefixBaselines

/-!
# Model of the extraction of calls and of its baselines (`r_u_sure/wrappers/call_sequence_wrapper.py`)
-/

namespace RUSure

/-- The match types of the nodes of calls (`call_sequence_wrapper.py:153-177`, `230`). -/
inductive CallType where
  | apiCall | startCall | endCall | args | emptyArgs | attributeDot | expected | novel
  deriving DecidableEq, Repr

/-- `call_sequence_wrapper.py:63-73`: the loop of `extract_context_tokens`; the arguments are `position`
and `seen_tokens`, a set that is represented by the list of what has been added. -/
def contextTokensLoop {M : Type} (location : Nat) :
    List (Node M × List Nat × WalkTag) → Nat → List Text → List Text
  | [], _, seen => seen
  | (.tok t _, _, _) :: rest, position, seen =>
    if location ≤ position + t.length then seen ++ [t]
    else contextTokensLoop location rest (position + t.length) (seen ++ [t])
  | (.deco t, _, _) :: rest, position, seen =>
    if location ≤ position + t.length then seen
    else contextTokensLoop location rest (position + t.length) seen
  | _ :: rest, position, seen => contextTokensLoop location rest position seen

/-- `call_sequence_wrapper.py:56-74` `extract_context_tokens`. (Simplification: `prediction_location`
is not negative.) -/
def extractContextTokens {M : Type} (nodes : List (Node M)) (location : Nat) : List Text :=
  contextTokensLoop location (walkWithPaths nodes false false []) 0 []

/-- `call_sequence_wrapper.py:80-87` `_is_paren`. -/
def isParen : Node MatchName → Bool
  | .group [.tok t mt, _, _] gt => gt = .nodeType .matched && t = ['('] && mt = .nodeType .matchLeft
  | _ => false

/-- Is it a decoration node? -/
def isDecoNode : Node MatchName → Bool
  | .deco _ => true
  | _ => false

/-- Is it a group node? -/
def isGroupNode : Node MatchName → Bool
  | .group _ _ => true
  | _ => false

/-- Is it a token node? -/
def isTokNode : Node MatchName → Bool
  | .tok _ _ => true
  | _ => false

/-- Is it the token with the given text and match type (equality of data classes)? -/
def isToken (text : Text) (type : MatchName) : Node MatchName → Bool
  | .tok t mt => t = text && mt = type
  | _ => false

/-- The nodes of calls. -/
abbrev Call := List (Node CallType)

/-- `call_sequence_wrapper.py:124-137`: the loop that looks for a candidate; the arguments are
`started_candidate`, `ended_candidate`, `candidate` and `after_candidate`. Nodes come with the calls that
are found in them. -/
def splitCandidate {A : Type} : List (Node MatchName × A) → Bool → Bool →
    List (Node MatchName × A) → List (Node MatchName × A) →
    List (Node MatchName × A) × List (Node MatchName × A)
  | [], _, _, candidate, after => (candidate, after)
  | x :: rest, started, ended, candidate, after =>
    if !ended then
      let started := started || !isDecoNode x.1
      let candidate := if started then candidate ++ [x] else candidate
      splitCandidate rest started (isGroupNode x.1) candidate after
    else splitCandidate rest started ended candidate (after ++ [x])

/-- `call_sequence_wrapper.py:140-149`: the check of a candidate. -/
def isCallCandidate (candidate : List (Node MatchName)) : Bool :=
  decide (2 ≤ candidate.length)
    && !((candidate[0]?.map (isToken ['d', 'e', 'f'] (.nodeType .contentLeaf))).getD false)
    && !((candidate[0]?.map (isToken ['c', 'l', 'a', 's', 's'] (.nodeType .contentLeaf))).getD false)
    && ((pyGet candidate (-1)).map isParen).getD false
    && ((pyGet candidate (-2)).map isTokNode).getD false

/-- `call_sequence_wrapper.py:163-182`: what is appended to `reverse_outs` for a node of the candidate. The
regular expression `\s+` is matched by non-empty white space. -/
def callNodeParts (cc : CharClass) (expected : List Text) : Node MatchName → List (Node CallType)
  | .tok t mt =>
    if t = ['.'] ∧ mt = .nodeType .contentLeaf then [.tok ['.'] .attributeDot, .rstart]
    else if t ∈ expected then [.tok t .expected]
    else [.tok t .novel]
  | .deco t => if t ≠ [] ∧ t.all cc.isSpace then [.rstart, .deco t] else [.deco t]
  | _ => []

/-- The text of the arguments of a candidate that has passed the check (`call_sequence_wrapper.py:154-156`). -/
def argsText (candidate : List (Node MatchName)) : Text :=
  match candidate.getLast? with
  | some (.group (_ :: args :: _) _) => renderText args
  | _ => []

/-- `call_sequence_wrapper.py:150-184`: the nodes of a call. -/
def buildCall (cc : CharClass) (expected : List Text) (candidate : List (Node MatchName)) : Call :=
  let text := argsText candidate
  let reverseOuts : Call := [.rend, .tok [')'] .endCall]
    ++ [if text ≠ [] then .tok text .args else .tok [] .emptyArgs]
    ++ [.rend, .tok ['('] .startCall]
    ++ candidate.reverse.flatMap (callNodeParts cc expected)
    ++ [.rstart]
  reverseOuts.reverse

/-- `call_sequence_wrapper.py:139-193`: the rest of `_extract_all_from`, after the loop. -/
def extractFrom (cc : CharClass) (expected : List Text) (nodes : List (Node MatchName × List Call)) : List Call :=
  let (candidate, after) := splitCandidate nodes false false [] []
  (if isCallCandidate (candidate.map Prod.fst) then [buildCall cc expected (candidate.map Prod.fst)]
    else candidate.flatMap Prod.snd) ++ after.flatMap Prod.snd

mutual
/-- The calls that are found in the children of a group (`call_sequence_wrapper.py:188-189`, `192-193`);
none in other nodes. -/
def callsInNode (cc : CharClass) (expected : List Text) : Node MatchName → List Call
  | .group cs _ => extractFrom cc expected (withCalls cc expected cs)
  | .deco _ => []
  | .tok _ _ => []
  | .rstart => []
  | .rend => []
  | .exit => []

/-- Nodes with the calls that are found in them. -/
def withCalls (cc : CharClass) (expected : List Text) :
    List (Node MatchName) → List (Node MatchName × List Call)
  | [] => []
  | n :: ns => (n, callsInNode cc expected n) :: withCalls cc expected ns
end

/-- `call_sequence_wrapper.py:89-193` `_extract_all_from`, as the list of what is yielded. -/
def extractAllFrom (cc : CharClass) (expected : List Text) (nodes : List (Node MatchName)) : List Call :=
  extractFrom cc expected (withCalls cc expected nodes)

/-- `str.rfind("\n")`, where -1 is replaced by 0 (`call_sequence_wrapper.py:218-220`): the argument after
the text is the position of its first character, then the last newline so far. -/
def lastNewline : Text → Nat → Nat → Nat
  | [], _, found => found
  | c :: t, i, found => lastNewline t (i + 1) (if c = '\n' then i else found)

/-- `call_sequence_wrapper.py:195-233` `_make_callseq_tree`; `builtin` are the built-in tokens of Python.
(Simplification: `prediction_location` is not negative.) -/
def makeCallseqTree (cc : CharClass) (builtin : List Text) (nodes : List (Node MatchName)) (location : Nat) :
    List (Node CallType) :=
  let adjusted := lastNewline ((renderTextL nodes).take location) 0 0
  let expected := extractContextTokens nodes location ++ builtin
  (extractAllFrom cc expected (truncatePrefix nodes (adjusted : Int))).flatMap fun seq =>
    [.group seq .apiCall, .deco ['\n']]

/-- `call_sequence_wrapper.py:319-329` `process_prototype_and_context`; the context information is
empty. -/
def processCallPrototype (cc : CharClass) (builtin : List Text) (nodes : List (Node MatchName)) (location : Nat) :
    Storage CallType := pack (makeCallseqTree cc builtin nodes location)

/-- `call_sequence_wrapper.py:331-342` `process_target`. -/
def processCallTarget (cc : CharClass) (builtin : List Text) (nodes : List (Node MatchName)) (location : Nat) :
    Storage CallType := pack (stripDecisions (makeCallseqTree cc builtin nodes location))

/-! ### Baselines -/

/-- An indexing that may raise `IndexError`. -/
def getOrIndex {A : Type} (l : List A) (i : Int) : Except BaselineError A :=
  match pyGet l i with
  | none => .error .index
  | some a => .ok a

/-- An assertion. -/
def assertCall (b : Bool) : Except BaselineError Unit := if b then .ok () else .error .assertion

/-- `call_sequence_wrapper.py:402-419`: the loop backwards from the opening parenthesis; the arguments are
`prev_start` and `saw_novel`; the result is `current_call_shorter_start`, `prev_start` and `saw_novel`. -/
def shorterStartLoop (S : Storage CallType) : List NodeId → Option Int → Bool →
    Except BaselineError (Option Int × Option Int × Bool)
  | [], prev, novel => .ok (none, prev, novel)
  | id :: ids, prev, novel =>
    if id.cat = .tok then do
      let child ← getOrIndex S.toks id.idx
      shorterStartLoop S ids prev (novel || child.2 = .novel)
    else if id.cat = .deco then
      match prev with
      | none => .error .assertion
      | some p => .ok (some p, prev, novel)
    else if id.cat = .rstart then shorterStartLoop S ids (some id.preorder) novel
    else shorterStartLoop S ids prev novel

/-- The lists `all_calls_full`, `all_calls_shorter` and `novel_calls_shorter`. -/
structure CallMarkers where
  full : List Int
  shorter : List Int
  novel : List Int
  deriving DecidableEq, Repr

/-- `call_sequence_wrapper.py:368-436`: the body of the loop, for one call. -/
def addCallMarkers (S : Storage CallType) (id : NodeId) (m : CallMarkers) : Except BaselineError CallMarkers := do
  let group ← getOrIndex S.groups id.idx
  let last ← getOrIndex group.children (-1)
  assertCall (last.cat = .rend)
  let full := m.full ++ [last.preorder]
  assertCall ((← getOrIndex group.children (-2)).cat = .tok)
  assertCall ((← getOrIndex group.children (-3)).cat = .tok)
  let stop ← getOrIndex group.children (-4)
  assertCall (stop.cat = .rend)
  let (start, prev, novel) ← shorterStartLoop S (group.children.take (group.children.length - 4)).reverse none false
  let start ← match start, prev with
    | some s, _ => Except.ok s
    | none, some p => Except.ok p
    | none, none => Except.error BaselineError.assertion
  let first ← getOrIndex group.children 0
  assertCall (first.cat = .rstart)
  return ⟨full ++ [first.preorder], m.shorter ++ [start, stop.preorder],
    if novel then m.novel ++ [start, stop.preorder] else m.novel⟩

/-- `call_sequence_wrapper.py:366-436`: the loop over the calls. -/
def callMarkersLoop (S : Storage CallType) : List NodeId → CallMarkers → Except BaselineError CallMarkers
  | [], m => .ok m
  | id :: ids, m => do
    if id.cat = .group then callMarkersLoop S ids (← addCallMarkers S id m)
    else callMarkersLoop S ids m

/-- `call_sequence_wrapper.py:446-484`: the loop of `_make_suggestion`; the arguments are `assignment`,
`seen_indices` and `is_in_low_conf`. -/
def suggestionLoop (indices : List Int) : List NodeId → Decisions → List Int → Bool →
    Except BaselineError (Decisions × List Int)
  | [], assignment, seen, _ => .ok (assignment, seen)
  | id :: ids, assignment, seen, inside =>
    if id.cat = .rstart then
      let key : DecisionKey := ⟨id.preorder.toNat, .start⟩
      if id.preorder ∈ indices then
        if inside then .error .assertion
        else suggestionLoop indices ids (dictSet key .yes assignment) (seen ++ [id.preorder]) true
      else suggestionLoop indices ids (dictSet key (if inside then .na else .no) assignment)
        (seen ++ [id.preorder]) inside
    else if id.cat = .rend then
      let key : DecisionKey := ⟨id.preorder.toNat, .stop⟩
      if id.preorder ∈ indices then
        if inside then suggestionLoop indices ids (dictSet key .yes assignment) (seen ++ [id.preorder]) false
        else .error .assertion
      else suggestionLoop indices ids (dictSet key (if inside then .no else .na) assignment)
        (seen ++ [id.preorder]) inside
    else suggestionLoop indices ids assignment seen inside

/-- `call_sequence_wrapper.py:442-488` `_make_suggestion`; the set of indices is given by a list. -/
def makeSuggestion (S : Storage CallType) (indices : List Int) : Except BaselineError Decisions := do
  let (assignment, seen) ← suggestionLoop indices S.preorder [] [] false
  if indices.all (seen.contains ·) then return assignment else .error .assertion

/-- The baselines of `call_sequence_wrapper.py:490-494`. -/
structure CallBaselines where
  full : Decisions
  shorter : Decisions
  novel : Decisions

/-- `call_sequence_wrapper.py:344-494` `build_baseline_assignments`. -/
def callBaselines (S : Storage CallType) : Except BaselineError CallBaselines := do
  let m ← callMarkersLoop S S.root ⟨[], [], []⟩
  return ⟨← makeSuggestion S m.full, ← makeSuggestion S m.shorter, ← makeSuggestion S m.novel⟩

end RUSure
