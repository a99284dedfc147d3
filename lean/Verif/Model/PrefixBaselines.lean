import Verif.Model.Regions
import Verif.Model.Codec
import Verif.Model.TokenProbAlign
import Mathlib.Algebra.Order.Monoid.Unbundled.WithTop
import Mathlib.Data.Rat.Defs

/-!
# Model of the baselines of `r_u_sure/wrappers/prefix_truncation_wrapper.py`

Log probabilities are rational numbers or minus infinity. The exponential function is a parameter.
-/

namespace RUSure

variable {M : Type}

/-- Log probabilities: `none`/`⊥` is minus infinity. -/
abbrev LogProb := WithBot ℚ

/-- What the construction of a baseline can raise. -/
inductive BaselineError where
  | value
  | assertion
  | key
  | index
  | zeroDivision
  deriving DecidableEq, Repr

/-- A dictionary of decisions, in order of insertion. -/
abbrev Decisions := List (DecisionKey × DecisionValue)

/-- `prefix_truncation_wrapper.py:248-271`: the loop of `_assignment_from_exit_point`; the arguments
after the nodes are the local variables `already_exited` and `constraints`. -/
def exitPointLoop (target : Option Int) : List NodeId → Bool → Decisions → Except BaselineError (Bool × Decisions)
  | [], exited, constraints => .ok (exited, constraints)
  | id :: ids, exited, constraints =>
    if id.cat = .exit then
      let key : DecisionKey := ⟨id.preorder.toNat, .exit⟩
      if some id.preorder = target then
        if exited then .error .assertion
        else exitPointLoop target ids true (dictSet key .yes constraints)
      else if exited then exitPointLoop target ids exited (dictSet key .na constraints)
      else exitPointLoop target ids exited (dictSet key .no constraints)
    else if id.cat = .rstart then
      exitPointLoop target ids exited (dictSet ⟨id.preorder.toNat, .start⟩ .no constraints)
    else exitPointLoop target ids exited constraints

/-- `prefix_truncation_wrapper.py:229-280` `_assignment_from_exit_point`. -/
def assignmentFromExitPoint (S : Storage M) (target : Option Int) : Except BaselineError Decisions :=
  match exitPointLoop target S.preorder false [] with
  | .error e => .error e
  | .ok (exited, constraints) =>
    if target ≠ none ∧ exited = false then .error .value else .ok constraints

/-- The log probability of a token node (`self.aligned_log_probs[...]`). -/
def alignedLogProb (aligned : List (Int × LogProb)) (id : NodeId) : Except BaselineError LogProb :=
  match aligned.lookup id.preorder with
  | none => .error .key
  | some lp => .ok lp

/-- The text of a token node (`self.prototype.text_token_nodes[...].text_contents`). -/
def tokenText (S : Storage M) (id : NodeId) : Except BaselineError Text :=
  match pyGet S.toks id.idx with
  | none => .error .index
  | some t => .ok t.1

/-- The text of a decoration node. -/
def decoText (S : Storage M) (id : NodeId) : Except BaselineError Text :=
  match pyGet S.decos id.idx with
  | none => .error .index
  | some t => .ok t

section
variable (S : Storage M) (aligned : List (Int × LogProb)) (exp : LogProb → ℚ)

/-- `prefix_truncation_wrapper.py:291-309`: the loop of `baseline_assignment_from_token_prob`; the
arguments are `current_log_prob`, `last_exit_seen` and `should_exit_at_next_opportunity`; the result
is the argument of `_assignment_from_exit_point`. -/
def tokenProbLoop (threshold : ℚ) (cumulative : Bool) :
    List NodeId → LogProb → Option Int → Bool → Except BaselineError (Option Int)
  | [], _, _, _ => .ok none
  | id :: ids, current, last, next =>
    if id.cat = .exit then
      if next then .ok (some id.preorder)
      else tokenProbLoop threshold cumulative ids current (some id.preorder) next
    else if id.cat = .tok then do
      let t ← tokenText S id
      if t ≠ [] then
        let lp ← alignedLogProb aligned id
        let current := if cumulative then current + lp else lp
        if exp current < threshold then
          match last with
          | some e => .ok (some e)
          | none => tokenProbLoop threshold cumulative ids current last true
        else tokenProbLoop threshold cumulative ids current last next
      else tokenProbLoop threshold cumulative ids current last next
    else tokenProbLoop threshold cumulative ids current last next

/-- `prefix_truncation_wrapper.py:282-312` `baseline_assignment_from_token_prob`. -/
def baselineTokenProb (threshold : ℚ) (cumulative : Bool) : Except BaselineError Decisions := do
  assignmentFromExitPoint S (← tokenProbLoop S aligned exp threshold cumulative S.preorder 0 none false)

/-- `prefix_truncation_wrapper.py:324-337`: the loop of `baseline_assignment_from_max_average_log_prob`;
the arguments are `current_log_prob`, `current_token_count`, `best_average_log_prob_at_exit_point` and
`best_exit`. -/
def maxAverageLoop : List NodeId → LogProb → Nat → LogProb → Option Int → Except BaselineError (Option Int)
  | [], _, _, _, bestExit => .ok bestExit
  | id :: ids, current, count, best, bestExit =>
    if id.cat = .exit then
      if count > 0 then
        let average : LogProb := WithBot.map (· / (count : ℚ)) current
        if average > best then maxAverageLoop ids current count average (some id.preorder)
        else maxAverageLoop ids current count best bestExit
      else maxAverageLoop ids current count best bestExit
    else if id.cat = .tok then do
      let t ← tokenText S id
      if t ≠ [] then
        let lp ← alignedLogProb aligned id
        maxAverageLoop ids (current + lp) (count + 1) best bestExit
      else maxAverageLoop ids current count best bestExit
    else maxAverageLoop ids current count best bestExit

/-- `prefix_truncation_wrapper.py:314-342` `baseline_assignment_from_max_average_log_prob`. -/
def baselineMaxAverage : Except BaselineError Decisions := do
  assignmentFromExitPoint S (← maxAverageLoop S aligned S.preorder 0 0 ⊥ none)

/-- `prefix_truncation_wrapper.py:381-397`: the loop of `baseline_assignment_from_intellicode_compose`;
the arguments are `last_exit_seen`, `should_exit_at_next_opportunity` and `tokens_seen`. -/
def intellicodeLoop (alpha kappa : ℚ) :
    List NodeId → Option Int → Bool → Nat → Except BaselineError (Option Int)
  | [], _, _, _ => .ok none
  | id :: ids, last, next, seen =>
    if id.cat = .exit then
      if next then .ok (some id.preorder)
      else intellicodeLoop alpha kappa ids (some id.preorder) next seen
    else if id.cat = .tok then do
      let t ← tokenText S id
      if t ≠ [] then
        let lp ← alignedLogProb aligned id
        if kappa = 0 then .error .zeroDivision
        else if 1 + exp ((-(seen : ℚ) / kappa : ℚ) : LogProb) = 0 then .error .zeroDivision
        else if exp lp < alpha / (1 + exp ((-(seen : ℚ) / kappa : ℚ) : LogProb)) then
          match last with
          | some e => .ok (some e)
          | none => intellicodeLoop alpha kappa ids last true (seen + 1)
        else intellicodeLoop alpha kappa ids last next (seen + 1)
      else intellicodeLoop alpha kappa ids last next seen
    else intellicodeLoop alpha kappa ids last next seen

/-- `prefix_truncation_wrapper.py:344-400` `baseline_assignment_from_intellicode_compose`. -/
def baselineIntellicode (alpha kappa : ℚ) : Except BaselineError Decisions := do
  assignmentFromExitPoint S (← intellicodeLoop S aligned exp alpha kappa S.preorder none false 0)

/-- `prefix_truncation_wrapper.py:409-417`: the loop of `baseline_assignment_from_characters`; the
arguments are `characters_so_far` and `should_exit_at_next_opportunity`. -/
def charactersLoop (limit : Int) : List NodeId → Nat → Bool → Except BaselineError (Option Int)
  | [], _, _ => .ok none
  | id :: ids, chars, next =>
    if id.cat = .exit then
      if next then .ok (some id.preorder) else charactersLoop limit ids chars next
    else if id.cat = .tok then do
      let t ← tokenText S id
      if (chars + t.length : Nat) ≥ limit then charactersLoop limit ids (chars + t.length) true
      else charactersLoop limit ids (chars + t.length) next
    else charactersLoop limit ids chars next

/-- `prefix_truncation_wrapper.py:402-420` `baseline_assignment_from_characters`. -/
def baselineCharacters (limit : Int) : Except BaselineError Decisions := do
  assignmentFromExitPoint S (← charactersLoop S limit S.preorder 0 false)

/-- `prefix_truncation_wrapper.py:433-442`: the loop of `baseline_assignment_from_lines`; the arguments
are `newlines_so_far` and `should_exit_at_next_opportunity`. -/
def linesLoop (limit : Int) : List NodeId → Nat → Bool → Except BaselineError (Option Int)
  | [], _, _ => .ok none
  | id :: ids, lines, next =>
    if id.cat = .exit then
      if next then .ok (some id.preorder) else linesLoop limit ids lines next
    else if id.cat = .deco then do
      let t ← decoText S id
      if '\n' ∈ t then
        if ((lines + 1 : Nat) : Int) ≥ limit then linesLoop limit ids (lines + 1) true
        else linesLoop limit ids (lines + 1) next
      else linesLoop limit ids lines next
    else linesLoop limit ids lines next

/-- `prefix_truncation_wrapper.py:422-445` `baseline_assignment_from_lines`. -/
def baselineLines (limit : Int) : Except BaselineError Decisions := do
  assignmentFromExitPoint S (← linesLoop S limit S.preorder 0 false)

end

/-- The names of the baselines, without the text of numbers (`prefix_truncation_wrapper.py:170-204`). -/
inductive PrefixBaseline where
  | tokenProb (threshold : ℚ)
  | prefixProb (threshold : ℚ)
  | intellicode
  | maxAverage
  | characters (n : Int)
  | lines (n : Int)
  deriving DecidableEq, Repr

/-- The arguments of `PrefixByEditDistanceWrapper` that concern baselines
(`prefix_truncation_wrapper.py:53-80`). -/
structure PrefixConfig where
  insertRegions : Bool
  tokenProbs : List ℚ
  prefixProbs : List ℚ
  maxAverage : Bool
  intellicode : Bool
  characters : List Int
  lines : List Int

/-- The baselines that are computed, in order (`prefix_truncation_wrapper.py:168-205`). -/
def PrefixConfig.names (c : PrefixConfig) : List PrefixBaseline :=
  c.tokenProbs.map .tokenProb ++ c.prefixProbs.map .prefixProb
    ++ (if c.intellicode then [.intellicode] else []) ++ (if c.maxAverage then [.maxAverage] else [])
    ++ c.characters.map .characters ++ c.lines.map .lines

/-- The call of the builder for a baseline (`prefix_truncation_wrapper.py:168-205`); the parameters of
the IntelliCode heuristic have their default values (line 346-347). -/
def prefixBaseline (S : Storage M) (aligned : List (Int × LogProb)) (exp : LogProb → ℚ) :
    PrefixBaseline → Except BaselineError Decisions
  | .tokenProb p => baselineTokenProb S aligned exp p false
  | .prefixProb p => baselineTokenProb S aligned exp p true
  | .intellicode => baselineIntellicode S aligned exp (4 / 5) 10
  | .maxAverage => baselineMaxAverage S aligned
  | .characters n => baselineCharacters S n
  | .lines n => baselineLines S n

/-- The assignments to `results`. -/
def prefixResults (S : Storage M) (aligned : List (Int × LogProb)) (exp : LogProb → ℚ) :
    List PrefixBaseline → List (PrefixBaseline × Decisions) →
    Except BaselineError (List (PrefixBaseline × Decisions))
  | [], results => .ok results
  | b :: bs, results => do
    prefixResults S aligned exp bs (dictSet b (← prefixBaseline S aligned exp b) results)

/-- `prefix_truncation_wrapper.py:145-205` `PrefixByEditDistanceWrapper.build_baseline_assignments`; the
constructor of the builder aligns the log probabilities (lines 211-227), which raises `ValueError` if
the texts disagree. -/
def prefixBaselines (c : PrefixConfig) (exp : LogProb → ℚ) (S : Storage M) (tokens : List (Text × LogProb)) :
    Except BaselineError (List (PrefixBaseline × Decisions)) :=
  if c.insertRegions then .ok []
  else
    match alignTokenLogProbs tokens S false with
    | none => .error .value
    | some aligned => prefixResults S aligned exp c.names []

end RUSure
