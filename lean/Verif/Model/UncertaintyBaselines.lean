import Verif.Model.Runner

/-!
# Model of the baselines of `r_u_sure/wrappers/uncertainty_regions_wrapper.py`

Log probabilities are rational numbers or minus infinity. The exponential function is a parameter.
-/

namespace RUSure

variable {M : Type}

/-- What the construction of a baseline can raise. -/
inductive UncertainError where
  | baseline (e : BaselineError)
  | build (e : SystemBuildError AddError)
  | solve (e : SolveError)
  /-- an index outside of the conversion data, or `np.argmin` of nothing -/
  | extract

/-! ## Which tokens are uncertain -/

section
variable (S : Storage M)

/-- `uncertainty_regions_wrapper.py:410-428`: the loop of `baseline_assignment_from_token_probabilities`
over the items of `aligned_log_probs`; the argument after the items is `current_log_prob`. -/
def lowProbLoop (exp : LogProb → ℚ) (threshold : ℚ) (onlyNonempty cumulative : Bool) :
    List (Int × LogProb) → LogProb → Except BaselineError (List Nat)
  | [], _ => .ok []
  | (i, lp) :: r, current =>
    let current := if cumulative then current + lp else lp
    if exp current < threshold then
      if onlyNonempty then
        match pyGet S.preorder i with
        | none => .error .index
        | some id =>
          if id.cat = .tok then do
            let t ← tokenText S id
            let rest ← lowProbLoop exp threshold onlyNonempty cumulative r current
            if t ≠ [] then .ok (i.toNat :: rest) else .ok rest
          else .error .assertion
      else do
        let rest ← lowProbLoop exp threshold onlyNonempty cumulative r current
        .ok (i.toNat :: rest)
    else lowProbLoop exp threshold onlyNonempty cumulative r current

/-- `uncertainty_regions_wrapper.py:434-450`: the loop of `baseline_assignment_from_character_offset`; the
argument after the nodes is `seen_so_far`. -/
def lowOffsetLoop (offset : ℚ) : List NodeId → Nat → Except BaselineError (List Nat)
  | [], _ => .ok []
  | id :: ids, seen =>
    if id.cat = .tok then do
      let t ← tokenText S id
      let rest ← lowOffsetLoop offset ids (seen + t.length)
      if t ≠ [] ∧ offset < ((seen + t.length : Nat) : ℚ) then .ok (id.preorder.toNat :: rest) else .ok rest
    else if id.cat = .deco then do
      let t ← decoText S id
      lowOffsetLoop offset ids (seen + t.length)
    else lowOffsetLoop offset ids seen

/-- `uncertainty_regions_wrapper.py:456-467`: the loop of `baseline_assignment_from_example_fraction`. -/
def sizeLoop : List NodeId → Nat → Except BaselineError Nat
  | [], total => .ok total
  | id :: ids, total =>
    if id.cat = .tok then do
      let t ← tokenText S id
      sizeLoop ids (total + t.length)
    else if id.cat = .deco then do
      let t ← decoText S id
      sizeLoop ids (total + t.length)
    else sizeLoop ids total

/-- `uncertainty_regions_wrapper.py:495-517`: the loop of `baseline_assignment_from_depth_cutoff`; the
arguments after the items are `current_depth` and `first_token_depth`. -/
def lowDepthLoop (ancestor child : Int) : List TravItem → Int → Option Int → List Nat
  | [], _, _ => []
  | it :: its, depth, first =>
    if it.cat = .beforeGroup then lowDepthLoop ancestor child its (depth + 1) first
    else if it.cat = .afterGroup then lowDepthLoop ancestor child its (depth - 1) first
    else if it.id.cat = .tok then
      match first with
      | none => lowDepthLoop ancestor child its depth (some depth)
      | some f =>
        if depth ≤ f - ancestor ∨ depth ≥ f + child then
          it.id.preorder.toNat :: lowDepthLoop ancestor child its depth first
        else lowDepthLoop ancestor child its depth first
    else lowDepthLoop ancestor child its depth first

end

/-- The names of the baselines, without the text of numbers
(`uncertainty_regions_wrapper.py:294-322`). -/
inductive UncertainBaseline where
  | nonempty (threshold : ℚ)
  | cumulative (threshold : ℚ)
  | fraction (f : ℚ)
  | cutoff (ancestor child : Int)
  deriving DecidableEq, Repr

/-- The arguments of `UncertaintyRegionsWrapper` that concern baselines
(`uncertainty_regions_wrapper.py:216-218`). -/
structure UncertainConfig where
  thresholds : List ℚ
  fractions : List ℚ
  cutoffs : List (Int × Int)

/-- The baselines that are computed, in order (`uncertainty_regions_wrapper.py:286-322`). -/
def UncertainConfig.names (c : UncertainConfig) : List UncertainBaseline :=
  c.thresholds.flatMap (fun p => [.nonempty p, .cumulative p]) ++ c.fractions.map .fraction
    ++ c.cutoffs.map fun x => .cutoff x.1 x.2

/-- The indices that are given to `_assignment_from_low_confidence_nodes` for a baseline
(`uncertainty_regions_wrapper.py:294-322`, `403-517`). -/
def lowIndices (S : Storage M) (aligned : List (Int × LogProb)) (exp : LogProb → ℚ) :
    UncertainBaseline → Except BaselineError (List Nat)
  | .nonempty p => lowProbLoop S exp p true false aligned 0
  | .cumulative p => lowProbLoop S exp p true true aligned 0
  | .fraction f => do
    let total ← sizeLoop S S.preorder 0
    lowOffsetLoop S (f * (total : ℚ)) S.preorder 0
  | .cutoff ancestor child =>
    if child < 1 then .error .value
    else if ancestor < 1 then .error .value
    else
      match S.inOrderTraversal true with
      | none => .error .index
      | some its => .ok (lowDepthLoop ancestor child its 0 none)

/-! ## From uncertain tokens to decisions -/

/-- `uncertainty_regions_wrapper.py:360-401`: `_assignment_from_low_confidence_nodes`; `D` is the system
with the prototype as its only target. The clone (line 382) is not needed here. `late` and `fuel` are as for
the solver, the tolerance is the default of the solver. -/
def lowAssignment (D : DualSystem DecisionKey DecisionValue) (tol : ℚ) (late : Nat → Bool) (fuel : Nat)
    (low : List Nat) : Except UncertainError Decisions :=
  match D.constrain ((1000000 : ℚ) : Cost)
      (low.foldl (fun d i => dictSet (⟨i, .inRegion⟩ : DecisionKey) DecisionValue.yes d) []) with
  | none => .error (.baseline .key)
  | some D' =>
    match D'.data.solve tol late fuel with
    | .error e => .error (.solve e)
    | .ok st =>
      match st.system.greedy .forward with
      | none => .error .extract
      | some (vec, _) =>
        match assignmentPairs D'.keys D'.values vec with
        | none => .error .extract
        | some a => .ok a

/-- The assignments to `results` (`uncertainty_regions_wrapper.py:285-324`); `late i` are the readings of the
clock during the `i`-th call of the solver, counted from `i`. -/
def uncertainResults (S : Storage M) (aligned : List (Int × LogProb)) (exp : LogProb → ℚ)
    (D : DualSystem DecisionKey DecisionValue) (tol : ℚ) (late : Nat → Nat → Bool) (fuel : Nat) :
    Nat → List UncertainBaseline → List (UncertainBaseline × Decisions) →
    Except UncertainError (List (UncertainBaseline × Decisions))
  | _, [], results => .ok results
  | i, b :: bs, results =>
    match lowIndices S aligned exp b with
    | .error e => .error (.baseline e)
    | .ok low =>
      match lowAssignment D tol (late i) fuel low with
      | .error e => .error e
      | .ok d => uncertainResults S aligned exp D tol late fuel (i + 1) bs (dictSet b d results)

/-- `uncertainty_regions_wrapper.py:269-324` `UncertaintyRegionsWrapper.build_baseline_assignments`, with the
constructor of the builder (lines 330-358), which aligns the log probabilities and builds a system. -/
def uncertainBaselines (c : UncertainConfig) (exp : LogProb → ℚ) (invalid : Cost) (prm : Params) (tol : ℚ)
    (late : Nat → Nat → Bool) (fuel : Nat) (proto target : List (Node MatchName))
    (tokens : List (Text × LogProb)) : Except UncertainError (List (UncertainBaseline × Decisions)) :=
  match alignTokenLogProbs tokens (pack proto) false with
  | none => .error (.baseline .value)
  | some aligned =>
    match buildEditSystem invalid prm proto [target] none with
    | .error e => .error (.build e)
    | .ok B => uncertainResults (pack proto) aligned exp B.system tol late fuel 0 c.names []

/-- What `build_baselines` can raise. -/
inductive UncertainFail where
  | uncertain (e : UncertainError)
  | fail (e : BaselinesFail)

/-- `demo_runner.py:185-247` `DemoRunner.build_baselines`, for `UncertaintyRegionsWrapper`. -/
def uncertainBaselineResults (cc : CharClass) (digit : Char → Bool) (lang : HelperLanguage)
    (c : UncertainConfig) (exp : LogProb → ℚ) (invalid : Cost) (prm : Params) (tol : ℚ)
    (late : Nat → Nat → Bool) (fuel : Nat) (context : Text) (tokens : List (Text × LogProb)) :
    Except UncertainFail (List (UncertainBaseline × Decisions × SolutionInfo Unit)) :=
  match parseToNodes cc digit lang false (context ++ tokens.flatMap Prod.fst) with
  | .error e => .error (.fail (.parse e))
  | .ok nodes =>
    match uncertainBaselines c exp invalid prm tol late fuel
        (processEditPrototype true false nodes context.length) (processEditTarget nodes context.length)
        tokens with
    | .error e => .error (.uncertain e)
    | .ok bs =>
      match baselineInfos (processEditPrototype true false nodes context.length) bs with
      | .error e => .error (.fail e)
      | .ok res => .ok res

end RUSure
