import Verif.Model.CallSequence
import Verif.Model.PrefixBaselines
import Verif.Model.Solution

/-!
# Combining samples

`wrappers/demo_runner.py` (`DemoRunner.combine`, `get_extracted_parts`) and the parts of the wrappers that
it needs (`process_prototype_and_context`, `process_target`).
-/

namespace RUSure

/-- The methods of a wrapper that `combine` calls. -/
structure Wrapper (M S I E : Type) (C : Type := ConstraintState) where
  prototype : List (Node MatchName) → Nat → List (Node M)
  target : List (Node MatchName) → Nat → List (Node M)
  build : List (Node M) → List (List (Node M)) → Option (List ℚ) →
    Except (SystemBuildError E) (BuiltSystem S I C)

/-- `edit_distance_wrapper_base.py:107-116`: `_process_prototype_and_context_maybe_exit`. -/
def processEditPrototype (regions exits : Bool) (nodes : List (Node MatchName)) (location : Nat) :
    List (Node MatchName) :=
  let seq := if regions then insertRegions nodes true allowRegionsAround else nodes
  let seq := if exits then insertEarlyExit seq true true else seq
  truncatePrefix seq location

/-- `edit_distance_wrapper_base.py:120-126`: the context information. -/
def contextPrefix (nodes : List (Node MatchName)) (location : Nat) : Text :=
  (renderTextL nodes).take location

/-- `edit_distance_wrapper_base.py:129-141` `process_target`. -/
def processEditTarget (nodes : List (Node MatchName)) (location : Nat) : List (Node MatchName) :=
  truncatePrefix nodes location

/-- A wrapper for edit distances: `UncertaintyRegionsWrapper` inserts regions but no exits,
`PrefixByEditDistanceWrapper` inserts exits and possibly regions
(`uncertainty_regions_wrapper.py:256-267`, `prefix_truncation_wrapper.py:128-143`). -/
def editWrapper (invalid : Cost) (prm : Params) (regions exits : Bool) :
    Wrapper MatchName EditState (Option EditInfo) AddError where
  prototype := processEditPrototype regions exits
  target := processEditTarget
  build := buildEditSystem invalid prm

/-- `call_sequence_wrapper.py:319-342`, `496-539`: `ApiCallSequenceWrapper`. -/
def callWrapper (cc : CharClass) (builtin : List Text) (invalid : Cost) (f : SelUtility CallType) :
    Wrapper CallType SelState (Option SelInfo) SelError where
  prototype := makeCallseqTree cc builtin
  target := fun nodes location => stripDecisions (makeCallseqTree cc builtin nodes location)
  build := buildSelectionSystem invalid f

/-- What `combine` can raise. -/
inductive CombineError (E : Type) where
  /-- `combined_model_outputs[prototype_index]` -/
  | index
  | parse (e : ParseFail)
  | build (e : SystemBuildError E)
  | solve (e : SolveError)
  | extract
  | info (e : SolutionError)

/-- The part of a `CombineResult` that is there if the system is not empty: costs are negated
utilities. -/
structure CombineSolution where
  bound : Cost
  cost : Cost
  vector : List Nat
  assignments : Decisions
  info : SolutionInfo Unit

/-- `demo_runner.py:36-49` `CombineResult`. -/
structure CombineResult (M S I : Type) (C : Type := ConstraintState) where
  prototype : List (Node M)
  targets : List (List (Node M))
  system : BuiltSystem S I C
  results : SweepState
  solution : Option CombineSolution

/-- `demo_runner.py:118-126`: the loop over the samples. -/
def parseAll {A : Type} (parse : Text → Except ParseFail (List (Node MatchName)))
    (process : List (Node MatchName) → A) : List Text → Except ParseFail (List A)
  | [] => .ok []
  | t :: ts =>
    match parse t with
    | .error e => .error e
    | .ok nodes =>
      match parseAll parse process ts with
      | .error e => .error e
      | .ok as => .ok (process nodes :: as)

section
variable {M S I E C : Type}

/-- `demo_runner.py:141-170`: what `combine` does with a solved system. -/
def combineSolved (invalid : Cost) (proto : List (Node M)) (B : BuiltSystem S I C) (st : SweepState) :
    Except (CombineError E) (Option CombineSolution) :=
  match st.objectiveAtStep.getLast? with
  | none => .ok none
  | some bound =>
    match st.system.greedy .forward with
    | some (vec, some cost) =>
      match assignmentPairs B.system.keys B.system.values vec with
      | none => .error .extract
      | some a =>
        match solutionInfo invalid (fun _ => ()) proto a none (some B) with
        | .error e => .error (.info e)
        | .ok info => .ok (some ⟨bound, cost, vec, a, info⟩)
    | _ => .error .extract

/-- `demo_runner.py:88-183` `DemoRunner.combine`. `late` and `fuel` are as for the solver; the tolerance is
the default of the solver. -/
def combine (cc : CharClass) (digit : Char → Bool) (lang : HelperLanguage) (w : Wrapper M S I E C)
    (invalid : Cost) (tol : ℚ) (late : Nat → Bool) (fuel : Nat) (context : Text) (samples : List Text)
    (index : Int) : Except (CombineError E) (CombineResult M S I C) :=
  match pyGet (samples.map (context ++ ·)) index with
  | none => .error .index
  | some code =>
    match parseToNodes cc digit lang false code with
    | .error e => .error (.parse e)
    | .ok nodes =>
      match parseAll (parseToNodes cc digit lang false) (fun n => w.target n context.length)
          (samples.map (context ++ ·)) with
      | .error e => .error (.parse e)
      | .ok targets =>
        match w.build (w.prototype nodes context.length) targets none with
        | .error e => .error (.build e)
        | .ok B =>
          match B.system.data.solve tol late fuel with
          | .error e => .error (.solve e)
          | .ok st =>
            match combineSolved invalid (w.prototype nodes context.length) B st with
            | .error e => .error e
            | .ok sol => .ok ⟨w.prototype nodes context.length, targets, B, st, sol⟩

end

/-! ## Baselines -/

/-- What `build_baselines` can raise. -/
inductive BaselinesFail where
  | parse (e : ParseFail)
  | baseline (e : BaselineError)
  | info (e : SolutionError)

/-- `demo_runner.py:229-246`: the loop over the baselines; there are no systems. -/
def baselineInfos {K M : Type} (proto : List (Node M)) :
    List (K × Decisions) → Except BaselinesFail (List (K × Decisions × SolutionInfo Unit))
  | [] => .ok []
  | (name, a) :: r =>
    match solutionInfo (S := Unit) (I := Unit) (C := Unit) ⊤ (fun _ => ()) proto a none none with
    | .error e => .error (.info e)
    | .ok info =>
      match baselineInfos proto r with
      | .error e => .error e
      | .ok res => .ok ((name, a, info) :: res)

/-- `demo_runner.py:185-247` `DemoRunner.build_baselines`, for `PrefixByEditDistanceWrapper`. (The prototype
as a target is not used by its baselines.) -/
def prefixBaselineResults (cc : CharClass) (digit : Char → Bool) (lang : HelperLanguage) (c : PrefixConfig)
    (exp : LogProb → ℚ) (context : Text) (tokens : List (Text × LogProb)) :
    Except BaselinesFail (List (PrefixBaseline × Decisions × SolutionInfo Unit)) :=
  match parseToNodes cc digit lang false (context ++ tokens.flatMap Prod.fst) with
  | .error e => .error (.parse e)
  | .ok nodes =>
    match prefixBaselines c exp (pack (processEditPrototype c.insertRegions true nodes context.length))
        tokens with
    | .error e => .error (.baseline e)
    | .ok bs => baselineInfos (processEditPrototype c.insertRegions true nodes context.length) bs

/-- The baselines of `ApiCallSequenceWrapper` (`call_sequence_wrapper.py:485-494`). -/
inductive CallBaseline where
  | full | shorter | novel
  deriving DecidableEq, Repr

/-- `demo_runner.py:185-247` `DemoRunner.build_baselines`, for `ApiCallSequenceWrapper`; the log
probabilities are not used. -/
def callBaselineResults (cc : CharClass) (digit : Char → Bool) (lang : HelperLanguage) (builtin : List Text)
    (context sample : Text) : Except BaselinesFail (List (CallBaseline × Decisions × SolutionInfo Unit)) :=
  match parseToNodes cc digit lang false (context ++ sample) with
  | .error e => .error (.parse e)
  | .ok nodes =>
    match callBaselines (processCallPrototype cc builtin nodes context.length) with
    | .error e => .error (.baseline e)
    | .ok b => baselineInfos (makeCallseqTree cc builtin nodes context.length)
        [(.full, b.full), (.shorter, b.shorter), (.novel, b.novel)]

/-! ## Grouping -/

/-- `demo_runner.py:259-274`: `get_extracted_parts`, the grouping of parts by `itertools.groupby`. -/
def groupParts : List MarkedToken → List MarkedToken
  | [] => []
  | t :: ts =>
    match groupParts ts with
    | [] => [t]
    | g :: gs => if g.inRegion = t.inRegion then ⟨t.text ++ g.text, g.inRegion⟩ :: gs else t :: g :: gs

end RUSure
