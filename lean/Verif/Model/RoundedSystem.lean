import Verif.Model.RoundedGreedy
import Verif.Model.System

/-!
# Building a system from a prototype and targets in machine arithmetic

`build_system` of `wrappers/edit_distance_wrapper_base.py` and `wrappers/call_sequence_wrapper.py`: the
scale factors, their sum and the scaled costs are computed by the machine. The costs of the edges of
the utility DAGs before scaling are those of `Model/Edit.lean` and `Model/Selection.lean`.
-/

namespace RUSure.Rounded

variable (A : Arith)

/-- `packed_dags.py:942-953` `scale_packed_dag_costs`. A zero or negative scale gives NaN or `-inf` on
infinite edges and is not modelled. -/
def scaleDag (d : PackedDag) (s : ℚ) : PackedDag :=
  { d with edges := d.edges.map fun e => { e with cost := A.mul e.cost s } }

/-- `edit_distance_wrapper_base.py:167-170`, `call_sequence_wrapper.py:518-521`: the packed and scaled
DAG with its conversion data, as given to `make_system`. -/
def entry {S I : Type} (p : Part S I) : PackedDag × List DecisionKey × List DecisionValue :=
  (scaleDag A p.conversion.packed p.scale, p.conversion.keys, p.conversion.values)

/-- `edit_distance_wrapper_base.py:153-155`, `call_sequence_wrapper.py:506-508`: the scale factors,
`[1.0 / len(targets)] * len(targets)` if there are none given. -/
def scaleFactors {E : Type} (n : Nat) (factors : Option (List ℚ)) :
    Except (SystemBuildError E) (List ℚ) :=
  match factors with
  | none => if n = 0 then .error .noTargets else .ok (List.replicate n (A.div 1 (n : ℚ)))
  | some fs => .ok fs

/-- Python's `sum` of floats: from left to right (versions before 3.12; later ones compensate for
rounding errors, see `buildSystem`). -/
def leftSum (fs : List ℚ) : ℚ := fs.foldl (fun (w : ℚ) (f : ℚ) => (A.add w f).untopD 0) 0

/-- `edit_distance_wrapper_base.py:143-188`, `call_sequence_wrapper.py:496-539`: `build_system`, for
any way to make a utility DAG of a target. `total` is the way in which `sum` adds up floats. -/
def buildSystem {T E S I M : Type} [DecidableEq S] (total : List ℚ → ℚ) (invalid : Cost)
    (make : T → Except E (Dag S DecisionKey DecisionValue I)) (proto : List (Node M))
    (targets : List T) (factors : Option (List ℚ)) :
    Except (SystemBuildError E) (BuiltSystem S I) :=
  match scaleFactors A targets.length factors with
  | .error e => .error e
  | .ok fs =>
    match utilityParts make (targets.zip fs) with
    | .error e => .error e
    | .ok ps =>
      match constructConstraintDag proto with
      | .error e => .error (.constraint e)
      | .ok dc =>
        match packPart dc (total fs) with
        | .error e => .error e
        | .ok pc =>
          match makeSystem invalid (ps.map (entry A) ++ [entry A pc])
              (some (ps.map Part.scale ++ [total fs])) with
          | .error e => .error (.system e)
          | .ok D => .ok ⟨D, ps, pc⟩

/-- `edit_distance_wrapper_base.py:143-188` `EditDistanceWrapperBase.build_system`. -/
def buildEditSystem {M : Type} [DecidableEq M] (total : List ℚ → ℚ) (invalid : Cost) (prm : Params)
    (proto : List (Node M)) (targets : List (List (Node M))) (factors : Option (List ℚ)) :
    Except (SystemBuildError AddError) (BuiltSystem EditState (Option EditInfo)) :=
  buildSystem A total invalid (constructEditDag prm proto) proto targets factors

/-- `call_sequence_wrapper.py:496-539` `ApiCallSequenceWrapper.build_system`. -/
def buildSelectionSystem {M : Type} [DecidableEq M] (total : List ℚ → ℚ) (invalid : Cost)
    (f : SelUtility M) (proto : List (Node M)) (targets : List (List (Node M)))
    (factors : Option (List ℚ)) :
    Except (SystemBuildError SelError) (BuiltSystem SelState (Option SelInfo)) :=
  buildSystem A total invalid (fun t => constructSelectionDag f (pack proto) (pack t)) proto targets
    factors

end RUSure.Rounded
