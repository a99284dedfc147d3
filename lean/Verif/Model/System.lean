import Verif.Model.Convert
import Verif.Model.Dual
import Verif.Model.Edit
import Verif.Model.Selection

/-!
# Building a system from a prototype and targets

`wrappers/edit_distance_wrapper_base.py` (`build_system`), `wrappers/call_sequence_wrapper.py`
(`build_system`): the utility DAGs of all targets and the constraint DAG are pruned, packed, scaled
and put together. The two wrappers only differ in the utility DAG.
-/

namespace RUSure

/-- What `build_system` can raise, where `E` are the errors of building a utility DAG. -/
inductive SystemBuildError (E : Type) where
  /-- `1.0 / len(targets)` without targets -/
  | noTargets
  | utility (e : E)
  | constraint (e : AddError)
  | pack (e : ConvertError)
  | system (e : SystemError)
  /-- `gated_state_dag.py:453-461`: no path, or a number past the end of the array of flags (only if states are
  renumbered, see Model/RewrittenSystem) -/
  | renumber

/-- A pruned DAG, the result of packing it, and the factor its costs are scaled by. -/
structure Part (S I : Type) where
  dag : Dag S DecisionKey DecisionValue I
  conversion : Conversion S DecisionKey DecisionValue
  scale : ℚ

/-- `edit_distance_wrapper_base.py:167-170`, `call_sequence_wrapper.py:518-521`: the packed and scaled
DAG with its conversion data, as given to `make_system`. -/
def Part.entry {S I : Type} (p : Part S I) : PackedDag × List DecisionKey × List DecisionValue :=
  (p.conversion.packed.scale p.scale, p.conversion.keys, p.conversion.values)

/-- A system with the data it keeps about its DAGs: the utility DAGs in the order of the targets, and
the constraint DAG after them. `C` are the states of the constraint DAG. -/
structure BuiltSystem (S I : Type) (C : Type := ConstraintState) where
  system : DualSystem DecisionKey DecisionValue
  utilities : List (Part S I)
  constraint : Part C Bool

section
variable {T E S I : Type} [DecidableEq S]

/-- `edit_distance_wrapper_base.py:153-155`, `call_sequence_wrapper.py:506-508`: the scale factors,
uniform if there are none given. -/
def scaleFactors (n : Nat) (factors : Option (List ℚ)) : Except (SystemBuildError E) (List ℚ) :=
  match factors with
  | none => if n = 0 then .error .noTargets else .ok (List.replicate n (1 / (n : ℚ)))
  | some fs => .ok fs

/-- `edit_distance_wrapper_base.py:165-166`, `176-177`, `call_sequence_wrapper.py:516-517`, `527-528`:
prune and pack. The values are ordered as in the enumeration (`edit_dags.py:1674-1684`,
`constraint_dags.py:823-833`, `part_selection_dags.py:881-891`); missing values are not
applicable. -/
def packPart (d : Dag S DecisionKey DecisionValue I) (scale : ℚ) :
    Except (SystemBuildError E) (Part S I) :=
  match d.prune.convert .na (some [.no, .yes, .na]) with
  | .error e => .error (.pack e)
  | .ok c => .ok ⟨d.prune, c, scale⟩

/-- `edit_distance_wrapper_base.py:161-171`, `call_sequence_wrapper.py:514-522`: the loop over the
targets and their scale factors. -/
def utilityParts (make : T → Except E (Dag S DecisionKey DecisionValue I)) :
    List (T × ℚ) → Except (SystemBuildError E) (List (Part S I))
  | [] => .ok []
  | (t, s) :: r =>
    match make t with
    | .error e => .error (.utility e)
    | .ok d =>
      match packPart d s with
      | .error e => .error e
      | .ok p =>
        match utilityParts make r with
        | .error e => .error e
        | .ok ps => .ok (p :: ps)

/-- `edit_distance_wrapper_base.py:143-188`, `call_sequence_wrapper.py:496-539`: `build_system`, for
any way to make a utility DAG of a target. -/
def buildSystem {M : Type} (invalid : Cost)
    (make : T → Except E (Dag S DecisionKey DecisionValue I)) (proto : List (Node M))
    (targets : List T) (factors : Option (List ℚ)) :
    Except (SystemBuildError E) (BuiltSystem S I) :=
  match scaleFactors targets.length factors with
  | .error e => .error e
  | .ok fs =>
    match utilityParts make (targets.zip fs) with
    | .error e => .error e
    | .ok ps =>
      match constructConstraintDag proto with
      | .error e => .error (.constraint e)
      | .ok dc =>
        match packPart dc fs.sum with
        | .error e => .error e
        | .ok pc =>
          match makeSystem invalid (ps.map Part.entry ++ [pc.entry])
              (some (ps.map Part.scale ++ [fs.sum])) with
          | .error e => .error (.system e)
          | .ok D => .ok ⟨D, ps, pc⟩

end

/-- `edit_distance_wrapper_base.py:143-188` `EditDistanceWrapperBase.build_system`. -/
def buildEditSystem {M : Type} [DecidableEq M] (invalid : Cost) (prm : Params)
    (proto : List (Node M)) (targets : List (List (Node M))) (factors : Option (List ℚ)) :
    Except (SystemBuildError AddError) (BuiltSystem EditState (Option EditInfo)) :=
  buildSystem invalid (constructEditDag prm proto) proto targets factors

/-- `call_sequence_wrapper.py:496-539` `ApiCallSequenceWrapper.build_system`. -/
def buildSelectionSystem {M : Type} [DecidableEq M] (invalid : Cost) (f : SelUtility M)
    (proto : List (Node M)) (targets : List (List (Node M))) (factors : Option (List ℚ)) :
    Except (SystemBuildError SelError) (BuiltSystem SelState (Option SelInfo)) :=
  buildSystem invalid (fun t => constructSelectionDag f (pack proto) (pack t)) proto targets factors

end RUSure
