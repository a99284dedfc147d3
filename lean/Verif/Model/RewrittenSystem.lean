import Verif.Model.GatedDag
import Verif.Model.System

/-!
# Building a system with renumbered states

The default configuration of the wrappers (`use_numba=True`, `rewrite_states=True`): every DAG is pruned with
`prune_unreachable_and_rewrite_states`, which numbers the states through a scratch table that is indexed by
hash values, before it is packed.
-/

namespace RUSure

/-- A system with the data it keeps about its renumbered DAGs. -/
abbrev RewrittenSystem (I : Type) := BuiltSystem Nat I Nat

section
variable {T E S I : Type} [DecidableEq S]

/-- `edit_distance_wrapper_base.py:75-81`, `165-166`, `176-177`, `call_sequence_wrapper.py:294-300`, `516-517`,
`527-528`: renumber and pack. The scratch table of the wrapper is reset in each call
(`gated_state_dag.py:349-490`), so that only the slots of the states matter. The packer
(`edit_dags.py:1687-1722`, `constraint_dags.py:836-871`, `part_selection_dags.py:894-929`
`make_specialized_dag_packer`) is given the same order of values and the same missing value as `pack_dag`.
Simplification: compiled and interpreted functions are the same here. -/
def packRewritten (slot : S → Nat) (d : Dag S DecisionKey DecisionValue I) (scale : ℚ) :
    Except (SystemBuildError E) (Part Nat I) :=
  match d.pruneRewrite slot with
  | none => .error .renumber
  | some d' =>
    match d'.convert .na (some [.no, .yes, .na]) with
    | .error e => .error (.pack e)
    | .ok c => .ok ⟨d', c, scale⟩

/-- `edit_distance_wrapper_base.py:161-171`, `call_sequence_wrapper.py:514-522`: the loop over the
targets and their scale factors. -/
def rewrittenParts (slot : S → Nat) (make : T → Except E (Dag S DecisionKey DecisionValue I)) :
    List (T × ℚ) → Except (SystemBuildError E) (List (Part Nat I))
  | [] => .ok []
  | (t, s) :: r =>
    match make t with
    | .error e => .error (.utility e)
    | .ok d =>
      match packRewritten slot d s with
      | .error e => .error e
      | .ok p =>
        match rewrittenParts slot make r with
        | .error e => .error e
        | .ok ps => .ok (p :: ps)

/-- `edit_distance_wrapper_base.py:143-188`, `call_sequence_wrapper.py:496-539`: `build_system` with
renumbered states, for any way to make a utility DAG of a target. -/
def buildRewritten {M : Type} (slot : S → Nat) (slotC : ConstraintState → Nat) (invalid : Cost)
    (make : T → Except E (Dag S DecisionKey DecisionValue I)) (proto : List (Node M))
    (targets : List T) (factors : Option (List ℚ)) :
    Except (SystemBuildError E) (RewrittenSystem I) :=
  match scaleFactors targets.length factors with
  | .error e => .error e
  | .ok fs =>
    match rewrittenParts slot make (targets.zip fs) with
    | .error e => .error e
    | .ok ps =>
      match constructConstraintDag proto with
      | .error e => .error (.constraint e)
      | .ok dc =>
        match packRewritten slotC dc fs.sum with
        | .error e => .error e
        | .ok pc =>
          match makeSystem invalid (ps.map Part.entry ++ [pc.entry])
              (some (ps.map Part.scale ++ [fs.sum])) with
          | .error e => .error (.system e)
          | .ok D => .ok ⟨D, ps, pc⟩

end

/-- `edit_distance_wrapper_base.py:143-188` `EditDistanceWrapperBase.build_system` in its default
configuration. -/
def rewrittenEditSystem {M : Type} [DecidableEq M] (slot : EditState → Nat) (slotC : ConstraintState → Nat)
    (invalid : Cost) (prm : Params) (proto : List (Node M)) (targets : List (List (Node M)))
    (factors : Option (List ℚ)) :
    Except (SystemBuildError AddError) (RewrittenSystem (Option EditInfo)) :=
  buildRewritten slot slotC invalid (constructEditDag prm proto) proto targets factors

/-- `call_sequence_wrapper.py:496-539` `ApiCallSequenceWrapper.build_system` in its default configuration. -/
def rewrittenSelectionSystem {M : Type} [DecidableEq M] (slot : SelState → Nat)
    (slotC : ConstraintState → Nat) (invalid : Cost) (f : SelUtility M) (proto : List (Node M))
    (targets : List (List (Node M))) (factors : Option (List ℚ)) :
    Except (SystemBuildError SelError) (RewrittenSystem (Option SelInfo)) :=
  buildRewritten slot slotC invalid (fun t => constructSelectionDag f (pack proto) (pack t)) proto targets
    factors

end RUSure
