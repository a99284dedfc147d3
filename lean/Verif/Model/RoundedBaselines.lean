import Verif.Model.RoundedConstrain
import Verif.Model.RoundedSystem
import Verif.Model.UncertaintyBaselines

/-!
# From uncertain tokens to decisions in machine arithmetic

`Model/UncertaintyBaselines.lean` has the same function with exact rational costs. Which tokens are
uncertain (`lowIndices` there) is not repeated here.
-/

namespace RUSure.Rounded

variable (A : Arith)

/-- `uncertainty_regions_wrapper.py:360-401`: `_assignment_from_low_confidence_nodes`; `D` is the system
with the prototype as its only target. The clone (line 382) is not needed here. -/
def lowAssignment (D : DualSystem DecisionKey DecisionValue) (tol : ℚ) (late : Nat → Bool) (fuel : Nat)
    (low : List Nat) : Except UncertainError Decisions :=
  match constrain A ((1000000 : ℚ) : Cost)
      (low.foldl (fun d i => dictSet (⟨i, .inRegion⟩ : DecisionKey) DecisionValue.yes d) []) D with
  | none => .error (.baseline .key)
  | some D' =>
    match solve A D'.data tol late fuel with
    | .error e => .error (.solve e)
    | .ok st =>
      match greedy A st.system .forward with
      | none => .error .extract
      | some (vec, _) =>
        match assignmentPairs D'.keys D'.values vec with
        | none => .error .extract
        | some a => .ok a

end RUSure.Rounded
