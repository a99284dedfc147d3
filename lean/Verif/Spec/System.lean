import Verif.Model.System
import Verif.Spec.Dual
import Verif.Spec.Edit
import Verif.Spec.Regions
import Verif.Spec.Selection

/-!
# What a system built from a prototype and targets should measure
-/

namespace RUSure.Spec
open RUSure
variable {M : Type}

/-- `ss` is an edit script from the prototype to the target that makes the decisions `α`: decisions
it does not come to (after an early exit) are not applicable in `α`. -/
def ScriptFor (prm : Params) (proto target : List (Node M)) (α : DecisionKey → DecisionValue)
    (ss : List EditStep) : Prop :=
  (∃ r, (r = none ∨ r = some .high) ∧ Edits prm .advancing .high 0 proto 0 target ss r)
  ∧ ∀ k ∈ seqKeys 0 proto, α k = decided (ss.filterMap EditStep.decision) k

/-- The price of an edit script. -/
def scriptPrice (prm : Params) (proto target : List (Node M)) (ss : List EditStep) : ℚ :=
  ((ss.filterMap EditStep.edit).map (editPrice prm proto target)).sum

/-- `c` is the price of the cheapest edit script for the decisions `α`. -/
def LeastEditCost (prm : Params) (proto : List (Node M)) (α : DecisionKey → DecisionValue)
    (target : List (Node M)) (c : ℚ) : Prop :=
  (∃ ss, ScriptFor prm proto target α ss ∧ scriptPrice prm proto target ss = c)
  ∧ ∀ ss, ScriptFor prm proto target α ss → c ≤ scriptPrice prm proto target ss

/-- `ss` is a way to look up the parts selected by the decisions `α` in the target. -/
def LookupFor (f : SelUtility M) (proto target : List (Node M)) (α : DecisionKey → DecisionValue)
    (ss : List SelStep) : Prop :=
  Selects f (items 0 proto) (items 0 target) ss
  ∧ ∀ k ∈ seqKeys 0 proto, α k = decided (ss.filterMap SelStep.decision) k

/-- `c` is the least cost of looking up the parts selected by the decisions `α`. -/
def LeastLookupCost (f : SelUtility M) (proto : List (Node M)) (α : DecisionKey → DecisionValue)
    (target : List (Node M)) (c : ℚ) : Prop :=
  (∃ ss, LookupFor f proto target α ss ∧ ((ss.filterMap SelStep.info).map (selPrice f proto)).sum = c)
  ∧ ∀ ss, LookupFor f proto target α ss →
    c ≤ ((ss.filterMap SelStep.info).map (selPrice f proto)).sum

/-- The weight of each target: as given, or the same for all. -/
def targetWeights (n : Nat) (factors : Option (List ℚ)) : List ℚ :=
  factors.getD (List.replicate n (1 / (n : ℚ)))

/-- `x` is the weighted total of the costs of the targets, where `Least t c` says that `t` costs
`c`. -/
def WeightedTotal {T : Type} (Least : T → ℚ → Prop) : List (T × ℚ) → ℚ → Prop
  | [], x => x = 0
  | (t, s) :: r, x => ∃ c y, Least t c ∧ WeightedTotal Least r y ∧ x = c * s + y

/-- Scale factors that `build_system` can work with: positive, and at least one. -/
def GoodFactors {T : Type} (targets : List T) (factors : Option (List ℚ)) : Prop :=
  (factors = none → targets ≠ [])
  ∧ ∀ fs, factors = some fs → fs ≠ [] ∧ ∀ s ∈ fs, 0 < s

/-- The values that a vector of value indices gives to the variables of a system. -/
def VectorMeans {K V : Type} (D : DualSystem K V) (a : Nat → Nat) (α : K → V) : Prop :=
  ∀ v k, D.keys[v]? = some k → D.values[a v]? = some (α k)

/-- The systems that can be reached by solving: averaging, computing min-marginals, sweeps. -/
inductive SolverReach {K V : Type} (D : DualSystem K V) : DualSystem K V → Prop
  | start : SolverReach D D
  | average {D' : DualSystem K V} {v : Nat} {S : System} {c : Cost} : SolverReach D D' →
      v < D'.data.numKeys → D'.data.average v = some (S, c) → SolverReach D { D' with data := S }
  | minMarginals {D' : DualSystem K V} {v : Nat} {S : System} {mm : Nat → Cost} :
      SolverReach D D' → v < D'.data.numKeys → D'.data.minMarginals v = some (S, mm) →
      SolverReach D { D' with data := S }
  | solve {D' : DualSystem K V} {tol : ℚ} {late : Nat → Bool} {fuel : Nat} {st : SweepState} :
      SolverReach D D' → D'.data.solve tol late fuel = .ok st →
      SolverReach D { D' with data := st.system }

end RUSure.Spec
