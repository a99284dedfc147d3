import Verif.Model.Runner
import Verif.Spec.CallSequence
import Verif.Spec.Solution

/-!
# What combining samples should achieve
-/

namespace RUSure.Spec
open RUSure
variable {M : Type}

/-- `x` is the mean of the costs of the targets, where `Least t c` says that `t` costs `c`. -/
def MeanCost {T : Type} (Least : T → ℚ → Prop) (targets : List T) (x : ℚ) : Prop :=
  ∃ costs, List.Forall₂ Least targets costs ∧ x = costs.sum / (targets.length : ℚ)

/-- `sol` suggests the decisions `α` for the prototype, where `Least β t c` says that with the decisions
`β` the target `t` costs `c`. -/
structure Suggests {T : Type} (Least : (DecisionKey → DecisionValue) → T → ℚ → Prop)
    (proto : List (Node M)) (targets : List T) (α : DecisionKey → DecisionValue) (sol : CombineSolution) :
    Prop where
  /-- the regions are well formed -/
  wellFormed : WellFormedRegions α proto
  /-- every decision there is for the prototype is made -/
  assignments : sol.assignments = (seqKeys 0 proto).map fun k => (k, α k)
  /-- the reported cost is the mean cost of the targets -/
  cost : ∃ x : ℚ, sol.cost = x ∧ MeanCost (Least α) targets x
  /-- the reported bound is below the mean cost for any well-formed decisions -/
  bound : ∀ β, WellFormedRegions β proto → ∀ y : ℚ, MeanCost (Least β) targets y → sol.bound ≤ y
  /-- what is shown are the nodes before the early exit, marked if in a region -/
  parts : sol.info.parts = annotated α [] [] (kept α proto)
  /-- the statistics are about the costs of the targets -/
  samples : ∃ s costs, sol.info.samples = some s ∧ List.Forall₂ (Least α) targets costs
    ∧ Describes costs none s

/-- Two neighbours in the list have different flags. -/
def Alternating (l : List MarkedToken) : Prop :=
  ∀ p x y q, l = p ++ x :: y :: q → x.inRegion ≠ y.inRegion

/-- The characters of marked tokens, each with the flag of its token. -/
def markedChars (l : List MarkedToken) : List (Char × Bool) :=
  l.flatMap fun t => t.text.map fun c => (c, t.inRegion)

end RUSure.Spec
