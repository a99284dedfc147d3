import Verif.Model.Progress
import Verif.Spec.Runner

/-!
# What the plots of the solver's progress should show
-/

namespace RUSure.Spec
open RUSure

/-- The plots of a search for decisions for `n` keys whose achieved cost is `cost`, if `lower` are the lower bounds of
the costs that can be achieved. -/
structure ShowsProgress (n : Nat) (clock : Nat → ℚ) (lower : Cost → Prop) (cost : Cost) (p : Progress) : Prop where
  /-- the line is at the achieved cost -/
  line : p.line = cost
  /-- there is a point for each step, at least one -/
  steps : p.steps ≠ [] ∧ p.steps.map Prod.fst = List.range p.steps.length
  /-- bounds never get worse -/
  improving : (p.steps.map Prod.snd).Pairwise (· ≤ ·)
  /-- all points are lower bounds -/
  bounds : ∀ x ∈ p.steps, lower x.2
  /-- no point is above the line -/
  below : ∀ x ∈ p.steps, x.2 ≤ p.line
  /-- the second plot has the same heights, at the indices of variables -/
  perVariable : p.perVariable.map Prod.snd = p.steps.map Prod.snd ∧ ∀ x ∈ p.perVariable, x.1 < n
  /-- the third plot has some of these heights, in order, the last one at the end -/
  sweeps : ∃ cs : List Cost, p.sweeps.map Prod.snd = cs.map some ∧ cs.Pairwise (· ≤ ·) ∧ (∀ c ∈ cs, c ∈ p.steps.map Prod.snd)
    ∧ cs.getLast? = (p.steps.map Prod.snd).getLast?
  /-- at the times of the sweeps -/
  times : p.sweeps.map Prod.fst = (List.range p.sweeps.length).map clock

end RUSure.Spec
