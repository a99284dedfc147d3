import Verif.Model.Runner

/-!
# The plots of the solver's progress

`wrappers/demo_runner.py:300-333` `DemoRunner.show_optimization_details`. A plot is the list of its points. Costs are
kept; the code plots their negatives.
-/

namespace RUSure

/-- `Axes.plot`; `none` is the `ValueError` for arrays of different lengths. -/
def plot {X Y : Type} (xs : List X) (ys : List Y) : Option (List (X × Y)) :=
  if xs.length = ys.length then some (xs.zip ys) else none

/-- The three plots and the height of the line in them. -/
structure Progress where
  steps : List (Nat × Cost)
  perVariable : List (Nat × Cost)
  sweeps : List (ℚ × Option Cost)
  line : Cost

/-- `demo_runner.py:300-333` `show_optimization_details`; `some none` is the message for empty results, and `none` an
exception. The seconds after the sweeps (`consistent_path_dual_solver.py:721-727`) are given by `clock`; an objective
that is `none` is minus infinity (line 695). -/
def showOptimizationDetails {M S I C : Type} (clock : Nat → ℚ) (r : CombineResult M S I C) : Option (Option Progress) :=
  match r.solution with
  | none => some none
  | some sol =>
    match plot (List.range r.results.objectiveAtStep.length) r.results.objectiveAtStep,
        plot r.results.variableAtStep r.results.objectiveAtStep,
        plot ((List.range r.results.stepsAtSweep.length).map clock) r.results.objectiveAtSweep with
    | some a, some b, some c => some (some ⟨a, b, c, sol.cost⟩)
    | _, _, _ => none

end RUSure
