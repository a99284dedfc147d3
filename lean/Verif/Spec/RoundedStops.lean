import Verif.Spec.RoundedDual

/-!
# Specification vocabulary for the end of the sweeps in machine arithmetic
-/

namespace RUSure.Spec
open RUSure RUSure.Rounded

/-- How much a bound can be smaller than the one before it because of rounding, for `N` subproblems
with paths of at most `n` edges and size `M`. -/
def dropError (u η τ : ℚ) (N n : Nat) (M X : ℚ) : ℚ :=
  5 * (((1 + η) * (1 + u) ^ (2 * n + N + 5) - 1) * (N * M + X)) + 2 * (N * (τ * (1 + u)))

/-- How large a finite bound can be. -/
def boundSize (u : ℚ) (N n : Nat) (M X : ℚ) : ℚ := (1 + u) ^ (2 * n + N + 3) * (N * M + X)

/-- The variables averaged in `loops` rounds of the sweep solver, after `done` sweeps: a forward sweep,
and a reverse sweep unless the time is over after the forward one. -/
def sweepOrder (late : Nat → Bool) (numKeys : Nat) : Nat → Nat → List Nat
  | 0, _ => []
  | loops + 1, done =>
    forwardVars numKeys ++
      if late (done + 1) then sweepOrder late numKeys loops (done + 1)
      else reverseVars numKeys ++ sweepOrder late numKeys loops (done + 2)

/-- By how much a bound grows in a round that does not end the sweeps: one step improves it by more
than the tolerance, and each step may lower it by rounding. -/
def roundGain (u η τ tol : ℚ) (numKeys N n : Nat) (M X : ℚ) : ℚ :=
  tol / (1 + u) - 2 * ((numKeys - 1 : ℕ) : ℚ) * dropError u η τ N n M X

end RUSure.Spec
