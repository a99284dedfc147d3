import Verif.Spec.RoundedDual

/-!
# Specification vocabulary for greedy extraction in machine arithmetic
-/

namespace RUSure.Spec

/-- The error of the cost returned by greedy extraction from `N` subproblems and `k` variables: what
the penalties of the variables may be out of balance after averaging (paths of at most `n` edges and
size `M`, extra costs of size `X`), and the error of adding up the costs of the subproblems (paths of
size `M'`). -/
def extractError (u η τ : ℚ) (N k n : Nat) (M X M' : ℚ) : ℚ :=
  k * imbalance u η τ N n M X + ((1 + u) ^ (2 * n + 1 + N) - 1) * (N * M')

end RUSure.Spec
