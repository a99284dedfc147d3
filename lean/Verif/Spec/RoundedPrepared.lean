import Verif.Spec.RoundedConstrain
import Verif.Spec.RoundedGreedy

/-!
# Specification vocabulary for the sizes of numbers in prepared systems
-/

namespace RUSure.Spec
open RUSure RUSure.Rounded

/-- Edge by edge: a finite cost is in `F` and has at most size `c`. There are at most `n` states after
the first one. -/
structure DagBounded (F : ℚ → Prop) (d : PackedDag) (n : Nat) (c : ℚ) : Prop where
  member : ∀ e ∈ d.edges, ∀ x : ℚ, e.cost = x → F x ∧ |x| ≤ c
  states : d.numStates ≤ n + 1

/-- A bound for the numbers added up along a path after `t` averaging steps, if they add up to at most
`C` before, there are `N` DAGs, and extra costs of at most `X`. -/
def growSize (u η τ : ℚ) (N n : Nat) (C X : ℚ) : Nat → ℚ
  | 0 => C
  | t + 1 => C + n * ((1 + u) * rangeNeeded u η τ N n (growSize u η τ N n C X t) X)

/-- The same for a system prepared with extra costs of at most `X` (`Prepared`), with costs of at most
`c` on paths of at most `n` edges: every edge may be charged a share of the extra costs. -/
def preparedSize (u η τ : ℚ) (N n : Nat) (c X : ℚ) (t : Nat) : ℚ :=
  growSize u η τ N n (n * c + n * ((1 + u) * X + τ)) X t

/-- For `float64` and `N` DAGs: the largest intermediate result of at most `T` steps. -/
def preparedRange (N n : Nat) (c X : ℚ) (T : Nat) : ℚ :=
  rangeNeeded (1 / 2 ^ 53) ((N + 2) / 2 ^ 52) (2 ^ (-1075 : ℤ)) N n
    (preparedSize (1 / 2 ^ 53) ((N + 2) / 2 ^ 52) (2 ^ (-1075 : ℤ)) N n c X T) X

/-- For `float64` and `k` variables: by how much a reported bound may exceed the cost of a joint
solution. -/
def preparedBoundError (N k n : Nat) (c X : ℚ) (T : Nat) : ℚ :=
  (k - 1) * imbalance (1 / 2 ^ 53) ((N + 2) / 2 ^ 52) (2 ^ (-1075 : ℤ)) N n
      (preparedSize (1 / 2 ^ 53) ((N + 2) / 2 ^ 52) (2 ^ (-1075 : ℤ)) N n c X T) X
    + sumError (1 / 2 ^ 53) N n
      (preparedSize (1 / 2 ^ 53) ((N + 2) / 2 ^ 52) (2 ^ (-1075 : ℤ)) N n c X T) X

/-- For `float64`: by how much the cost returned by greedy extraction may differ from that of the
extracted values. -/
def preparedCostError (N k n : Nat) (c X : ℚ) (T : Nat) : ℚ :=
  extractError (1 / 2 ^ 53) ((N + 2) / 2 ^ 52) (2 ^ (-1075 : ℤ)) N k n
    (preparedSize (1 / 2 ^ 53) ((N + 2) / 2 ^ 52) (2 ^ (-1075 : ℤ)) N n c X T) X
    (preparedSize (1 / 2 ^ 53) ((N + 2) / 2 ^ 52) (2 ^ (-1075 : ℤ)) N n c X T)

end RUSure.Spec
