import Verif.Model.RoundedDual
import Verif.Spec.Rounded
import Verif.Spec.Dual

/-!
# Specification vocabulary for the dual solver in machine arithmetic
-/

namespace RUSure.Spec
open RUSure RUSure.Rounded

/-- Sums and products have a relative error of at most `u`, products also an absolute error of at most
`τ` (underflow), as long as the exact result does not exceed `limit`. -/
structure AccurateArith (A : Arith) (F : ℚ → Prop) (u τ limit : ℚ) : Prop where
  sums : Accurate A.toMachine F u limit
  neg : ∀ a, F a → F (-a)
  mul : ∀ a s : ℚ, F a → |a * s| ≤ limit →
    ∃ r : ℚ, F r ∧ A.mul a s = r ∧ |r - a * s| ≤ u * |a * s| + τ

/-- Averaging the variables `vs` one after the other: the final system and the bounds reported. -/
def averages (A : Arith) : List Nat → System → Option (System × List Cost)
  | [], S => some (S, [])
  | v :: vs, S =>
    (average A S v).bind fun r => (averages A vs r.1).map fun r' => (r'.1, r.2 :: r'.2)

/-- The subproblems in which a variable takes part. -/
def participants (S : System) (v : Nat) : List Sub := S.subs.filter fun s => (s.index v).isSome

/-- The shares of the participating subproblems: their weights divided by the sum of these weights,
computed by the machine. -/
def machineShares (A : Arith) (S : System) (v : Nat) : List ℚ :=
  (participants S v).map fun s => A.div s.weight
    ((participants S v).foldl (fun (w : ℚ) s => (A.add w s.weight).untopD 0) 0)

/-- No share is negative, and together they are one up to `η`. -/
structure FairShares (A : Arith) (S : System) (v : Nat) (η : ℚ) : Prop where
  nonneg : ∀ s ∈ machineShares A S v, 0 ≤ s
  total : |(machineShares A S v).sum - 1| ≤ η

/-- The penalties of a subproblem without those of one variable. -/
def Sub.without (s : Sub) (v : Nat) : Penalties :=
  fun k => if s.index v = some k then fun _ => 0 else s.memo.pen k

/-- When variable `v` is averaged, finite costs, penalties and extra costs are in `F`, complete paths
have at most `n` edges, and the numbers added up along one have a total size of at most `M`; extra
costs have at most size `X`. -/
structure StepInRange (F : ℚ → Prop) (S : System) (v n : Nat) (M X : ℚ) : Prop where
  subs : ∀ s ∈ S.subs, InRange F s.memo.dag (Sub.without s v) n M
  extra : ∀ x, ∀ c : ℚ, S.extra v x = c → F c ∧ |c| ≤ X

/-- This holds whenever one of the variables `vs` is averaged, one after the other. -/
def RunInRange (A : Arith) (F : ℚ → Prop) (n : Nat) (M X : ℚ) : List Nat → System → Prop
  | [], _ => True
  | v :: vs, S =>
    StepInRange F S v n M X ∧ ∀ r, average A S v = some r → RunInRange A F n M X vs r.1

/-- How far the penalties of a variable may be out of balance after averaging it, for `N` subproblems
with paths of at most `n` edges and size `M`. -/
def imbalance (u η τ : ℚ) (N n : Nat) (M X : ℚ) : ℚ :=
  ((1 + η) * (1 + u) ^ (N + 4) - 1) * ((1 + u) ^ (2 * n + 1) * (N * M) + X) + N * (τ * (1 + u))

/-- The error of adding up the minimal costs of `N` such subproblems. -/
def sumError (u : ℚ) (N n : Nat) (M X : ℚ) : ℚ :=
  ((1 + u) ^ (2 * n + N + 3) - 1) * (N * M + X)

/-- How large intermediate results can get. -/
def rangeNeeded (u η τ : ℚ) (N n : Nat) (M X : ℚ) : ℚ :=
  2 * (1 + η) * (1 + u) ^ (2 * n + N + 4) * (N * M + X) + τ

end RUSure.Spec
