import Verif.Spec.RoundedPrepared
import Verif.Spec.RoundedSystem
import Verif.Spec.UncertaintyBaselines

/-!
# Specification vocabulary for constrained systems of a prototype and targets in machine arithmetic
-/

namespace RUSure.Spec
open RUSure RUSure.Rounded

variable {S I : Type}

/-- The price of the violated constraints. -/
def violated (q : ℚ) (cs : List (DecisionKey × DecisionValue)) (α : DecisionKey → DecisionValue) : ℚ :=
  (cs.map fun c => if α c.1 = c.2 then 0 else q).sum

/-- By how much a reported bound may exceed the cost of decisions, with extra costs of at most `X`. -/
def constrainedBoundError (u η τ : ℚ) (B : BuiltSystem S I) (n : Nat) (size M X : ℚ) : ℚ :=
  (B.system.data.numKeys - 1) * imbalance u η τ (dagCount B) n M X + sumError u (dagCount B) n M X
    + scaleError u τ (dagCount B) n size

/-- By how much the cost returned by greedy extraction may differ from the true one, with extra costs of
at most `X`. -/
def constrainedCostError (u η τ : ℚ) (B : BuiltSystem S I) (n : Nat) (size M X M' : ℚ) : ℚ :=
  extractError u η τ (dagCount B) B.system.data.numKeys n M X M' + scaleError u τ (dagCount B) n size

/-- The numbers added up along a path of at most `n` edges with scaled costs of at most `c` and extra
costs of at most `X` after at most `T` steps. -/
def constrainedSize (u η τ : ℚ) (N n : Nat) (c X : ℚ) (T : Nat) : ℚ :=
  growSize u η τ N n ((1 + u) * (n * c) + n * τ + n * ((1 + u) * X + τ)) X T

/-- For `float64` and the penalty of the baselines: the numbers added up along a path. -/
def baselineSize (B : BuiltSystem S I) (n : Nat) (c : ℚ) (T : Nat) : ℚ :=
  constrainedSize (1 / 2 ^ 53) (floatShares B) (2 ^ (-1075 : ℤ)) (dagCount B) n c 1000000 T

/-- For `float64` and the penalty of the baselines: the largest intermediate result. -/
def baselineRange (B : BuiltSystem S I) (n : Nat) (c : ℚ) (T : Nat) : ℚ :=
  rangeNeeded (1 / 2 ^ 53) (floatShares B) (2 ^ (-1075 : ℤ)) (dagCount B) n (baselineSize B n c T) 1000000

/-- For `float64` and the penalty of the baselines: by how much a reported bound may exceed the cost of
decisions. -/
def baselineBoundError (B : BuiltSystem S I) (n : Nat) (c : ℚ) (T : Nat) : ℚ :=
  constrainedBoundError (1 / 2 ^ 53) (floatShares B) (2 ^ (-1075 : ℤ)) B n (n * c) (baselineSize B n c T)
    1000000

/-- For `float64` and the penalty of the baselines: by how much the cost returned by greedy extraction may
differ from the true one. -/
def baselineCostError (B : BuiltSystem S I) (n : Nat) (c : ℚ) (T : Nat) : ℚ :=
  constrainedCostError (1 / 2 ^ 53) (floatShares B) (2 ^ (-1075 : ℤ)) B n (n * c) (baselineSize B n c T)
    1000000 (baselineSize B n c T)

/-- An explicit bound of `baselineSize`. -/
def baselineSizeBound (N n : Nat) (c : ℚ) (T : Nat) : ℚ :=
  (16 * N * n + 1) ^ T * (2 * n * c + 18000004 * n)

end RUSure.Spec
