import Verif.Spec.RoundedDual

/-!
# Specification vocabulary for partial commitment in machine arithmetic
-/

namespace RUSure.Spec
open RUSure RUSure.Rounded

/-- Adding zero to a sum does not change it, and shares of numbers that are not negative are not
negative. -/
structure FaithfulArith (A : Arith) : Prop where
  zero : A.add 0 0 = 0
  again : ∀ a b, A.add (A.add a b) 0 = A.add a b
  share : ∀ (c : Cost) (s : ℚ), 0 ≤ c → 0 ≤ s → 0 ≤ A.mul c s

/-- `b` is the largest, over the variables, of the smallest of the costs `agg` of the values. -/
def LargestOfSmallest (numKeys numValues : Nat) (agg : Nat → Nat → Cost) (b : Cost) : Prop :=
  (∃ v < numKeys, ∀ x < numValues, b ≤ agg v x) ∧ ∀ v < numKeys, ∃ x < numValues, agg v x ≤ b

/-- `bound + max (0, q - bound) * strictness`, computed by the machine. -/
def commitLimit (A : Arith) (bound : Cost) (q strictness : ℚ) : Cost :=
  A.add bound (A.mul (max 0 (A.add (q : Cost) (negate bound))) strictness)

end RUSure.Spec
