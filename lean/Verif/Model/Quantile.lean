import Verif.Model.Dual
import Mathlib.Data.List.GetD
import Mathlib.Data.List.ProdSigma
import Mathlib.Algebra.Order.Floor.Ring
import Mathlib.Data.Rat.Floor

/-!
# The choice of the threshold in `partially_commit`

`consistent_path_dual_solver.py:918-934`. Numbers are rationals: the rounding of the level and of the
interpolation is not modelled.
-/

namespace RUSure

/-- `consistent_path_dual_solver.py:922-924`: infinite min-marginals count as minus infinity. -/
def quantileEntry (c : Cost) : WithBot ℚ :=
  match c with
  | some a => some a
  | none => ⊥

/-- `consistent_path_dual_solver.py:922-924`: the entries of the array passed to `np.quantile`. -/
def quantileEntries (numKeys numValues : Nat) (agg : Nat → Nat → Cost) : List (WithBot ℚ) :=
  (List.range numKeys ×ˢ List.range numValues).map fun p => quantileEntry (agg p.1 p.2)

/-- `np.quantile` with its default method (used in `consistent_path_dual_solver.py:931`): linear
interpolation between the two entries next to the position `(n - 1) * level` of the sorted array. If
one of them is minus infinity the result is minus infinity or NaN, depending on the version of numpy
and the position; this choice is a parameter. -/
def quantileAt (undefined : WithBot ℚ → WithBot ℚ → ℚ → Bool) (entries : List (WithBot ℚ)) (level : ℚ) :
    Quantile :=
  let sorted := entries.mergeSort fun a b => decide (a ≤ b)
  let position := ((entries.length - 1 : Nat) : ℚ) * level
  let low := ⌊position⌋.toNat
  let high := min (low + 1) (entries.length - 1)
  match sorted.getD low ⊥, sorted.getD high ⊥ with
  | some a, some b => .val (a + (b - a) * (position - low))
  | a, b => if undefined a b (position - low) then .negInf else .nan

/-- `consistent_path_dual_solver.py:930-931`: the threshold. -/
def commitQuantile (undefined : WithBot ℚ → WithBot ℚ → ℚ → Bool) (numKeys numValues : Nat)
    (target : ℚ) (agg : Nat → Nat → Cost) : Quantile :=
  quantileAt undefined (quantileEntries numKeys numValues agg) (1 - target / numValues)

/-- `consistent_path_dual_solver.py:824-1003` `partially_commit` with its argument
`target_commitments_per_variable`. `none` also stands for the `ValueError` of `np.quantile` if the level is
not between 0 and 1, and for the errors if there are no values. -/
def System.partiallyCommitAt (S : System) (undefined : WithBot ℚ → WithBot ℚ → ℚ → Bool)
    (dir : Direction) (target strictness epsilon : ℚ) : Option (System × CommitStatus) :=
  if S.numValues = 0 ∨ target < 0 ∨ S.numValues < target then none
  else S.partiallyCommit dir (commitQuantile undefined S.numKeys S.numValues target) strictness epsilon

end RUSure
