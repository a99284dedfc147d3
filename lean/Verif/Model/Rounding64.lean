import Verif.Model.Rounded
import Mathlib.Data.Int.Log
import Mathlib.Data.Rat.Floor

/-!
# Rounding to `float64` numbers

IEEE 754 double precision, rounding to nearest with ties to even, gradual underflow and overflow to
`+inf`. Costs have no `-inf` and no NaN, so overflow to `-inf` is not modelled.
-/

namespace RUSure.Rounded

/-- Rounding to an integer, ties to even (part of `float64` arithmetic, `gated_state_dag.py:53`). -/
def roundEven (y : ℚ) : ℤ :=
  if y - ⌊y⌋ < 1 / 2 then ⌊y⌋
  else if 1 / 2 < y - ⌊y⌋ then ⌊y⌋ + 1
  else if ⌊y⌋ % 2 = 0 then ⌊y⌋ else ⌊y⌋ + 1

/-- The exponent of the last place of a `float64` of the size of `x`: 53 significant bits, but never
below `2^(-1074)`. -/
def lastPlace (x : ℚ) : ℤ := max (-1074) (Int.log 2 x - 52)

/-- The `float64` nearest to a number that is not negative, with an unbounded exponent. -/
def roundPos (x : ℚ) : ℚ := roundEven (x / 2 ^ lastPlace x) * 2 ^ lastPlace x

/-- The `float64` nearest to a number, with an unbounded exponent. -/
def round64 (x : ℚ) : ℚ := if 0 ≤ x then roundPos x else - roundPos (-x)

/-- `gated_state_dag.py:53`: the nearest `float64`; results from `2^1024` on overflow to `+inf`. -/
def nearest64 (x : ℚ) : Cost := if round64 x < 2 ^ 1024 then ((round64 x : ℚ) : Cost) else ⊤

end RUSure.Rounded
