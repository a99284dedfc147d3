import Verif.Lemmas.Rounding64

/-!
# Addition of `float64` numbers
-/

namespace RUSure.Rounded

/-- `gated_state_dag.py:53`: addition of costs: the exact sum, rounded to the nearest `float64`. -/
def float64 : Machine := ofRounding nearest64 nearest64_mono

end RUSure.Rounded
