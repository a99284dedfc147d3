import Mathlib.Algebra.Order.Ring.Rat

/-!
# Utility parameters: `edit_dags.py:128-208` and `uncertainty_regions_wrapper.py:40-203`

Floating point numbers are idealised as rationals.
-/

namespace RUSure

/-- `edit_dags.py:151-180` `TrustRegionUtilityParameters`. -/
structure Params where
  highMatch : ℚ
  highDelete : ℚ
  lowMatch : ℚ
  lowDelete : ℚ
  insertCost : ℚ
  regionCost : ℚ
  highStart : ℚ
  lowStart : ℚ

/-- `edit_dags.py:128-149` `UtilitiesAndCostsForNode`. -/
structure NodeCosts where
  highMatch : ℚ
  highDelete : ℚ
  lowMatch : ℚ
  lowDelete : ℚ
  insertCost : ℚ

/-- `edit_dags.py:183-208` `token_node_utility_from_parameters`; `len` is `len(text_contents)`. -/
def Params.forToken (P : Params) (len : Nat) : NodeCosts :=
  { highMatch := P.highMatch * len
    highDelete := P.highDelete * len
    lowMatch := P.lowMatch * len
    lowDelete := P.lowDelete * len
    insertCost := P.insertCost * len }

/-- `uncertainty_regions_wrapper.py:40-203` `derive_uncertainty_region_costs`:
`p` = effective precision, `c` = high confidence start editing cost, `s` = low confidence edit
sensitivity. -/
def deriveCosts (p c s : ℚ) : Params :=
  let lowDelete := 1 - 2 * p * (1 - s)
  let lowMatch := 2 * s - lowDelete
  let lowStart := s * c
  let regionCost := (1 - p) * (1 - s) * c
  { highMatch := 1
    highDelete := 1
    lowMatch := lowMatch
    lowDelete := lowDelete
    insertCost := 0
    regionCost := regionCost
    highStart := c
    lowStart := lowStart }

end RUSure
