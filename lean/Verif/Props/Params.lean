import Verif.Model.Params
import Mathlib.Tactic.Ring
import Mathlib.Tactic.Linarith

/-!
# C49: derived costs realise the requested precision
-/

namespace RUSure.Props
open RUSure

/-- Expected utility of showing one token of length `len` with high confidence when it is correct
with probability `q`; if it is wrong the user starts editing, deletes it and inserts `len'`
characters. -/
def euHigh (P : Params) (len len' : Nat) (q : ℚ) : ℚ :=
  q * (P.forToken len).highMatch
    + (1 - q) * (-P.highStart - (P.forToken len).highDelete - (P.forToken len').insertCost)

/-- The same with the token in its own low-confidence region. -/
def euLow (P : Params) (len len' : Nat) (q : ℚ) : ℚ :=
  q * (P.forToken len).lowMatch
    + (1 - q) * (-P.lowStart - (P.forToken len).lowDelete - (P.forToken len').insertCost)
    - P.regionCost

/-- C49: with the derived parameters, for a nonempty token (or positive start cost), high
confidence is better than, equal to or worse than low confidence exactly when the probability `q`
of being correct is above, equal to or below the effective precision `p`. -/
theorem C49_precision (p c s q : ℚ) (len len' : Nat) (hs : s < 1) (hc : 0 ≤ c)
    (hpos : 0 < len ∨ 0 < c) :
    (euLow (deriveCosts p c s) len len' q < euHigh (deriveCosts p c s) len len' q ↔ p < q)
    ∧ (euLow (deriveCosts p c s) len len' q = euHigh (deriveCosts p c s) len len' q ↔ p = q)
    ∧ (euHigh (deriveCosts p c s) len len' q < euLow (deriveCosts p c s) len len' q ↔ q < p) := by
  have key : euHigh (deriveCosts p c s) len len' q - euLow (deriveCosts p c s) len len' q
      = (q - p) * ((1 - s) * (2 * len + c)) := by
    simp only [euHigh, euLow, deriveCosts, Params.forToken]
    ring
  have hk : 0 < (1 - s) * (2 * (len : ℚ) + c) := by
    apply mul_pos
    · linarith
    · rcases hpos with h | h
      · have : (0 : ℚ) < len := by exact_mod_cast h
        linarith
      · have : (0 : ℚ) ≤ len := by exact_mod_cast Nat.zero_le _
        linarith
  generalize (1 - s) * (2 * (len : ℚ) + c) = K at key hk
  refine ⟨?_, ?_, ?_⟩
  · constructor
    · intro h
      by_contra hq
      have : (q - p) * K ≤ 0 := mul_nonpos_of_nonpos_of_nonneg (by linarith) hk.le
      linarith
    · intro h
      have : 0 < (q - p) * K := mul_pos (by linarith) hk
      linarith
  · constructor
    · intro h
      have : (q - p) * K = 0 := by linarith
      rcases mul_eq_zero.1 this with h | h
      · linarith
      · linarith
    · rintro rfl
      simp at key
      linarith
  · constructor
    · intro h
      by_contra hq
      have : 0 ≤ (q - p) * K := mul_nonneg (by linarith) hk.le
      linarith
    · intro h
      have : (q - p) * K < 0 := mul_neg_of_neg_of_pos (by linarith) hk
      linarith

/-- C49: in both kinds of region, being correct is at least as good as being wrong (no insertion
cost), strictly if the sensitivity is positive and the token nonempty. -/
theorem C49_correct_is_better (p c s : ℚ) (len len' : Nat) (hs : 0 ≤ s) (hc : 0 ≤ c) :
    euHigh (deriveCosts p c s) len len' 0 ≤ euHigh (deriveCosts p c s) len len' 1
    ∧ euLow (deriveCosts p c s) len len' 0 ≤ euLow (deriveCosts p c s) len len' 1
    ∧ (0 < s → 0 < len → euLow (deriveCosts p c s) len len' 0 < euLow (deriveCosts p c s) len len' 1) := by
  have hl : (0 : ℚ) ≤ len := by exact_mod_cast Nat.zero_le _
  have h1 : euHigh (deriveCosts p c s) len len' 1 - euHigh (deriveCosts p c s) len len' 0
      = 2 * len + c := by
    simp only [euHigh, deriveCosts, Params.forToken]; ring
  have h2 : euLow (deriveCosts p c s) len len' 1 - euLow (deriveCosts p c s) len len' 0
      = s * (2 * len + c) := by
    simp only [euLow, deriveCosts, Params.forToken]; ring
  refine ⟨by linarith, ?_, ?_⟩
  · have := mul_nonneg hs (by linarith : 0 ≤ 2 * (len : ℚ) + c)
    linarith
  · intro hs' hl'
    have : (0 : ℚ) < len := by exact_mod_cast hl'
    have := mul_pos hs' (by linarith : 0 < 2 * (len : ℚ) + c)
    linarith

/-- Without the hypothesis `s < 1` the claim fails: at sensitivity 1 low and high confidence are
never distinguished. -/
theorem C49_sensitivity_one_degenerate (p c q : ℚ) (len len' : Nat) :
    euLow (deriveCosts p c 1) len len' q = euHigh (deriveCosts p c 1) len len' q := by
  simp only [euHigh, euLow, deriveCosts, Params.forToken]; ring

/-- A concrete instance: precision 0.7, start cost 5, sensitivity 0.8, a 3-character token that is
right with probability 0.6 should be low confidence. -/
example : euHigh (deriveCosts (7/10) 5 (8/10)) 3 4 (6/10)
    < euLow (deriveCosts (7/10) 5 (8/10)) 3 4 (6/10) :=
  (C49_precision _ _ _ _ 3 4 (by norm_num) (by norm_num) (.inl (by norm_num))).2.2.2 (by norm_num)

end RUSure.Props
