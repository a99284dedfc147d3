import Verif.Model.Rounding64
import Mathlib.Tactic.Linarith

/-! # Rounding to `float64` numbers does not reverse their order -/

namespace RUSure.Rounded

theorem roundEven_bounds (y : ℚ) : ⌊y⌋ ≤ roundEven y ∧ roundEven y ≤ ⌊y⌋ + 1 := by
  unfold roundEven
  split
  · omega
  · split
    · omega
    · split <;> omega

theorem roundEven_int (n : ℤ) : roundEven n = n := by
  unfold roundEven
  simp

theorem roundEven_mono {x y : ℚ} (h : x ≤ y) : roundEven x ≤ roundEven y := by
  obtain ⟨h1, h2⟩ := roundEven_bounds x
  obtain ⟨h3, h4⟩ := roundEven_bounds y
  rcases (Int.floor_le_floor h).lt_or_eq with hlt | heq
  · omega
  · unfold roundEven
    rw [← heq]
    split <;> rename_i a1
    · split
      · omega
      · split
        · omega
        · split <;> omega
    · rw [if_neg (by linarith : ¬ y - (⌊x⌋ : ℚ) < 1 / 2)]
      split <;> rename_i a2
      · rw [if_pos (by linarith)]
      · split_ifs <;> omega

theorem roundEven_error (y : ℚ) : |(roundEven y : ℚ) - y| ≤ 1 / 2 := by
  have h1 := Int.floor_le y
  have h2 := Int.lt_floor_add_one y
  unfold roundEven
  rw [abs_le]
  split <;> rename_i a1
  · constructor <;> linarith
  · push Not at a1
    split <;> rename_i a2
    · push_cast; constructor <;> linarith
    · push Not at a2
      split
      · constructor <;> linarith
      · push_cast; constructor <;> linarith

theorem two_zpow_pos (e : ℤ) : (0 : ℚ) < 2 ^ e := zpow_pos (by norm_num) e

theorem lt_lastPlace (x : ℚ) : x < 2 ^ (lastPlace x + 53) := by
  refine lt_of_lt_of_le (Int.lt_zpow_succ_log_self (b := 2) (by norm_num) x) ?_
  push_cast
  exact zpow_le_zpow_right₀ (by norm_num) (by unfold lastPlace; omega)

theorem lastPlace_le {x : ℚ} (hx : 0 < x) (h : -1074 < lastPlace x) :
    (2 : ℚ) ^ (lastPlace x + 52) ≤ x := by
  have h1 := Int.zpow_log_le_self (b := 2) (by norm_num) hx
  push_cast at h1
  have : lastPlace x + 52 = Int.log 2 x := by unfold lastPlace at *; omega
  rw [this]
  exact h1

theorem roundPos_zero : roundPos 0 = 0 := by
  unfold roundPos
  rw [zero_div, show roundEven 0 = 0 from by simpa using roundEven_int 0]
  simp

theorem roundPos_nonneg {x : ℚ} (hx : 0 ≤ x) : 0 ≤ roundPos x := by
  unfold roundPos
  have : (0 : ℤ) ≤ roundEven (x / 2 ^ lastPlace x) := by
    rw [show (0 : ℤ) = roundEven ((0 : ℤ) : ℚ) from (roundEven_int 0).symm]
    apply roundEven_mono
    push_cast
    exact div_nonneg hx (two_zpow_pos _).le
  have h2 : (0 : ℚ) ≤ (roundEven (x / 2 ^ lastPlace x) : ℚ) := by exact_mod_cast this
  exact mul_nonneg h2 (two_zpow_pos _).le

theorem lastPlace_mono {x y : ℚ} (hx : 0 < x) (h : x ≤ y) : lastPlace x ≤ lastPlace y := by
  have := Int.log_mono_right (b := 2) hx h
  unfold lastPlace
  omega

theorem roundPos_mono {x y : ℚ} (hx : 0 ≤ x) (h : x ≤ y) : roundPos x ≤ roundPos y := by
  rcases hx.eq_or_lt with rfl | hx
  · rw [roundPos_zero]; exact roundPos_nonneg h
  · have hy : 0 < y := lt_of_lt_of_le hx h
    rcases (lastPlace_mono hx h).eq_or_lt with heq | hlt
    · unfold roundPos
      rw [heq]
      apply mul_le_mul_of_nonneg_right _ (two_zpow_pos _).le
      exact_mod_cast roundEven_mono (div_le_div_of_nonneg_right h (two_zpow_pos _).le)
    · have hm : -1074 < lastPlace y := lt_of_le_of_lt (by unfold lastPlace; omega) hlt
      have h1 : roundPos x ≤ 2 ^ (lastPlace x + 53) := by
        unfold roundPos
        rw [add_comm, zpow_add₀ (by norm_num)]
        apply mul_le_mul_of_nonneg_right _ (two_zpow_pos _).le
        have : roundEven (x / 2 ^ lastPlace x) ≤ 2 ^ 53 := by
          rw [← roundEven_int (2 ^ 53)]
          apply roundEven_mono
          rw [div_le_iff₀ (two_zpow_pos _)]
          have := (lt_lastPlace x).le
          rw [add_comm, zpow_add₀ (by norm_num)] at this
          exact_mod_cast this
        exact_mod_cast this
      have h2 : (2 : ℚ) ^ (lastPlace y + 52) ≤ roundPos y := by
        unfold roundPos
        rw [add_comm, zpow_add₀ (by norm_num)]
        apply mul_le_mul_of_nonneg_right _ (two_zpow_pos _).le
        have : 2 ^ 52 ≤ roundEven (y / 2 ^ lastPlace y) := by
          rw [← roundEven_int (2 ^ 52)]
          apply roundEven_mono
          rw [le_div_iff₀ (two_zpow_pos _)]
          have := lastPlace_le hy hm
          rw [add_comm, zpow_add₀ (by norm_num)] at this
          exact_mod_cast this
        exact_mod_cast this
      refine h1.trans (le_trans ?_ h2)
      exact zpow_le_zpow_right₀ (by norm_num) (by omega)

theorem round64_mono {x y : ℚ} (h : x ≤ y) : round64 x ≤ round64 y := by
  unfold round64
  split <;> rename_i hx
  · rw [if_pos (hx.trans h)]
    exact roundPos_mono hx h
  · push Not at hx
    split <;> rename_i hy
    · have h1 := roundPos_nonneg (x := -x) (by linarith)
      have h2 := roundPos_nonneg hy
      linarith
    · push Not at hy
      have := roundPos_mono (x := -y) (y := -x) (by linarith) (by linarith)
      linarith

theorem nearest64_mono {x y : ℚ} (h : x ≤ y) : nearest64 x ≤ nearest64 y := by
  unfold nearest64
  have hm := round64_mono h
  by_cases hy : round64 y < 2 ^ 1024
  · rw [if_pos hy, if_pos (lt_of_le_of_lt hm hy)]
    exact WithTop.coe_le_coe.2 hm
  · rw [if_neg hy]; exact le_top

end RUSure.Rounded
