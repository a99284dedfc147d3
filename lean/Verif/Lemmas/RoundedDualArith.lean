import Verif.Spec.RoundedDual
import Verif.Lemmas.RoundedError

/-! # Rounding errors of averaging -/

namespace RUSure.Lemmas.Rnd
open RUSure RUSure.Spec RUSure.Lemmas RUSure.Rounded

/-- `f` approximates `x` with `k` roundings of numbers of total size `S`. -/
structure Near (u : ℚ) (k : Nat) (f x S : ℚ) : Prop where
  size : 0 ≤ S
  err : |f - x| ≤ ((1 + u) ^ k - 1) * S
  abs : |f| ≤ (1 + u) ^ k * S

variable {A : Arith} {F : ℚ → Prop} {u τ η limit : ℚ}

theorem Near.weaken {k k' : Nat} {f x S S' : ℚ} (hu : 0 ≤ u) (h : Near u k f x S) (hk : k ≤ k')
    (hS : S ≤ S') : Near u k' f x S' := by
  have h1 := one_le_pow_u hu k
  have h2 := pow_mono hu hk
  refine ⟨h.size.trans hS, h.err.trans ?_, h.abs.trans ?_⟩
  · exact mul_le_mul (by linarith) hS h.size (by linarith)
  · exact mul_le_mul h2 hS h.size (by linarith)

theorem Near.add {M : Machine} (hA : Accurate M F u limit) (hu : 0 ≤ u) {k : Nat} {f x S g y T : ℚ}
    (hf : F f) (hg : F g) (h1 : Near u k f x S) (h2 : Near u k g y T)
    (hl : (1 + u) ^ k * (S + T) ≤ limit) :
    ∃ r : ℚ, F r ∧ M.add f g = r ∧ Near u (k + 1) r (x + y) (S + T) := by
  have hP := one_le_pow_u hu k
  have h3 := h1.err
  have h4 := h1.abs
  have h5 := h2.err
  have h6 := h2.abs
  have hsum : |f + g| ≤ (1 + u) ^ k * (S + T) := by
    have := abs_add_le f g
    linarith
  obtain ⟨r, k0, k1, k2⟩ := hA.add f g hf hg (hsum.trans hl)
  have hu2 := mul_le_mul_of_nonneg_left hsum hu
  refine ⟨r, k0, k1, add_nonneg h1.size h2.size, ?_, ?_⟩
  · have e : r - (x + y) = (r - (f + g)) + ((f - x) + (g - y)) := by ring
    rw [e, pow_succ]
    refine (abs_add_le _ _).trans ?_
    have h7 := abs_add_le (f - x) (g - y)
    nlinarith
  · have e : r = (r - (f + g)) + (f + g) := by ring
    rw [e, pow_succ]
    refine (abs_add_le _ _).trans ?_
    nlinarith

theorem near_self (hu : 0 ≤ u) (k : Nat) {f S : ℚ} (h : |f| ≤ S) : Near u k f f S := by
  have hP := one_le_pow_u hu k
  have h0 := (abs_nonneg f).trans h
  refine ⟨h0, ?_, ?_⟩
  · rw [sub_self, abs_zero]
    exact mul_nonneg (by linarith) h0
  · nlinarith

theorem newPenalty_error (hA : AccurateArith A F u τ limit) (hu : 0 ≤ u) (hτ : 0 ≤ τ) {T s m L : ℚ}
    (hT : F T) (hm : F m) (hs : 0 ≤ s) (hTs : |T| * s ≤ L) (hL : (1 + u) * L + τ + |m| ≤ limit) :
    ∃ q : ℚ, Rounded.newPenalty A T s m = q
      ∧ |q - (T * s - m)| ≤ |T| * s * (2 * u + u ^ 2) + u * |m| + τ * (1 + u) := by
  have hm0 := abs_nonneg m
  have hL0 : 0 ≤ L := (mul_nonneg (abs_nonneg T) hs).trans hTs
  have hab : |T * s| = |T| * s := by rw [abs_mul, abs_of_nonneg hs]
  obtain ⟨d, d0, d1, d2⟩ := hA.mul T s hT (by rw [hab]; nlinarith)
  rw [hab] at d2
  have hd : |d| ≤ (1 + u) * (|T| * s) + τ := by
    have e : d = (d - T * s) + T * s := by ring
    rw [e]
    refine (abs_add_le _ _).trans ?_
    rw [hab]
    linarith
  have hdm : |d + -m| ≤ (1 + u) * (|T| * s) + τ + |m| := by
    refine (abs_add_le _ _).trans ?_
    rw [abs_neg]
    linarith
  obtain ⟨q, -, q1, q2⟩ := hA.sums.add d (-m) d0 (hA.neg m hm) (hdm.trans (by nlinarith))
  refine ⟨q, ?_, ?_⟩
  · unfold Rounded.newPenalty
    rw [d1, if_neg WithTop.coe_ne_top]
    exact q1
  · have e : q - (T * s - m) = (q - (d + -m)) + (d - T * s) := by ring
    rw [e]
    refine (abs_add_le _ _).trans ?_
    have := mul_le_mul_of_nonneg_left hdm hu
    nlinarith

theorem newPenalties_error (hA : AccurateArith A F u τ limit) (hu : 0 ≤ u) (hτ : 0 ≤ τ)
    {T S L : ℚ} (hT : F T) (hL : (1 + u) * L + τ + S ≤ limit) (l : List (ℚ × ℚ))
    (hl : ∀ p ∈ l, F p.1 ∧ 0 ≤ p.2 ∧ |T| * p.2 ≤ L ∧ |p.1| ≤ S) :
    ∃ Q : ℚ, (l.map fun p => Rounded.newPenalty A T p.2 p.1).sum = Q
      ∧ |Q - (T * (l.map Prod.snd).sum - (l.map Prod.fst).sum)|
        ≤ |T| * (l.map Prod.snd).sum * (2 * u + u ^ 2) + u * (l.map fun p => |p.1|).sum
          + l.length * (τ * (1 + u)) := by
  induction l with
  | nil => exact ⟨0, rfl, by simp⟩
  | cons p l ih =>
    obtain ⟨Q, h1, h2⟩ := ih fun p hp => hl p (List.mem_cons_of_mem _ hp)
    obtain ⟨g1, g2, g3, g4⟩ := hl p (by simp)
    obtain ⟨q, h3, h4⟩ := newPenalty_error hA hu hτ hT g1 g2 g3 (by linarith)
    refine ⟨q + Q, ?_, ?_⟩
    · rw [List.map_cons, List.sum_cons, h1, h3]; rfl
    · simp only [List.map_cons, List.sum_cons, List.length_cons]
      have e : q + Q - (T * (p.2 + (l.map Prod.snd).sum) - (p.1 + (l.map Prod.fst).sum))
          = (q - (T * p.2 - p.1)) + (Q - (T * (l.map Prod.snd).sum - (l.map Prod.fst).sum)) := by
        ring
      rw [e]
      refine (abs_add_le _ _).trans ?_
      push_cast
      linarith

theorem le_sum_of_mem {l : List ℚ} (h : ∀ x ∈ l, 0 ≤ x) {x : ℚ} (hx : x ∈ l) : x ≤ l.sum := by
  induction l with
  | nil => simp at hx
  | cons y l ih =>
    have h0 : 0 ≤ l.sum := List.sum_nonneg fun z hz => h z (List.mem_cons_of_mem _ hz)
    rw [List.sum_cons]
    rcases List.mem_cons.1 hx with rfl | hx
    · linarith
    · have := ih (fun z hz => h z (List.mem_cons_of_mem _ hz)) hx
      have := h y (by simp)
      linarith

/-- The new penalties sum to the extra cost, up to rounding. -/
theorem balance_error (hA : AccurateArith A F u τ limit) (hu : 0 ≤ u) (hτ : 0 ≤ τ) (hη : 0 ≤ η)
    {T S P ext : ℚ} (hT : F T) (hP : 1 ≤ P) (l : List (ℚ × ℚ))
    (hF : ∀ p ∈ l, F p.1 ∧ 0 ≤ p.2) (hs : |(l.map Prod.snd).sum - 1| ≤ η)
    (hT1 : |T - ((l.map Prod.fst).sum + ext)| ≤ (P - 1) * S) (hT2 : |T| ≤ P * S)
    (hm : (l.map fun p => |p.1|).sum ≤ S)
    (hL : (1 + u) * ((1 + η) * (P * S)) + τ + S ≤ limit) :
    ∃ Q : ℚ, (l.map fun p => Rounded.newPenalty A T p.2 p.1).sum = Q
      ∧ |Q - ext| ≤ ((1 + η) * (P * (1 + u) ^ 2) - 1 + u) * S + l.length * (τ * (1 + u)) := by
  have hs' := abs_le.1 hs
  have hT0 := abs_nonneg T
  have hnn : ∀ x ∈ l.map Prod.snd, 0 ≤ x := by
    intro x hx
    obtain ⟨p, hp, rfl⟩ := List.mem_map.1 hx
    exact (hF p hp).2
  have habs : ∀ x ∈ l.map fun p => |p.1|, 0 ≤ x := by
    intro x hx
    obtain ⟨p, hp, rfl⟩ := List.mem_map.1 hx
    exact abs_nonneg _
  have hs0 : 0 ≤ (l.map Prod.snd).sum := List.sum_nonneg hnn
  have hTs : |T| * (l.map Prod.snd).sum ≤ (1 + η) * (P * S) := by nlinarith
  obtain ⟨Q, h1, h2⟩ := newPenalties_error hA hu hτ hT hL l (by
    intro p hp
    refine ⟨(hF p hp).1, (hF p hp).2, ?_, ?_⟩
    · refine le_trans (mul_le_mul_of_nonneg_left ?_ hT0) hTs
      exact le_sum_of_mem hnn (List.mem_map.2 ⟨p, hp, rfl⟩)
    · exact (le_sum_of_mem habs (List.mem_map.2 ⟨p, hp, rfl⟩)).trans hm)
  refine ⟨Q, h1, ?_⟩
  generalize (l.map Prod.snd).sum = s at *
  generalize (l.map Prod.fst).sum = m at *
  generalize (l.map fun p => |p.1|).sum = t at *
  have e : Q - ext = (Q - (T * s - m)) + (T * (s - 1) + (T - (m + ext))) := by ring
  rw [e]
  have a1 := abs_add_le (Q - (T * s - m)) (T * (s - 1) + (T - (m + ext)))
  have a2 := abs_add_le (T * (s - 1)) (T - (m + ext))
  rw [abs_mul] at a2
  have a3 : |T| * |s - 1| ≤ P * S * η := mul_le_mul hT2 hs (abs_nonneg _) (hT0.trans hT2)
  have a4 : |T| * s * (2 * u + u ^ 2) ≤ (1 + η) * (P * S) * (2 * u + u ^ 2) :=
    mul_le_mul_of_nonneg_right hTs (by positivity)
  have a5 : u * t ≤ u * S := mul_le_mul_of_nonneg_left hm hu
  linarith

end RUSure.Lemmas.Rnd
