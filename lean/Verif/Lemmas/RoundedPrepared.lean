import Verif.Spec.RoundedPrepared
import Verif.Lemmas.RoundedGrowth
import Verif.Lemmas.RoundedConstrain

/-! # How large numbers get in prepared systems -/

namespace RUSure.Lemmas.Rnd
open RUSure RUSure.Spec RUSure.Lemmas RUSure.Rounded

variable {A : Arith} {F : ℚ → Prop} {u τ η limit : ℚ} {n N : Nat} {C X : ℚ}

theorem needed_mono (hu : 0 ≤ u) (hη : 0 ≤ η) {M M' : ℚ} (h : M ≤ M') :
    rangeNeeded u η τ N n M X ≤ rangeNeeded u η τ N n M' X := by
  unfold rangeNeeded
  have h1 := one_le_pow_u hu (2 * n + N + 4)
  have h2 : (N : ℚ) * M ≤ N * M' := mul_le_mul_of_nonneg_left h (Nat.cast_nonneg _)
  have h3 : 0 ≤ 2 * (1 + η) * (1 + u) ^ (2 * n + N + 4) := by positivity
  have := mul_le_mul_of_nonneg_left (add_le_add_left h2 X) h3
  linarith

theorem needed_nonneg (hu : 0 ≤ u) (hη : 0 ≤ η) (hτ : 0 ≤ τ) (hX : 0 ≤ X) {M : ℚ} (hM : 0 ≤ M) :
    0 ≤ rangeNeeded u η τ N n M X := by
  unfold rangeNeeded
  have := one_le_pow_u hu (2 * n + N + 4)
  positivity

theorem growSize_base (hu : 0 ≤ u) (hη : 0 ≤ η) (hτ : 0 ≤ τ) (hX : 0 ≤ X) (hC : 0 ≤ C) :
    ∀ t, C ≤ growSize u η τ N n C X t
  | 0 => le_refl _
  | t + 1 => by
    have h1 := growSize_base hu hη hτ hX hC t
    have h2 := needed_nonneg hu hη hτ hX (N := N) (n := n) (hC.trans h1)
    have : 0 ≤ (n : ℚ) * ((1 + u) * rangeNeeded u η τ N n (growSize u η τ N n C X t) X) :=
      mul_nonneg (Nat.cast_nonneg _) (mul_nonneg (by linarith) h2)
    unfold growSize
    linarith

theorem growSize_succ (hu : 0 ≤ u) (hη : 0 ≤ η) (hτ : 0 ≤ τ) (hX : 0 ≤ X) (hC : 0 ≤ C) :
    ∀ t, growSize u η τ N n C X t ≤ growSize u η τ N n C X (t + 1)
  | 0 => growSize_base hu hη hτ hX hC 1
  | t + 1 => by
    have h1 := growSize_succ hu hη hτ hX hC t
    rw [growSize, growSize]
    have h2 := needed_mono (τ := τ) (X := X) hu hη (N := N) (n := n) h1
    have h3 := mul_le_mul_of_nonneg_left h2 (by linarith : 0 ≤ 1 + u)
    have h4 := mul_le_mul_of_nonneg_left h3 (Nat.cast_nonneg (α := ℚ) n)
    rw [growSize] at h4 ⊢
    linarith

theorem growSize_mono (hu : 0 ≤ u) (hη : 0 ≤ η) (hτ : 0 ≤ τ) (hX : 0 ≤ X) (hC : 0 ≤ C) {t t' : Nat}
    (h : t ≤ t') : growSize u η τ N n C X t ≤ growSize u η τ N n C X t' := by
  induction h with
  | refl => exact le_refl _
  | step _ ih => exact ih.trans (growSize_succ hu hη hτ hX hC _)

theorem run_grows (hA : AccurateArith A F u τ limit) (hu : 0 ≤ u) (hτ : 0 ≤ τ) (hη : 0 ≤ η)
    (hX : 0 ≤ X) {C0 : ℚ} (hC0 : 0 ≤ C0) (hC : C0 ≤ C) {T : Nat} (hN1 : 1 ≤ N)
    (hl : rangeNeeded u η τ N n (growSize u η τ N n C X T) X ≤ limit) :
    ∀ (vs : List Nat) (S : System) (t : Nat) (P : ℚ), t + vs.length ≤ T → S.subs.length = N →
    (∀ s ∈ S.subs, RSubOK A.toMachine S.numKeys S.numValues s) →
    (∀ s ∈ S.subs, Costed F s.memo.dag n C0) → 0 ≤ P → (∀ s ∈ S.subs, Penned F s.memo.pen P) →
    C0 + n * P ≤ growSize u η τ N n C X t →
    (∀ w x, ∀ c : ℚ, S.extra w x = c → F c ∧ |c| ≤ X) →
    (∀ v ∈ vs, FairShares A S v η) →
    RunInRange A F n (growSize u η τ N n C X T) X vs S
    ∧ ∀ S' bs, averages A vs S = some (S', bs) →
      ∀ s ∈ S'.subs, InRange F s.memo.dag s.memo.pen n (growSize u η τ N n C X T) := by
  have hCn : 0 ≤ C := hC0.trans hC
  intro vs
  induction vs with
  | nil =>
    intro S t P ht hN hok hc hP hp hCP hx _
    refine ⟨trivial, ?_⟩
    intro S' bs he s hs
    simp only [averages, Option.some.injEq, Prod.mk.injEq] at he
    rw [← he.1] at hs
    exact (range_of_penned hA.sums.zero hP (hc s hs) (hp s hs)).weaken
      (hCP.trans (growSize_mono hu hη hτ hX hCn (by simp at ht; omega)))
  | cons v vs ih =>
    intro S t P ht hN hok hc hP hp hCP hx hs
    rw [List.length_cons] at ht
    have hsz := hCP.trans (growSize_mono (t' := T) hu hη hτ hX (N := N) (n := n) hCn (by omega))
    have hstep : StepInRange F S v n (growSize u η τ N n C X T) X := by
      refine ⟨fun s hsm => ?_, fun x c hxc => hx v x c hxc⟩
      refine (range_of_penned hA.sums.zero hP (hc s hsm) ?_).weaken hsz
      intro k x q hq
      unfold Sub.without at hq
      split at hq
      · obtain rfl : (0 : ℚ) = q := WithTop.coe_inj.1 hq
        exact ⟨hA.sums.zero, by simpa using hP⟩
      · exact hp s hsm k x q hq
    have hnext : ∀ S1 b, Rounded.average A S v = some (S1, b) →
        RunInRange A F n (growSize u η τ N n C X T) X vs S1
        ∧ ∀ S' bs, averages A vs S1 = some (S', bs) →
          ∀ s ∈ S'.subs, InRange F s.memo.dag s.memo.pen n (growSize u η τ N n C X T) := by
      intro S1 b he
      obtain ⟨hsame, hok1⟩ := step_same hok he
      have hM0 : 0 ≤ C0 + n * P := add_nonneg hC0 (mul_nonneg (Nat.cast_nonneg _) hP)
      have hpen := step_penned hA hu hτ hη hok hC0 hP hX hc hp hx (hs v (by simp)) (by
        rw [hN]; exact (needed_mono hu hη hsz).trans hl) he
      rw [hN] at hpen
      refine ih S1 (t + 1) _ (by omega) (hsame.subs.length_eq.symm.trans hN) hok1 ?_
        (hP.trans (le_max_left _ _)) hpen ?_ (by rw [hsame.extra]; exact hx) ?_
      · exact step_dags hok he (P := fun d _ => Costed F d n C0) hc
      · rw [growSize]
        have h1 := needed_mono (τ := τ) (X := X) hu hη (N := N) (n := n) hCP
        have h2 := mul_le_mul_of_nonneg_left h1 (by linarith : 0 ≤ 1 + u)
        rcases Nat.eq_zero_or_pos n with hn | hn
        · subst hn; simpa using hC
        · have hn1 : (1 : ℚ) ≤ n := by exact_mod_cast hn
          refine add_le_add hC (mul_le_mul_of_nonneg_left (max_le ?_ h2) (by linarith))
          refine le_trans ?_ h2
          have hN' : (1 : ℚ) ≤ N := by exact_mod_cast hN1
          have h3 : P ≤ C0 + n * P := by nlinarith
          refine h3.trans ?_
          have h4 := needed_nonneg hu hη hτ hX (N := N) (n := n) hM0
          have h5 : C0 + n * P ≤ rangeNeeded u η τ N n (C0 + n * P) X := by
            unfold rangeNeeded
            have p1 := one_le_pow_u hu (2 * n + N + 4)
            generalize C0 + n * P = M at *
            have h6 : M ≤ N * M + X := by nlinarith
            have h7 : (1 : ℚ) ≤ 2 * (1 + η) * (1 + u) ^ (2 * n + N + 4) := by nlinarith
            have h8 := mul_le_mul h7 h6 hM0 (by linarith)
            linarith
          have h6 : 0 ≤ u * rangeNeeded u η τ N n (C0 + n * P) X := mul_nonneg hu h4
          linarith
      · intro w hw
        have h1 := hs w (List.mem_cons_of_mem _ hw)
        have h2 := step_shares (w := w) hok he
        exact ⟨by rw [h2]; exact h1.nonneg, by rw [h2]; exact h1.total⟩
    refine ⟨⟨hstep, ?_⟩, ?_⟩
    · rintro ⟨S1, b⟩ he
      exact (hnext S1 b he).1
    · intro S' bs he
      unfold averages at he
      rw [Option.bind_eq_some_iff] at he
      obtain ⟨⟨S1, b⟩, h1, h2⟩ := he
      rw [Option.map_eq_some_iff] at h2
      obtain ⟨⟨S2, bs2⟩, h2, h3⟩ := h2
      simp only [Prod.mk.injEq] at h3
      rw [← h3.1]
      exact (hnext S1 b h1).2 S2 bs2 h2

/-- Costs of paths from costs of edges. -/
theorem bounded_costed {d : PackedDag} {c : ℚ} (hb : DagBounded F d n c) (hc : 0 ≤ c)
    (wf : PackedWF d) : Costed F d n (n * c) := by
  have hlen : ∀ p, Complete d p → p.length ≤ n := by
    intro p hp
    have := path_length wf hp
    have := hb.states
    omega
  refine ⟨fun e he x hx => (hb.member e he x hx).1, hlen, ?_⟩
  intro p hp l hl
  have hl1 : ∀ x ∈ l, |x| ≤ c := by
    intro x hx
    have h1 : (x : Cost) ∈ p.map PackedEdge.cost := by
      rw [hl]
      exact List.mem_map.2 ⟨x, hx, rfl⟩
    obtain ⟨e, he, hec⟩ := List.mem_map.1 h1
    exact (hb.member e (complete_mem hp e he) x hec).2
  have hl2 : l.length = p.length := by
    have := congrArg List.length hl
    simpa [coes] using this.symm
  refine (abs_sum_length hl1).trans (mul_le_mul_of_nonneg_right ?_ hc)
  rw [hl2]
  exact_mod_cast hlen p hp

/-- The extra costs of a prepared system. -/
theorem UStart.extras (hS : AccurateShares A F u τ limit) (hF0 : F 0) (hX : 0 ≤ X) (hXl : X ≤ limit)
    {S0 S : System} {p : Nat → Nat → Cost} {us : List Nat} (h : UStart A S0 p us S)
    (hp : ∀ w ∈ us, ∀ x, ∀ q : ℚ, p w x = q → F q ∧ |q| ≤ X) :
    ∀ w x, ∀ c : ℚ, S.extra w x = c → F c ∧ |c| ≤ X := by
  intro w x c hc
  by_cases hw : w ∈ us
  · rw [h.extra w hw x] at hc
    cases hq : p w x using WithTop.recTopCoe with
    | top => rw [hq, A.top_right] at hc; exact absurd hc.symm WithTop.coe_ne_top
    | coe q =>
      obtain ⟨q1, q2⟩ := hp w hw x q hq
      rw [hq] at hc
      have h0 : A.add (0 : Cost) (q : Cost) = q := hS.zero_add q q1 (q2.trans hXl)
      rw [h0] at hc
      rw [← WithTop.coe_inj.1 hc]
      exact ⟨q1, q2⟩
  · rw [(h.rest w hw).1 x] at hc
    rw [← WithTop.coe_inj.1 (show ((0 : ℚ) : Cost) = c from hc)]
    exact ⟨hF0, by simpa using hX⟩

/-- The penalties of a prepared system. -/
theorem UStart.penned (hS : AccurateShares A F u τ limit) (hF0 : F 0) (hu : 0 ≤ u) (hτ : 0 ≤ τ)
    (hX : 0 ≤ X) (hXl : (1 + u) * X + τ ≤ limit) {S0 S : System} {p : Nat → Nat → Cost} {us : List Nat}
    (h : UStart A S0 p us S) (hp : ∀ w ∈ us, ∀ x, ∀ q : ℚ, p w x = q → F q ∧ |q| ≤ X) :
    ∀ s ∈ S.subs, Penned F s.memo.pen ((1 + u) * X + τ) := by
  intro s hs k x q hq
  have hP : 0 ≤ (1 + u) * X + τ := add_nonneg (mul_nonneg (by linarith) hX) hτ
  have hX1 : X ≤ limit := by nlinarith
  rcases h.bare s hs k x with h0 | ⟨w, hw, hi⟩
  · rw [h0] at hq
    rw [← WithTop.coe_inj.1 (show ((0 : ℚ) : Cost) = q from hq)]
    exact ⟨hF0, by simpa using hP⟩
  · have hc := h.charge w hw s hs x
    have hi' : s.view.index w = some k := hi
    have hv : s.view.charge w x = s.memo.pen k x := by
      unfold View.charge
      rw [hi']
      rfl
    rw [hv, hi, hq] at hc
    simp only [Option.isSome_some, if_true] at hc
    have hr : 0 < S0.numRelevant w := by
      rw [← h.relevant w]
      apply List.length_pos_iff.2
      intro hnil
      have : s ∈ S.subs.filter fun s => (s.index w).isSome := by
        rw [List.mem_filter]
        exact ⟨hs, by rw [hi]; rfl⟩
      rw [hnil] at this
      cases this
    have hrq : (1 : ℚ) ≤ S0.numRelevant w := by exact_mod_cast hr
    cases hpw : p w x using WithTop.recTopCoe with
    | top =>
      rw [hpw] at hc
      have : divide A ⊤ (S0.numRelevant w) = ⊤ := rfl
      rw [this, A.top_right] at hc
      exact absurd hc WithTop.coe_ne_top
    | coe y =>
      obtain ⟨y1, y2⟩ := hp w hw x y hpw
      obtain ⟨d1, d2⟩ := hS.div y (S0.numRelevant w) y1 (y2.trans hX1) hr
      rw [hpw] at hc
      have e1 : divide A (y : Cost) (S0.numRelevant w) = ((A.div y (S0.numRelevant w) : ℚ) : Cost) := rfl
      have hdiv : |y / (S0.numRelevant w : ℚ)| ≤ X := by
        rw [abs_div, Nat.abs_cast]
        exact (div_le_self (abs_nonneg _) hrq).trans y2
      have hd : |A.div y (S0.numRelevant w)| ≤ (1 + u) * X + τ := by
        have e : A.div y (S0.numRelevant w)
            = (A.div y (S0.numRelevant w) - y / S0.numRelevant w) + y / S0.numRelevant w := by ring
        rw [e]
        refine (abs_add_le _ _).trans ?_
        have := mul_le_mul_of_nonneg_left hdiv hu
        linarith
      have h0 : A.add (0 : Cost) ((A.div y (S0.numRelevant w) : ℚ) : Cost)
          = ((A.div y (S0.numRelevant w) : ℚ) : Cost) := hS.zero_add _ d1 (hd.trans hXl)
      rw [e1, h0] at hc
      rw [WithTop.coe_inj.1 hc]
      exact ⟨d1, hd⟩

end RUSure.Lemmas.Rnd
