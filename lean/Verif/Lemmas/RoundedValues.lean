import Verif.Lemmas.RoundedGrowth

/-!
# The numbers reported by the solver in machine arithmetic
-/

namespace RUSure.Lemmas.Rnd
open RUSure RUSure.Spec RUSure.Rounded

variable {A : Arith} {F : ℚ → Prop} {u τ η limit : ℚ} {N V : Nat}

/-- A cost is infinite, or a number in `F` of at most size `G`. -/
def Sized (F : ℚ → Prop) (G : ℚ) (c : Cost) : Prop := ∀ q : ℚ, c = q → F q ∧ |q| ≤ G

theorem Sized.add (hA : Accurate A.toMachine F u limit) (hu : 0 ≤ u) {G H : ℚ} {c d : Cost}
    (hc : Sized F G c) (hd : Sized F H d) (hl : G + H ≤ limit) :
    Sized F ((1 + u) * (G + H)) (A.add c d) := by
  intro q hq
  have hct : c ≠ ⊤ := by
    rintro rfl
    rw [A.top_left] at hq
    exact absurd hq.symm WithTop.coe_ne_top
  have hdt : d ≠ ⊤ := by
    rintro rfl
    rw [A.top_right] at hq
    exact absurd hq.symm WithTop.coe_ne_top
  obtain ⟨a, rfl⟩ := WithTop.ne_top_iff_exists.1 hct
  obtain ⟨b, rfl⟩ := WithTop.ne_top_iff_exists.1 hdt
  obtain ⟨a0, a1⟩ := hc a rfl
  obtain ⟨b0, b1⟩ := hd b rfl
  have hab := (abs_add_le a b).trans (add_le_add a1 b1)
  obtain ⟨r, r0, r1, r2⟩ := hA.add a b a0 b0 (hab.trans hl)
  rw [r1] at hq
  obtain rfl := WithTop.coe_inj.1 hq
  refine ⟨r0, ?_⟩
  have e : r = (r - (a + b)) + (a + b) := by ring
  rw [e]
  refine (abs_add_le _ _).trans ?_
  have := mul_le_mul_of_nonneg_left hab hu
  linarith

theorem Sized.weaken {G H : ℚ} {c : Cost} (h : Sized F G c) (hGH : G ≤ H) : Sized F H c :=
  fun q hq => ⟨(h q hq).1, (h q hq).2.trans hGH⟩

theorem skip_size (hA : Accurate A.toMachine F u limit) (hu : 0 ≤ u) {d : PackedDag}
    {pen : Penalties} {n : Nat} {M : ℚ} (hr : InRange F d pen n M)
    (hl : (1 + u) ^ (2 * n) * M ≤ limit) {c : Cost} (hc : StrategyCost A.toMachine d pen c .fromMiddle) :
    Sized F ((1 + u) ^ (2 * n + 1) * M) c := by
  intro q hq
  obtain ⟨v, -, hmin⟩ := hc
  rcases hmin.attained with rfl | ⟨⟨p1, e, p2⟩, ⟨hp, x, hreq⟩, he⟩
  · exact absurd hq.symm WithTop.coe_ne_top
  · obtain ⟨m, m1, m2, m3⟩ := marg_size hA hu hr hl (k := v) (x := x) (c := c)
      ⟨fun y hy => hmin.le y ⟨hy.1, x, hy.2⟩, .inr ⟨(p1, e, p2), ⟨hp, hreq⟩, he⟩⟩
      (by rw [hq]; exact WithTop.coe_lt_top q)
    rw [hq] at m1
    rw [WithTop.coe_inj.1 m1]
    exact ⟨m2, m3⟩

theorem averageOpen_size (hA : Accurate A.toMachine F u limit) (hu : 0 ≤ u) {n : Nat} {M G : ℚ}
    (hM : 0 ≤ M) (hG : (1 + u) ^ (2 * n + 1) * M = G) (v : Nat) :
    ∀ (ss : List Sub) (st : AverageState) (rs : List (Sub × Option (Nat × (Nat → Cost))))
    (st' : AverageState) (i : Nat), (∀ s ∈ ss, RSubOK A.toMachine N V s) →
    (∀ s ∈ ss, InRange F s.memo.dag (Sub.without s v) n M) →
    Rounded.averageOpen A v ss st = some (rs, st') →
    (∀ x, Sized F ((1 + u) ^ i * (i * G)) (st.total x)) → Sized F ((1 + u) ^ i * (i * G)) st.skipped →
    (1 + u) ^ (i + ss.length) * ((i + ss.length : ℕ) * G) ≤ limit → (1 + u) ^ (2 * n) * M ≤ limit →
    (∀ x, Sized F ((1 + u) ^ (i + ss.length) * ((i + ss.length : ℕ) * G)) (st'.total x))
    ∧ Sized F ((1 + u) ^ (i + ss.length) * ((i + ss.length : ℕ) * G)) st'.skipped := by
  intro ss
  have hG0 : 0 ≤ G := by
    rw [← hG]
    exact mul_nonneg (pow_nonneg (by linarith) _) hM
  induction ss with
  | nil =>
    intro st rs st' i _ _ h ht hs _ _
    simp only [Rounded.averageOpen, Option.some.injEq, Prod.mk.injEq] at h
    obtain ⟨-, rfl⟩ := h
    exact ⟨ht, hs⟩
  | cons s ss ih =>
    intro st rs st' i hok hr h ht hs hl hl'
    have hso := hok s (by simp)
    have hsr := hr s (by simp)
    have hi : i + (s :: ss).length = i + 1 + ss.length := by simp; omega
    rw [hi] at hl ⊢
    have ha : (1 : ℚ) ≤ 1 + u := by linarith
    have hpi : (1 : ℚ) ≤ (1 + u) ^ i := one_le_pow_u hu i
    have hG1 : G ≤ (1 + u) ^ i * G := by nlinarith
    have hstep : (1 + u) ^ i * (i * G) + G ≤ (1 + u) ^ i * ((i + 1 : ℕ) * G) := by
      push_cast
      linarith [show (1 + u) ^ i * ((i + 1) * G) = (1 + u) ^ i * (i * G) + (1 + u) ^ i * G by ring]
    have hpos : (0 : ℚ) ≤ (i + 1 : ℕ) * G := mul_nonneg (Nat.cast_nonneg _) hG0
    have hle1 : (1 + u) ^ i * ((i + 1 : ℕ) * G) ≤ limit := by
      refine le_trans ?_ hl
      refine mul_le_mul (pow_mono hu (by omega)) ?_ hpos (pow_nonneg (by linarith) _)
      exact mul_le_mul_of_nonneg_right (by exact_mod_cast (by omega)) hG0
    have hsucc : (1 + u) * ((1 + u) ^ i * (i * G) + G) ≤ (1 + u) ^ (i + 1) * ((i + 1 : ℕ) * G) := by
      rw [pow_succ]
      have := mul_le_mul_of_nonneg_left hstep (by linarith : 0 ≤ 1 + u)
      linarith
    have hkeep : (1 + u) ^ i * (i * G) ≤ (1 + u) ^ (i + 1) * ((i + 1 : ℕ) * G) := by
      refine mul_le_mul (pow_mono hu (by omega)) ?_ (mul_nonneg (Nat.cast_nonneg _) hG0)
        (pow_nonneg (by linarith) _)
      exact mul_le_mul_of_nonneg_right (by exact_mod_cast (by omega)) hG0
    unfold Rounded.averageOpen at h
    cases hk : s.index v with
    | none =>
      simp only [hk] at h
      split at h
      · cases h
      · rename_i m c hc
        split at h
        · cases h
        · rename_i rs1 st1 hl1
          simp only [Option.some.injEq, Prod.mk.injEq] at h
          obtain ⟨-, rfl⟩ := h
          obtain ⟨-, -, h3⟩ := rsub_skip hso hc
          rw [without_none hk] at hsr
          have hsz := skip_size hA hu hsr hl' h3
          rw [hG] at hsz
          refine ih _ _ _ (i + 1) (fun s' hs' => hok s' (List.mem_cons_of_mem _ hs'))
            (fun s' hs' => hr s' (List.mem_cons_of_mem _ hs')) hl1
            (fun x => (ht x).weaken hkeep) ?_ hl hl'
          exact (hs.add hA hu hsz (hstep.trans hle1)).weaken hsucc
    | some k =>
      simp only [hk] at h
      split at h
      · cases h
      · rename_i m mm hc
        split at h
        · cases h
        · rename_i rs1 st1 hl1
          simp only [Option.some.injEq, Prod.mk.injEq] at h
          obtain ⟨-, rfl⟩ := h
          have hs' := (rsub_set hso hk fun _ => 0).1
          obtain ⟨-, -, h3⟩ := rsub_marg hs' hc
          rw [without_some hk] at hsr
          refine ih _ _ _ (i + 1) (fun s' hs' => hok s' (List.mem_cons_of_mem _ hs'))
            (fun s' hs' => hr s' (List.mem_cons_of_mem _ hs')) hl1 ?_ (hs.weaken hkeep) hl hl'
          intro x
          have hsz : Sized F G (mm x) := by
            intro q hq
            have h4 := h3 x
            simp only [setPenalties_pen, setPenalties_dag] at h4
            obtain ⟨m', m1, m2, m3⟩ := marg_size hA hu hsr hl' h4
              (by rw [hq]; exact WithTop.coe_lt_top q)
            rw [hq] at m1
            rw [WithTop.coe_inj.1 m1, ← hG]
            exact ⟨m2, m3⟩
          exact ((ht x).add hA hu hsz (hstep.trans hle1)).weaken hsucc

/-- The size of a reported bound. -/
theorem step_size (hA : Accurate A.toMachine F u limit) (hu : 0 ≤ u) (hη : 0 ≤ η) (hτ : 0 ≤ τ)
    {S S' : System} {v n : Nat} {M : ℚ} {b : Cost} (hM : 0 ≤ M)
    (hok : ∀ s ∈ S.subs, RSubOK A.toMachine S.numKeys S.numValues s)
    (hr : StepInRange F S v n M 0) (hN : 1 ≤ S.subs.length)
    (hl : rangeNeeded u η τ S.subs.length n M 0 ≤ limit)
    (he : Rounded.average A S v = some (S', b)) :
    Sized F (rangeNeeded u η τ S.subs.length n M 0) b := by
  obtain ⟨rs, st, h1, -, -, -, -, -, -, -, h9⟩ := average_effect hok he
  generalize hNN : S.subs.length = N at *
  have hN1 : (1 : ℚ) ≤ N := by exact_mod_cast hN
  have ha : (0 : ℚ) ≤ 1 + u := by linarith
  have hNM : M ≤ N * M := by nlinarith
  have hY0 : 0 ≤ (1 + u) ^ (2 * n + N + 1) * (N * M) := mul_nonneg (pow_nonneg ha _) (by linarith)
  have hYe : (1 + u) ^ N * (N * ((1 + u) ^ (2 * n + 1) * M)) = (1 + u) ^ (2 * n + N + 1) * (N * M) := by
    rw [show 2 * n + N + 1 = N + (2 * n + 1) by omega, pow_add]; ring
  have hR : rangeNeeded u η τ N n M 0
      = 2 * (1 + η) * ((1 + u) ^ 3 * ((1 + u) ^ (2 * n + N + 1) * (N * M))) + τ := by
    unfold rangeNeeded
    rw [show 2 * n + N + 4 = 3 + (2 * n + N + 1) by omega, pow_add]
    ring
  have hsm : (1 + u) ^ (2 * n) * M ≤ (1 + u) ^ (2 * n + N + 1) * (N * M) :=
    mul_le_mul (pow_mono hu (by omega)) hNM hM (pow_nonneg ha _)
  rw [hR] at hl ⊢
  generalize hY : (1 + u) ^ (2 * n + N + 1) * (N * M) = Y at *
  have p2 : (1 : ℚ) ≤ (1 + u) := by linarith
  have c1 : Y ≤ (1 + u) * Y := by nlinarith
  have c2 : (1 + u) * Y ≤ (1 + u) ^ 2 * Y := by
    have := mul_le_mul_of_nonneg_right p2 (hY0.trans c1)
    linarith [show (1 + u) ^ 2 * Y = (1 + u) * ((1 + u) * Y) by ring]
  have c3 : (1 + u) ^ 2 * Y ≤ (1 + u) ^ 3 * Y := by
    have := mul_le_mul_of_nonneg_right p2 ((hY0.trans c1).trans c2)
    linarith [show (1 + u) ^ 3 * Y = (1 + u) * ((1 + u) ^ 2 * Y) by ring]
  have c4 : 0 ≤ η * ((1 + u) ^ 3 * Y) := mul_nonneg hη (by linarith)
  have hlim : 2 * ((1 + u) ^ 3 * Y) ≤ limit := by linarith
  obtain ⟨a1, a2⟩ := averageOpen_size hA hu hM rfl v S.subs _ rs st 0 hok hr.subs h1
    (fun x q hq => by
      obtain rfl : (0 : ℚ) = q := WithTop.coe_inj.1 hq
      exact ⟨hA.zero, by simp⟩)
    (fun q hq => by
      obtain rfl : (0 : ℚ) = q := WithTop.coe_inj.1 hq
      exact ⟨hA.zero, by simp⟩)
    (by rw [zero_add, hNN, hYe]; linarith) (by linarith)
  rw [zero_add, hNN, hYe] at a1 a2
  have a3 : ∀ x, Sized F ((1 + u) * (Y + 0)) (A.add (st.total x) (S.extra v x)) :=
    fun x => (a1 x).add hA hu (fun q hq => hr.extra x q hq) (by linarith)
  have a4 : Sized F ((1 + u) * (Y + 0)) (arrayMin S.numValues fun x => A.add (st.total x) (S.extra v x)) := by
    rcases arrayMin_attained S.numValues (fun x => A.add (st.total x) (S.extra v x)) with h | ⟨x, -, h⟩
    · rw [h]; exact fun q hq => absurd hq.symm WithTop.coe_ne_top
    · rw [h]; exact a3 x
  rw [h9]
  refine (a4.add hA hu a2 (by linarith)).weaken ?_
  have e : (1 + u) * ((1 + u) * (Y + 0) + Y) = (1 + u) ^ 2 * Y + (1 + u) * Y := by ring
  rw [e]
  linarith

/-- A run does not fail, and the bounds it reports are numbers in range. -/
theorem run_size (hA : Accurate A.toMachine F u limit) (hu : 0 ≤ u) (hη : 0 ≤ η) (hτ : 0 ≤ τ)
    {n : Nat} {M : ℚ} (hM : 0 ≤ M) :
    ∀ (vs : List Nat) (S : System), (∀ s ∈ S.subs, RSubOK A.toMachine S.numKeys S.numValues s) →
    (∀ s ∈ S.subs, 0 < s.memo.dag.numKeys) → 1 ≤ S.subs.length → RunInRange A F n M 0 vs S →
    rangeNeeded u η τ S.subs.length n M 0 ≤ limit →
    ∃ S' bs, averages A vs S = some (S', bs)
      ∧ ∀ b ∈ bs, Sized F (rangeNeeded u η τ S.subs.length n M 0) b := by
  intro vs
  induction vs with
  | nil => intro S _ _ _ _ _; exact ⟨S, [], rfl, by simp⟩
  | cons v vs ih =>
    intro S hok hk hN hr hl
    obtain ⟨⟨rs, st⟩, h1⟩ := averageOpen_some v S.subs ⟨fun _ => 0, 0, 0⟩
      (fun s hs => ⟨hok s hs, hk s hs⟩)
    obtain ⟨S1, b, hav⟩ : ∃ S1 b, Rounded.average A S v = some (S1, b) := by
      unfold Rounded.average
      rw [h1]
      exact ⟨_, _, rfl⟩
    have hsz := step_size hA hu hη hτ hM hok hr.1 hN hl hav
    obtain ⟨hsame, hok1⟩ := step_same hok hav
    have hlen := hsame.subs.length_eq
    obtain ⟨S', bs, g1, g2⟩ := ih S1 hok1
      (step_dags hok hav (P := fun d _ => 0 < d.numKeys) hk) (by omega) (hr.2 _ hav)
      (by rw [← hlen]; exact hl)
    refine ⟨S', b :: bs, ?_, ?_⟩
    · unfold averages
      rw [hav, Option.bind_some, g1]
      rfl
    · intro b' hb'
      rcases List.mem_cons.1 hb' with rfl | hb'
      · exact hsz
      · rw [hlen]
        exact g2 b' hb'

end RUSure.Lemmas.Rnd
