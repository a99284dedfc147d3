import Verif.Props.RoundedBaselines

/-!
# Baselines for uncertainty regions in machine arithmetic: the solver ends, and explicit ranges (C87)
-/

namespace RUSure.Props
open RUSure RUSure.Spec RUSure.Lemmas RUSure.Rounded

section
variable {A : Arith} {F : ℚ → Prop} {u τ η limit : ℚ}

/-- What one averaging step reports is in range, extra costs included. -/
theorem step_sized (hA : Accurate A.toMachine F u limit) (hu : 0 ≤ u) (hη : 0 ≤ η) (hτ : 0 ≤ τ)
    {S S' : System} {v n : Nat} {M X : ℚ} {b : Cost} (hM : 0 ≤ M) (hX : 0 ≤ X)
    (hok : ∀ s ∈ S.subs, Rnd.RSubOK A.toMachine S.numKeys S.numValues s)
    (hr : StepInRange F S v n M X) (hN : 1 ≤ S.subs.length)
    (hl : rangeNeeded u η τ S.subs.length n M X ≤ limit)
    (he : Rounded.average A S v = some (S', b)) :
    Rnd.Sized F (rangeNeeded u η τ S.subs.length n M X) b := by
  obtain ⟨rs, st, h1, -, -, -, -, -, -, -, h9⟩ := Rnd.average_effect hok he
  generalize hNN : S.subs.length = N at *
  have hN1 : (1 : ℚ) ≤ N := by exact_mod_cast hN
  have ha : (0 : ℚ) ≤ 1 + u := by linarith
  have hNM : M ≤ N * M := by nlinarith
  have hP1 : (1 : ℚ) ≤ (1 + u) ^ (2 * n + N + 1) := one_le_pow₀ (by linarith)
  have hYe : (1 + u) ^ N * (N * ((1 + u) ^ (2 * n + 1) * M)) = (1 + u) ^ (2 * n + N + 1) * (N * M) := by
    rw [show 2 * n + N + 1 = N + (2 * n + 1) by omega, pow_add]; ring
  have hR : rangeNeeded u η τ N n M X
      = 2 * (1 + η) * ((1 + u) ^ 3 * ((1 + u) ^ (2 * n + N + 1) * (N * M + X))) + τ := by
    unfold rangeNeeded
    rw [show 2 * n + N + 4 = 3 + (2 * n + N + 1) by omega, pow_add]
    ring
  have hsm : (1 + u) ^ (2 * n) * M ≤ (1 + u) ^ (2 * n + N + 1) * (N * M) :=
    mul_le_mul (Rnd.pow_mono hu (by omega)) hNM hM (pow_nonneg ha _)
  have hYZ : (1 + u) ^ (2 * n + N + 1) * (N * M) + X ≤ (1 + u) ^ (2 * n + N + 1) * (N * M + X) := by
    have := mul_le_mul_of_nonneg_right hP1 hX
    rw [mul_add]
    linarith
  have hY0 : 0 ≤ (1 + u) ^ (2 * n + N + 1) * (N * M) := mul_nonneg (pow_nonneg ha _) (by linarith)
  rw [hR] at hl ⊢
  generalize hZ : (1 + u) ^ (2 * n + N + 1) * (N * M + X) = Z at *
  generalize hY : (1 + u) ^ (2 * n + N + 1) * (N * M) = Y at *
  have hZ0 : 0 ≤ Z := by linarith
  have p2 : (1 : ℚ) ≤ (1 + u) := by linarith
  have c1 : Z ≤ (1 + u) * Z := by nlinarith
  have c2 : (1 + u) * Z ≤ (1 + u) ^ 2 * Z := by
    have := mul_le_mul_of_nonneg_right p2 (hZ0.trans c1)
    linarith [show (1 + u) ^ 2 * Z = (1 + u) * ((1 + u) * Z) by ring]
  have c3 : (1 + u) ^ 2 * Z ≤ (1 + u) ^ 3 * Z := by
    have := mul_le_mul_of_nonneg_right p2 ((hZ0.trans c1).trans c2)
    linarith [show (1 + u) ^ 3 * Z = (1 + u) * ((1 + u) ^ 2 * Z) by ring]
  have c4 : 0 ≤ η * ((1 + u) ^ 3 * Z) := mul_nonneg hη (by linarith)
  have hlim : 2 * ((1 + u) ^ 3 * Z) ≤ limit := by linarith
  have c5 : (1 + u) * (Y + X) ≤ (1 + u) * Z := mul_le_mul_of_nonneg_left hYZ ha
  obtain ⟨a1, a2⟩ := Rnd.averageOpen_size hA hu hM rfl v S.subs _ rs st 0 hok hr.subs h1
    (fun x q hq => by
      obtain rfl : (0 : ℚ) = q := WithTop.coe_inj.1 hq
      exact ⟨hA.zero, by simp⟩)
    (fun q hq => by
      obtain rfl : (0 : ℚ) = q := WithTop.coe_inj.1 hq
      exact ⟨hA.zero, by simp⟩)
    (by rw [zero_add, hNN, hYe]; linarith) (by linarith)
  rw [zero_add, hNN, hYe] at a1 a2
  have a3 : ∀ x, Rnd.Sized F ((1 + u) * (Y + X)) (A.add (st.total x) (S.extra v x)) :=
    fun x => (a1 x).add hA hu (fun q hq => hr.extra x q hq) (by linarith)
  have a4 : Rnd.Sized F ((1 + u) * (Y + X))
      (arrayMin S.numValues fun x => A.add (st.total x) (S.extra v x)) := by
    rcases arrayMin_attained S.numValues (fun x => A.add (st.total x) (S.extra v x)) with h | ⟨x, -, h⟩
    · rw [h]; exact fun q hq => absurd hq.symm WithTop.coe_ne_top
    · rw [h]; exact a3 x
  rw [h9]
  refine (a4.add hA hu a2 (by linarith)).weaken ?_
  have c6 : (1 + u) * ((1 + u) * (Y + X) + Y) ≤ (1 + u) * ((1 + u) * Z + (1 + u) * Z) :=
    mul_le_mul_of_nonneg_left (by linarith) ha
  have c7 : (1 + u) * ((1 + u) * Z + (1 + u) * Z) = 2 * ((1 + u) ^ 2 * Z) := by ring
  linarith

/-- A run does not fail, and the bounds it reports are in range, extra costs included. -/
theorem run_sized (hA : Accurate A.toMachine F u limit) (hu : 0 ≤ u) (hη : 0 ≤ η) (hτ : 0 ≤ τ)
    {n : Nat} {M X : ℚ} (hM : 0 ≤ M) (hX : 0 ≤ X) :
    ∀ (vs : List Nat) (S : System), (∀ s ∈ S.subs, Rnd.RSubOK A.toMachine S.numKeys S.numValues s) →
    (∀ s ∈ S.subs, 0 < s.memo.dag.numKeys) → 1 ≤ S.subs.length → RunInRange A F n M X vs S →
    rangeNeeded u η τ S.subs.length n M X ≤ limit →
    ∃ S' bs, averages A vs S = some (S', bs)
      ∧ ∀ b ∈ bs, Rnd.Sized F (rangeNeeded u η τ S.subs.length n M X) b := by
  intro vs
  induction vs with
  | nil => intro S _ _ _ _ _; exact ⟨S, [], rfl, by simp⟩
  | cons v vs ih =>
    intro S hok hk hN hr hl
    obtain ⟨⟨rs, st⟩, h1⟩ := Rnd.averageOpen_some (A := A) v S.subs ⟨fun _ => 0, 0, 0⟩
      (fun s hs => ⟨hok s hs, hk s hs⟩)
    obtain ⟨S1, b, hav⟩ : ∃ S1 b, Rounded.average A S v = some (S1, b) := by
      unfold Rounded.average
      rw [h1]
      exact ⟨_, _, rfl⟩
    have hsz := step_sized hA hu hη hτ hM hX hok hr.1 hN hl hav
    obtain ⟨hsame, hok1⟩ := Rnd.step_same hok hav
    have hlen := hsame.subs.length_eq
    obtain ⟨S', bs, g1, g2⟩ := ih S1 hok1
      (Rnd.step_dags hok hav (P := fun d _ => 0 < d.numKeys) hk) (by omega) (hr.2 _ hav)
      (by rw [← hlen]; exact hl)
    refine ⟨S', b :: bs, ?_, ?_⟩
    · unfold averages
      rw [hav, Option.bind_some, g1]
      rfl
    · intro b' hb'
      rcases List.mem_cons.1 hb' with rfl | hb'
      · exact hsz
      · rw [hlen]
        exact g2 b' hb'

variable {T E S I M : Type} [DecidableEq S] {invalid : Cost}
  {make : T → Except E (Dag S DecisionKey DecisionValue I)} {proto : List (Node M)}
  {l : List (T × ℚ)} {w : ℚ} {B B0 : BuiltSystem S I}
  {q X : ℚ} {cs : List (DecisionKey × DecisionValue)} {D' : DualSystem DecisionKey DecisionValue}

/-- A constrained system runs without failure, and every reported bound is a number in range. -/
theorem rcons_values (hA : AccurateArith A F u τ limit) (hS : AccurateShares A F u τ limit) (hF0 : F 0)
    (hu : 0 ≤ u) (hτ : 0 ≤ τ) (hη : 0 ≤ η) (h : Rnd.RBuilt A invalid make proto l w B B0)
    {n : Nat} {c : ℚ} (hc : 0 ≤ c) (hcl : c ≤ limit) (hX : 0 ≤ X)
    (hb : ∀ p ∈ B.utilities, PartBounded F p n c) (hb' : PartBounded F B.constraint n c)
    (hq : F q ∧ |q| ≤ X) (hk : (cs.map Prod.fst).Nodup) (hks : ∀ c ∈ cs, c.1 ∈ seqKeys 0 proto)
    (hD : Rounded.constrain A (q : Cost) cs B.system = some D')
    (hs : ∀ v < B.system.data.numKeys, FairShares A B.system.data v η) {T : Nat}
    (hl : rangeNeeded u η τ (dagCount B) n (constrainedSize u η τ (dagCount B) n c X T) X ≤ limit)
    (hne : seqKeys 0 proto ≠ []) :
    D'.data.numKeys = B.system.data.numKeys
    ∧ RunsWell A F (rangeNeeded u η τ (dagCount B) n (constrainedSize u η τ (dagCount B) n c X T) X) T
      D'.data := by
  have hgood := fun d hd => (h.good d hd).1
  have hp := rcons_prepared hq hk hD
  obtain ⟨p, us, g1, -⟩ := prepared_ustart h.system hgood h.weights hF0 hX hp
  have hDk : D'.data.numKeys = B.system.data.numKeys := g1.keys
  refine ⟨hDk, fun vs hvs hT => ?_⟩
  rw [hDk] at hvs
  obtain ⟨-, -, -, -, -, -, d7⟩ := makeSystem_ok h.system
  obtain ⟨hM, hparts, r1, -⟩ := rcons_range hA hS hF0 hu hτ hη h hc hcl hX hb hb' hq hk hD
    (fun v hv => hs v (hvs v hv)) hT hl
  obtain ⟨-, -, e1, e2⟩ := rcons_range hA hS hF0 hu hτ hη h hc hcl hX hb hb' hq hk hD
    (vs := []) (by simp) (Nat.zero_le T) hl
  have hlen : D'.data.subs.length = dagCount B := by
    rw [← g1.subs.length_eq, d7, ← rbuilt_count h]; simp
  have hpos : ∀ s ∈ D'.data.subs, 0 < s.memo.dag.numKeys := by
    intro s hsm
    obtain ⟨s0, hs0, e1, -⟩ := Rnd.forall₂_mem_right g1.subs s hsm
    rw [e1]
    rw [d7] at hs0
    obtain ⟨⟨d, i⟩, hx, rfl⟩ := List.mem_map.1 hs0
    have hmem := List.fst_mem_of_mem_zipIdx hx
    change 0 < d.1.numKeys
    rw [← (hgood d hmem).keys_length, (h.good d hmem).2.1]
    exact List.length_pos_iff.2 hne
  obtain ⟨D, bs, g3, g4⟩ := run_sized hA.sums hu hη hτ hM hX vs D'.data g1.ok hpos
    (by rw [hlen]; unfold dagCount; omega) r1 (by rw [hlen]; exact hl)
  obtain ⟨-, α, -, x, -, -, w1, w2, -⟩ := rcons_greedy hA hS hF0 hu hτ hη h hM hM hX hparts hq hk hks hD
    (by simp) (by simp) e1 hl rfl (e2 _ _ rfl) hne .forward
  refine ⟨D, bs, g3, fun b hbm => ?_⟩
  have hfin := rcons_bound hA hS hF0 hu hτ hη h hM hX hparts hq hk hks hD hvs
    (fun v hv => hs v (hvs v hv)) r1 hl g3 w1 w2 b hbm
  obtain ⟨q, hq⟩ := WithTop.ne_top_iff_exists.1 (lt_of_le_of_lt hfin (WithTop.coe_lt_top _)).ne
  have := g4 b hbm q hq.symm
  rw [hlen] at this
  exact ⟨q, hq.symm, this⟩

end

/-! ## `float64` -/

section
variable {M : Type} [DecidableEq M] {total : List ℚ → ℚ} {invalid : Cost} {prm : Params}
  {proto target : List (Node M)} {B : BuiltSystem EditState (Option EditInfo)}

theorem baselineSize_nonneg {S I : Type} (B : BuiltSystem S I) {n : Nat} {c : ℚ} (hc : 0 ≤ c) (T : Nat) :
    0 ≤ baselineSize B n c T := by
  have hu : (0 : ℚ) ≤ 1 / 2 ^ 53 := by norm_num
  have hτ := tiny_nonneg
  have hP : (0 : ℚ) ≤ (1 + 1 / 2 ^ 53) * (n * c) + n * 2 ^ (-1075 : ℤ)
      + n * ((1 + 1 / 2 ^ 53) * 1000000 + 2 ^ (-1075 : ℤ)) := by
    generalize (2 : ℚ) ^ (-1075 : ℤ) = y at hτ ⊢
    positivity
  exact hP.trans (Rnd.growSize_base hu (floatShares_nonneg B) hτ (by norm_num) hP T)

theorem baselineRange_nonneg {S I : Type} (B : BuiltSystem S I) {n : Nat} {c : ℚ} (hc : 0 ≤ c) (T : Nat) :
    0 ≤ baselineRange B n c T := by
  have hM := baselineSize_nonneg B (n := n) hc T
  have hτ := tiny_nonneg
  have hη := floatShares_nonneg B
  unfold baselineRange rangeNeeded
  have hp : (0 : ℚ) ≤ (1 + 1 / 2 ^ 53) ^ (2 * n + dagCount B + 4) := pow_nonneg (by norm_num) _
  generalize ((1 : ℚ) + 1 / 2 ^ 53) ^ (2 * n + dagCount B + 4) = x at *
  generalize (2 : ℚ) ^ (-1075 : ℤ) = y at *
  generalize baselineSize B n c T = m at *
  positivity

/-- C87: with a tolerance of at least four times the range the solver ends within two rounds of the main
loop, so that decisions are returned. -/
theorem C87_ends (hsum : SoundSum total)
    (hB : Rounded.buildEditSystem float64Arith total invalid prm proto [target] none = .ok B)
    (ht : DecisionFree target) {n : Nat} {c : ℚ} (hc : 0 ≤ c) (hcl : c ≤ 2 ^ 1023)
    (hb : ∀ p ∈ B.utilities, PartBounded IsFloat64 p n c)
    (hb' : PartBounded IsFloat64 B.constraint n c) (hk : seqKeys 0 proto ≠ [])
    {low : List Nat} (hn : low.Nodup)
    (hl : ∀ i ∈ low, ∃ x ∈ placed proto, x.idx = i ∧ x.isToken = true)
    {T : Nat} (hT : 4 * ((seqKeys 0 proto).length - 1) ≤ T)
    (hr : 2 * baselineRange B n c T ≤ 2 ^ 1023) {tol : ℚ} (htol : 4 * baselineRange B n c T ≤ tol) :
    ∃ α : DecisionKey → DecisionValue,
      Rounded.lowAssignment float64Arith B.system tol (fun _ => false) 2 low
        = .ok ((seqKeys 0 proto).map fun k => (k, α k)) ∧ WellFormedRegions α proto := by
  have hr0 : 0 ≤ baselineRange B n c T := baselineRange_nonneg B hc T
  have hr1 : baselineRange B n c T ≤ 2 ^ 1023 := by
    generalize (2 : ℚ) ^ 1023 = L at *
    linarith
  rcases C87_assignment hsum hB ht hc hcl hb hb' hk hn hl tol (fun _ => false) (fuel := 2) hT hr1 with
    hrun | ⟨D, st, vec, α, C, x, -, -, -, h4, h5, -⟩
  · exfalso
    have hmf := C72_factors hsum (single_float (target := target))
    obtain ⟨B0, h⟩ := edit_rbuilt hB (fun t htm => by rw [List.mem_singleton.1 htm]; exact ht) hmf
    have hK := (rbuilt_sizes h).2
    unfold Rounded.lowAssignment at hrun
    rw [lowConstraints hn] at hrun
    split at hrun
    · cases hrun
    · rename_i D hD
      have hkeys : ∀ c ∈ low.map (fun i => ((⟨i, .inRegion⟩ : DecisionKey), DecisionValue.yes)),
          c.1 ∈ seqKeys 0 proto := by
        intro c hc
        obtain ⟨i, hi, rfl⟩ := List.mem_map.1 hc
        obtain ⟨x, hx, rfl, hxt⟩ := hl i hi
        refine placed_key_mem hx ?_
        unfold Placed.isToken at hxt
        unfold Placed.key
        split at hxt
        · rename_i t mt hnode
          rw [hnode]
        · cases hxt
      have hnd : ((low.map fun i => ((⟨i, .inRegion⟩ : DecisionKey), DecisionValue.yes)).map
          Prod.fst).Nodup := by
        rw [List.map_map]
        refine hn.map_on ?_
        intro i _ j _ hij
        simpa using hij
      obtain ⟨k1, k2⟩ := rcons_values C68_float64 C85_float64 C67_float64.zero (by norm_num) tiny_nonneg
        (floatShares_nonneg B) h hc hcl (by norm_num : (0 : ℚ) ≤ 1000000) hb hb'
        ⟨float_million, by norm_num⟩ hnd hkeys hD
        (fun v hv => float_shares hsum (single_float (target := target)) h hv) hr1 hk
      obtain ⟨st, s1, -⟩ := solve_stops C68_float64 (by norm_num) hr htol k2 (by rw [k1, hK]; exact hT)
      rw [s1] at hrun
      dsimp only at hrun
      split at hrun
      · cases hrun
      · split at hrun <;> cases hrun
  · exact ⟨α, h4, h5⟩

/-- C87: the numbers added up along a path are bounded explicitly. -/
theorem C87_size {S I : Type} {B : BuiltSystem S I} {n : Nat} {c : ℚ}
    (h : dagCount B + 2 * n + 4 ≤ 2 ^ 52) (hc : 0 ≤ c) (T : Nat) :
    baselineSize B n c T ≤ baselineSizeBound (dagCount B) n c T
    ∧ baselineRange B n c T
      ≤ 8 * (dagCount B * baselineSizeBound (dagCount B) n c T + 1000000) + 1 := by
  have hn : (0 : ℚ) ≤ n := Nat.cast_nonneg _
  have hN : (0 : ℚ) ≤ dagCount B := Nat.cast_nonneg _
  have hnc : (0 : ℚ) ≤ n * c := mul_nonneg hn hc
  have hNn : (0 : ℚ) ≤ dagCount B * n := mul_nonneg hN hn
  have range : ∀ M : ℚ, 0 ≤ M →
      rangeNeeded (1 / 2 ^ 53) (floatShares B) (2 ^ (-1075 : ℤ)) (dagCount B) n M 1000000
        ≤ 8 * (dagCount B * M + 1000000) + 1 := by
    intro M hM
    unfold rangeNeeded
    have h1 := floatShares_le h
    have h0 := floatShares_nonneg B
    have h2 : ((1 : ℚ) + 1 / 2 ^ 53) ^ (2 * n + dagCount B + 4) ≤ 2 := pow_le_two (by omega)
    have h2' : (0 : ℚ) ≤ (1 + 1 / 2 ^ 53) ^ (2 * n + dagCount B + 4) := pow_nonneg (by norm_num) _
    have h3 : (0 : ℚ) ≤ dagCount B * M + 1000000 := add_nonneg (mul_nonneg hN hM) (by norm_num)
    have h4 := tiny_le
    generalize ((1 : ℚ) + 1 / 2 ^ 53) ^ (2 * n + dagCount B + 4) = x at *
    generalize (2 : ℚ) ^ (-1075 : ℤ) = y at *
    have h5 : 2 * (1 + floatShares B) * x ≤ 2 * (1 + 1) * 2 :=
      mul_le_mul (by linarith) h2 h2' (by norm_num)
    have h6 := mul_le_mul_of_nonneg_right h5 h3
    linarith
  have hC : ((1 : ℚ) + 1 / 2 ^ 53) * (n * c) + n * 2 ^ (-1075 : ℤ)
      + n * ((1 + 1 / 2 ^ 53) * 1000000 + 2 ^ (-1075 : ℤ)) ≤ 2 * n * c + 2000002 * n := by
    have a := mul_le_mul_of_nonneg_left tiny_le hn
    have b := mul_le_mul_of_nonneg_right (show (1 : ℚ) + 1 / 2 ^ 53 ≤ 2 by norm_num) hnc
    have d := mul_le_mul_of_nonneg_left (show ((1 : ℚ) + 1 / 2 ^ 53) * 1000000 ≤ 2000000 by norm_num) hn
    generalize (2 : ℚ) ^ (-1075 : ℤ) = y at *
    linarith
  have hD : (0 : ℚ) ≤ 2 * n * c + 18000004 * n := by linarith
  have hK : (1 : ℚ) ≤ 16 * dagCount B * n + 1 := by linarith
  have size : ∀ T, baselineSize B n c T ≤ baselineSizeBound (dagCount B) n c T := by
    intro T
    induction T with
    | zero =>
      unfold baselineSizeBound
      rw [pow_zero, one_mul]
      refine le_trans hC ?_
      linarith
    | succ T ih =>
      have hS := baselineSize_nonneg B (n := n) hc T
      have hr := range _ hS
      have hp : (1 : ℚ) ≤ (16 * dagCount B * n + 1) ^ T := one_le_pow₀ hK
      have e : baselineSize B n c (T + 1) = ((1 : ℚ) + 1 / 2 ^ 53) * (n * c) + n * 2 ^ (-1075 : ℤ)
          + n * ((1 + 1 / 2 ^ 53) * 1000000 + 2 ^ (-1075 : ℤ))
          + n * ((1 + 1 / 2 ^ 53) * rangeNeeded (1 / 2 ^ 53) (floatShares B) (2 ^ (-1075 : ℤ))
            (dagCount B) n (baselineSize B n c T) 1000000) := rfl
      rw [e]
      have hr0 := baselineRange_nonneg B (n := n) hc T
      unfold baselineRange at hr0
      generalize rangeNeeded (1 / 2 ^ 53) (floatShares B) (2 ^ (-1075 : ℤ)) (dagCount B) n
          (baselineSize B n c T) 1000000 = R at *
      have h1 : ((1 : ℚ) + 1 / 2 ^ 53) * R ≤ 2 * R :=
        mul_le_mul_of_nonneg_right (by norm_num) hr0
      have h2 : (n : ℚ) * ((1 + 1 / 2 ^ 53) * R)
          ≤ n * (2 * (8 * (dagCount B * baselineSize B n c T + 1000000) + 1)) :=
        mul_le_mul_of_nonneg_left (by linarith) hn
      have h3 : 16 * dagCount B * n * baselineSize B n c T
          ≤ 16 * dagCount B * n * baselineSizeBound (dagCount B) n c T :=
        mul_le_mul_of_nonneg_left ih (by linarith)
      have h4 : 2 * n * c + 18000004 * n ≤ baselineSizeBound (dagCount B) n c T := by
        unfold baselineSizeBound
        have := mul_le_mul_of_nonneg_right hp hD
        linarith
      have h5 : baselineSizeBound (dagCount B) n c (T + 1)
          = 16 * dagCount B * n * baselineSizeBound (dagCount B) n c T
            + baselineSizeBound (dagCount B) n c T := by
        unfold baselineSizeBound
        ring
      rw [h5]
      linarith
  refine ⟨size T, ?_⟩
  have h2 := mul_le_mul_of_nonneg_left (size T) hN
  have h1 := range _ (baselineSize_nonneg B (n := n) hc T)
  unfold baselineRange
  linarith

end

/-! ## A concrete case -/

theorem low_bound : 2 * (8 * ((2 : ℕ) * baselineSizeBound 2 4959 5 12 + 1000000) + 1) ≤ (2 : ℚ) ^ 1023 := by
  refine le_trans ?_ (pow_le_pow_right₀ (by norm_num : (1 : ℚ) ≤ 2) (by norm_num : 250 ≤ 1023))
  unfold baselineSizeBound
  norm_num

/-- The hypotheses of `C87_assignment` and `C87_ends` are met by a prototype with a region around its
first token, a target with the same tokens, and the first token being uncertain. -/
example : ∃ B, Rounded.buildEditSystem float64Arith (leftSum float64Arith) 0 sysParams sysProto
      [[.tok ['a'] "n", .tok ['b'] "n"]] none = .ok B
    ∧ baselineRange B 4959 5 12 ≤ 2 ^ 1023
    ∧ ∃ tol D st vec α C x, Rounded.constrain float64Arith ((1000000 : ℚ) : Cost)
        [(⟨1, .inRegion⟩, .yes)] B.system = some D
      ∧ Rounded.solve float64Arith D.data tol (fun _ => false) 2 = .ok st
      ∧ Rounded.greedy float64Arith st.system .forward = some (vec, some ((C : ℚ) : Cost))
      ∧ Rounded.lowAssignment float64Arith B.system tol (fun _ => false) 2 [1]
        = .ok ((seqKeys 0 sysProto).map fun k => (k, α k))
      ∧ WellFormedRegions α sysProto
      ∧ PenalisedCost sysParams sysProto [.tok ['a'] "n", .tok ['b'] "n"] [1] α x
      ∧ |C - x| ≤ baselineCostError B 4959 5 12 := by
  set target : List (Node String) := [.tok ['a'] "n", .tok ['b'] "n"] with htarget
  have htm : ∀ t ∈ [target], t ∈ sysTargets := by
    intro t ht
    rw [List.mem_singleton.1 ht]
    simp [sysTargets, htarget]
  have hfree : ∀ t ∈ [target], DecisionFree t := fun t ht => sysTargets_free t (htm t ht)
  obtain ⟨B, hB⟩ := C72_builds float64Arith (leftSum float64Arith) 0 sysParams sysProto [target] none
    hfree (by simp)
  have hmf := C72_factors C72_left_sum (single_float (target := target))
  have hk : seqKeys 0 sysProto ≠ [] := by rw [sysProto_keys]; simp
  have hkl : (seqKeys 0 sysProto).length = 4 := by rw [sysProto_keys]; rfl
  have hc : (0 : ℚ) ≤ 5 := by norm_num
  have hcl : (5 : ℚ) ≤ 2 ^ 1023 := le_trans (by norm_num : (5 : ℚ) ≤ 2 ^ 3)
    (pow_le_pow_right₀ (by norm_num) (by norm_num))
  obtain ⟨B0, h⟩ := edit_rbuilt hB hfree hmf
  have z1 : dagCount B = 2 := by
    rw [(rbuilt_sizes h).1]
    change (List.zip [target] (machineWeights float64Arith 1 none)).length + 1 = 2
    rw [float_one]
    rfl
  obtain ⟨p1, p2⟩ := C72_parts hB hfree hmf (F := IsFloat64) (n := 4959) (c0 := 5) (c := 5)
    C67_float64.zero hc (fun t ht => sys_steps t (htm t ht))
    (by
      change ∀ f ∈ machineWeights float64Arith 1 none, _
      rw [float_one]
      intro f hf
      rw [List.mem_singleton.1 hf]
      norm_num)
    (by
      intro t ht
      rw [sysTargets_size t (htm t ht), sysProto_size, hkl]
      decide)
    (by
      rw [sysProto_size, hkl]
      decide)
  have hr := (C87_size (B := B) (n := 4959) (c := 5) (by rw [z1]; norm_num) hc 12).2
  rw [z1] at hr
  have hbd := low_bound
  have hr0 := baselineRange_nonneg B (n := 4959) hc 12
  have hr2 : 2 * baselineRange B 4959 5 12 ≤ 2 ^ 1023 := by
    generalize baselineSizeBound 2 4959 5 12 = Z at *
    generalize (2 : ℚ) ^ 1023 = L at *
    linarith
  have hr1 : baselineRange B 4959 5 12 ≤ 2 ^ 1023 := by
    generalize (2 : ℚ) ^ 1023 = L at *
    linarith
  have hlow : ∀ i ∈ [1], ∃ x ∈ placed sysProto, x.idx = i ∧ x.isToken = true := by
    intro i hi
    rw [List.mem_singleton.1 hi]
    refine ⟨⟨1, [1], .tok ['a'] "n"⟩, ?_, rfl, rfl⟩
    simp [placed, sysProto, walkWithPaths, walkFrom, walkNode]
  obtain ⟨α', e1, -⟩ := C87_ends C72_left_sum hB (hfree target (by simp)) hc hcl p1 p2 hk (low := [1])
    (by simp) hlow (T := 12) (by rw [hkl]) hr2 (le_refl _)
  refine ⟨B, hB, hr1, 4 * baselineRange B 4959 5 12, ?_⟩
  rcases C87_assignment C72_left_sum hB (hfree target (by simp)) hc hcl p1 p2 hk (low := [1])
    (by simp) hlow (4 * baselineRange B 4959 5 12) (fun _ => false) (fuel := 2) (T := 12)
    (by rw [hkl]) hr1 with hrun | ⟨D, st, vec, α, C, x, g1, g2, g3, g4, g5, g6, g7, -⟩
  · rw [e1] at hrun
    cases hrun
  · exact ⟨D, st, vec, α, C, x, g1, g2, g3, g4, g5, g6, g7⟩

end RUSure.Props
