import Verif.Lemmas.RoundedDualRun

/-! # Averaging in machine arithmetic: the paths behind the reported bound -/

namespace RUSure.Lemmas.Rnd
open RUSure RUSure.Spec RUSure.Lemmas RUSure.Rounded

section
variable {A : Machine} {F : ℚ → Prop} {u limit : ℚ}

/-- The path that a machine minimum is the cost of. -/
theorem middle_attained (hA : Accurate A F u limit) (hu : 0 ≤ u) {d : PackedDag} {pen : Penalties}
    {n : Nat} {M : ℚ} (hr : InRange F d pen n M) (hl : 0 ≤ M → (1 + u) ^ (2 * n) * M ≤ limit)
    {p q : List PackedEdge} {e : PackedEdge} (hp : Complete d (p ++ e :: q))
    (hfin : middleCost A pen p e q < ⊤) :
    ∃ r z : ℚ, middleCost A pen p e q = r ∧ F r ∧ pathCost pen (p ++ e :: q) = z
      ∧ Near u (2 * n + 1) r z M := by
  have hmem : Members F pen (p ++ e :: q) := fun e' he' => hr.member e' (complete_mem hp e' he')
  obtain ⟨t, ht⟩ := size_of_middle hmem hfin
  have htM := hr.total _ hp t ht
  have h0 := size_nonneg ht
  have hP := one_le_pow_u hu (2 * n)
  obtain ⟨z, r, g1, g2, g3, g4⟩ := middle_near hA hu ht (hr.length _ hp)
    ((mul_le_mul_of_nonneg_left htM (by linarith)).trans (hl (h0.trans htM)))
  exact ⟨r, z, g2, g3, g1, g4.weaken hu (le_refl _) htM⟩

theorem marg_attained (hA : Accurate A F u limit) (hu : 0 ≤ u) {d : PackedDag} {pen : Penalties}
    {n : Nat} {M : ℚ} (hr : InRange F d pen n M) (hl : 0 ≤ M → (1 + u) ^ (2 * n) * M ≤ limit)
    {k x : Nat} {c : Cost} (hc : MarginalOf A d pen k x c) (hfin : c < ⊤) :
    ∃ p, Complete d p ∧ (k, x) ∈ assignments p ∧ ∃ r z : ℚ, c = r ∧ F r ∧ pathCost pen p = z
      ∧ Near u (2 * n + 1) r z M := by
  rcases hc.attained with rfl | ⟨⟨p1, e, p2⟩, ⟨hp, hreq⟩, rfl⟩
  · exact absurd hfin (lt_irrefl _)
  · obtain ⟨r, z, h1, h2, h3, h4⟩ := middle_attained hA hu hr hl hp hfin
    exact ⟨_, hp, List.mem_filterMap.2 ⟨e, by simp, hreq⟩, r, z, h1, h2, h3, h4⟩

theorem skip_attained (hA : Accurate A F u limit) (hu : 0 ≤ u) {d : PackedDag} {pen : Penalties}
    {n : Nat} {M : ℚ} (hr : InRange F d pen n M) (hl : 0 ≤ M → (1 + u) ^ (2 * n) * M ≤ limit)
    {c : Cost} (hc : StrategyCost A d pen c .fromMiddle) (hfin : c < ⊤) :
    ∃ p, Complete d p ∧ ∃ r z : ℚ, c = r ∧ F r ∧ pathCost pen p = z
      ∧ Near u (2 * n + 1) r z M := by
  obtain ⟨v, -, hc⟩ := hc
  rcases hc.attained with rfl | ⟨⟨p1, e, p2⟩, ⟨hp, -⟩, rfl⟩
  · exact absurd hfin (lt_irrefl _)
  · obtain ⟨r, z, h1, h2, h3, h4⟩ := middle_attained hA hu hr hl hp hfin
    exact ⟨_, hp, r, z, h1, h2, h3, h4⟩

end

variable {A : Arith} {F : ℚ → Prop} {u limit : ℚ} {N V : Nat}

/-- Infinite accumulators stay infinite. -/
theorem averageOpen_top (v x : Nat) : ∀ (ss : List Sub) (st : AverageState)
    (rs : List (Sub × Option (Nat × (Nat → Cost)))) (st' : AverageState),
    Rounded.averageOpen A v ss st = some (rs, st') →
    (st.total x = ⊤ → st'.total x = ⊤) ∧ (st.skipped = ⊤ → st'.skipped = ⊤) := by
  intro ss
  induction ss with
  | nil =>
    intro st rs st' h
    simp only [Rounded.averageOpen, Option.some.injEq, Prod.mk.injEq] at h
    obtain ⟨rfl, rfl⟩ := h
    exact ⟨id, id⟩
  | cons s ss ih =>
    intro st rs st' h
    unfold Rounded.averageOpen at h
    cases hk : s.index v with
    | none =>
      simp only [hk] at h
      split at h
      · cases h
      · split at h
        · cases h
        · rename_i hl
          simp only [Option.some.injEq, Prod.mk.injEq] at h
          obtain ⟨rfl, rfl⟩ := h
          obtain ⟨h1, h2⟩ := ih _ _ _ hl
          exact ⟨h1, fun ht => h2 (by simp only [ht, A.top_left])⟩
    | some k =>
      simp only [hk] at h
      split at h
      · cases h
      · split at h
        · cases h
        · rename_i hl
          simp only [Option.some.injEq, Prod.mk.injEq] at h
          obtain ⟨rfl, rfl⟩ := h
          obtain ⟨h1, h2⟩ := ih _ _ _ hl
          exact ⟨fun ht => h1 (by simp only [ht, A.top_left]), h2⟩

/-- Finite accumulators of the first loop are the costs of paths. -/
theorem averageOpen_attained (hA : Accurate A.toMachine F u limit) (hu : 0 ≤ u) {n : Nat} {M : ℚ}
    (v x : Nat) : ∀ (ss : List Sub) (st : AverageState)
    (rs : List (Sub × Option (Nat × (Nat → Cost)))) (st' : AverageState) (k : Nat)
    (f X S g Y T : ℚ), (∀ s ∈ ss, RSubOK A.toMachine N V s) →
    (∀ s ∈ ss, InRange F s.memo.dag (Sub.without s v) n M) →
    Rounded.averageOpen A v ss st = some (rs, st') →
    st.total x = f → F f → Near u k f X S → st.skipped = g → F g → Near u k g Y T → 2 * n + 1 ≤ k →
    (1 + u) ^ (k + ss.length) * (S + T + ss.length * M) ≤ limit →
    st'.total x < ⊤ → st'.skipped < ⊤ →
    ∃ (paths : List (List PackedEdge)) (f' X' S' g' Y' T' : ℚ),
      List.Forall₂ (Ready A.toMachine F N V n M v x) ss paths
      ∧ st'.total x = f' ∧ F f' ∧ Near u (k + ss.length) f' X' S'
      ∧ st'.skipped = g' ∧ F g' ∧ Near u (k + ss.length) g' Y' T'
      ∧ S' + T' = S + T + ss.length * M
      ∧ ((X' + Y' : ℚ) : Cost) = ((X + Y : ℚ) : Cost)
        + (List.zipWith (fun s p => pathCost (Sub.without s v) p) ss paths).sum := by
  intro ss
  induction ss with
  | nil =>
    intro st rs st' k f X S g Y T _ _ h hf f0 fn hg g0 gn _ _ _ _
    simp only [Rounded.averageOpen, Option.some.injEq, Prod.mk.injEq] at h
    obtain ⟨rfl, rfl⟩ := h
    exact ⟨[], f, X, S, g, Y, T, .nil, hf, f0, fn, hg, g0, gn, by simp, by simp⟩
  | cons s ss ih =>
    intro st rs st' k f X S g Y T hok hr h hf f0 fn hg g0 gn hnk hl hft hfs
    have hs := hok s (by simp)
    have hrs := hr s (by simp)
    have hok' := fun s' hs' => hok s' (List.mem_cons_of_mem _ hs')
    have hr' := fun s' hs' => hr s' (List.mem_cons_of_mem _ hs')
    have hlen : ((s :: ss).length : ℚ) = ss.length + 1 := by simp
    have hk1 : k + (s :: ss).length = k + 1 + ss.length := by simp; omega
    rw [hlen, hk1] at hl
    have hS := fn.size
    have hT := gn.size
    have hPk := one_le_pow_u hu k
    have q1 := pow_mono hu (show k ≤ k + 1 + ss.length by omega)
    have q2 := pow_mono hu (show 2 * n ≤ k + 1 + ss.length by omega)
    have hl1 : 0 ≤ M → (1 + u) ^ (2 * n) * M ≤ limit := by
      intro hM
      have hsM : 0 ≤ (ss.length : ℚ) * M := mul_nonneg (by positivity) hM
      exact le_trans (mul_le_mul q2 (by linarith) hM (by linarith)) hl
    have hlk : 0 ≤ M → ∀ z, 0 ≤ z → z ≤ S + T + M → (1 + u) ^ k * z ≤ limit := by
      intro hM z z0 hz
      have hsM : 0 ≤ (ss.length : ℚ) * M := mul_nonneg (by positivity) hM
      exact le_trans (mul_le_mul q1 (by linarith) z0 (by linarith)) hl
    have hl' : ∀ S' T', S' + T' = S + T + M →
        (1 + u) ^ (k + 1 + ss.length) * (S' + T' + ss.length * M) ≤ limit := by
      intro S' T' he
      refine le_trans (le_of_eq ?_) hl
      rw [he]; ring
    unfold Rounded.averageOpen at h
    cases hk : s.index v with
    | none =>
      simp only [hk] at h
      split at h
      · cases h
      · rename_i m c hc
        split at h
        · cases h
        · rename_i rs1 st1 hl2
          simp only [Option.some.injEq, Prod.mk.injEq] at h
          obtain ⟨rfl, rfl⟩ := h
          obtain ⟨-, -, h3⟩ := rsub_skip hs hc
          have hrange := hrs
          rw [without_none hk] at hrange
          have hcf : c < ⊤ := by
            by_contra hn
            rw [not_lt_top_iff] at hn
            have := (averageOpen_top v x _ _ _ _ hl2).2 (by simp only [hn, A.top_right])
            rw [this] at hfs
            exact absurd hfs (lt_irrefl _)
          obtain ⟨p, hp, r, e, rfl, r2, r3, r4⟩ := skip_attained hA hu hrange hl1 h3 hcf
          have hM := r4.size
          obtain ⟨g', k0, k1, k2⟩ := Near.add hA hu g0 r2 gn (r4.weaken hu hnk (le_refl _))
            (hlk hM _ (by linarith) (by linarith))
          obtain ⟨paths, f'', X', S', g'', Y', T', a0, a1, a2, a3, a4, a5, a6, a7, a8⟩ :=
            ih _ _ _ (k + 1) f X S g' (Y + e) (T + M) hok' hr' hl2 hf f0
              (fn.weaken hu (by omega) (le_refl _)) (by
                rw [← k1]; simp only [hg]) k0 k2 (by omega) (hl' _ _ (by ring)) hft hfs
          rw [hk1]
          refine ⟨p :: paths, f'', X', S', g'', Y', T', .cons ⟨hs, hrs, hp, ?_, ?_⟩ a0, a1, a2, a3, a4,
            a5, a6, ?_, ?_⟩
          · intro k' hk'
            rw [hk] at hk'; cases hk'
          · rw [without_none hk, r3]; exact WithTop.coe_lt_top _
          · rw [a7, hlen]; ring
          · rw [a8, List.zipWith_cons_cons, List.sum_cons, without_none hk, r3,
              ← add_assoc ((X + Y : ℚ) : Cost), ← WithTop.coe_add]
            congr 2
            ring
    | some kv =>
      simp only [hk] at h
      split at h
      · cases h
      · rename_i m mm hc
        split at h
        · cases h
        · rename_i rs1 st1 hl2
          simp only [Option.some.injEq, Prod.mk.injEq] at h
          obtain ⟨rfl, rfl⟩ := h
          obtain ⟨g1, -⟩ := rsub_set hs hk (fun _ => 0)
          obtain ⟨-, -, h3⟩ := rsub_marg g1 hc
          have h3' : MarginalOf A.toMachine s.memo.dag (Sub.without s v) kv x (mm x) := by
            have := h3 x
            simp only [setPenalties_pen, setPenalties_dag] at this
            rw [without_some hk]
            exact this
          have hcf : mm x < ⊤ := by
            by_contra hn
            rw [not_lt_top_iff] at hn
            have := (averageOpen_top v x _ _ _ _ hl2).1 (by simp only [hn, A.top_right])
            rw [this] at hft
            exact absurd hft (lt_irrefl _)
          obtain ⟨p, hp, hpx, r, e, r1, r2, r3, r4⟩ := marg_attained hA hu hrs hl1 h3' hcf
          have hM := r4.size
          obtain ⟨f', k0, k1, k2⟩ := Near.add hA hu f0 r2 fn (r4.weaken hu hnk (le_refl _))
            (hlk hM _ (by linarith) (by linarith))
          obtain ⟨paths, f'', X', S', g'', Y', T', a0, a1, a2, a3, a4, a5, a6, a7, a8⟩ :=
            ih _ _ _ (k + 1) f' (X + e) (S + M) g Y T hok' hr' hl2 (by
                rw [← k1]; simp only [hf, r1]) k0 k2 hg g0
              (gn.weaken hu (by omega) (le_refl _)) (by omega) (hl' _ _ (by ring)) hft hfs
          rw [hk1]
          refine ⟨p :: paths, f'', X', S', g'', Y', T', .cons ⟨hs, hrs, hp, ?_, ?_⟩ a0, a1, a2, a3, a4,
            a5, a6, ?_, ?_⟩
          · intro k' hk'
            rw [hk] at hk'
            obtain rfl : kv = k' := by simpa using hk'
            exact hpx
          · rw [r3]; exact WithTop.coe_lt_top _
          · rw [a7, hlen]; ring
          · rw [a8, List.zipWith_cons_cons, List.sum_cons, r3,
              ← add_assoc ((X + Y : ℚ) : Cost), ← WithTop.coe_add]
            congr 2
            ring

end RUSure.Lemmas.Rnd
