import Verif.Lemmas.RoundedDualSubs

/-! # Averaging in machine arithmetic: the loops over the subproblems -/

namespace RUSure.Lemmas.Rnd
open RUSure RUSure.Spec RUSure.Lemmas RUSure.Rounded

variable {A : Arith} {F : ℚ → Prop} {u limit : ℚ} {N V : Nat}

/-- A subproblem and a path of a joint solution when variable `v` is averaged. -/
structure Ready (A : Machine) (F : ℚ → Prop) (N V n : Nat) (M : ℚ) (v x : Nat) (s : Sub)
    (p : List PackedEdge) : Prop where
  ok : RSubOK A N V s
  range : InRange F s.memo.dag (Sub.without s v) n M
  path : Complete s.memo.dag p
  value : ∀ k, s.index v = some k → (k, x) ∈ assignments p
  finite : pathCost (Sub.without s v) p < ⊤

theorem without_none {s : Sub} {v : Nat} (h : s.index v = none) : Sub.without s v = s.memo.pen := by
  funext k
  simp [Sub.without, h]

theorem without_some {s : Sub} {v k : Nat} (h : s.index v = some k) :
    Sub.without s v = setPen s.memo.pen k (fun _ => 0) := by
  funext k'
  simp only [Sub.without, h, setPen, Option.some.injEq]
  by_cases hk : k = k'
  · simp [hk]
  · rw [if_neg hk, if_neg (Ne.symm hk)]

/-- One subproblem of the first loop. -/
structure Opened (A : Machine) (N V v : Nat) (s : Sub) (r : Sub × Option (Nat × (Nat → Cost))) :
    Prop where
  ok : RSubOK A N V r.1
  view : r.1.view = openView v s.view
  out : s.index v = none → r.2 = none
  marg : ∀ k, s.index v = some k → ∃ mm, r.2 = some (k, mm)
    ∧ ∀ x, MarginalOf A s.memo.dag (Sub.without s v) k x (mm x)

/-- The min-marginals collected by the first loop. -/
def collected (x : Nat) (rs : List (Sub × Option (Nat × (Nat → Cost)))) : List Cost :=
  rs.filterMap fun r => r.2.map fun q => q.2 x

theorem averageOpen_shape (v : Nat) : ∀ (ss : List Sub) (st : AverageState)
    (rs : List (Sub × Option (Nat × (Nat → Cost)))) (st' : AverageState),
    (∀ s ∈ ss, RSubOK A.toMachine N V s) → Rounded.averageOpen A v ss st = some (rs, st') →
    List.Forall₂ (Opened A.toMachine N V v) ss rs
    ∧ (∀ x, st'.total x = (collected x rs).foldl A.add (st.total x))
    ∧ st'.weight = (ss.filter fun s => (s.index v).isSome).foldl
        (fun (w : ℚ) s => (A.add w s.weight).untopD 0) st.weight := by
  intro ss
  induction ss with
  | nil =>
    intro st rs st' _ h
    simp only [Rounded.averageOpen, Option.some.injEq, Prod.mk.injEq] at h
    obtain ⟨rfl, rfl⟩ := h
    exact ⟨.nil, fun _ => rfl, rfl⟩
  | cons s ss ih =>
    intro st rs st' hok h
    have hs := hok s (by simp)
    have hss : ∀ s ∈ ss, RSubOK A.toMachine N V s := fun s' hs' => hok s' (List.mem_cons_of_mem _ hs')
    unfold Rounded.averageOpen at h
    cases hk : s.index v with
    | none =>
      have hk' : s.view.index v = none := hk
      simp only [hk] at h
      split at h
      · cases h
      · rename_i m c hc
        split at h
        · cases h
        · rename_i rs1 st1 hl
          simp only [Option.some.injEq, Prod.mk.injEq] at h
          obtain ⟨rfl, rfl⟩ := h
          obtain ⟨h1, h2, h3⟩ := rsub_skip hs hc
          obtain ⟨h4, h5, h6⟩ := ih _ _ _ hss hl
          refine ⟨.cons ⟨h1, ?_, fun _ => rfl, ?_⟩ h4, ?_, ?_⟩
          · rw [h2]
            simp [openView, View.update, hk']
          · intro k hkk
            rw [hk] at hkk; cases hkk
          · intro x
            rw [h5 x]
            rfl
          · rw [h6]
            simp [hk]
    | some k =>
      have hk' : s.view.index v = some k := hk
      simp only [hk] at h
      split at h
      · cases h
      · rename_i m mm hc
        split at h
        · cases h
        · rename_i rs1 st1 hl
          simp only [Option.some.injEq, Prod.mk.injEq] at h
          obtain ⟨rfl, rfl⟩ := h
          obtain ⟨g1, g2⟩ := rsub_set hs hk (fun _ => 0)
          obtain ⟨h1, h2, h3⟩ := rsub_marg g1 hc
          obtain ⟨h4, h5, h6⟩ := ih _ _ _ hss hl
          refine ⟨.cons ⟨h1, h2.trans g2, ?_, ?_⟩ h4, ?_, ?_⟩
          · intro hn
            rw [hk] at hn; cases hn
          · intro k' hkk
            rw [hk] at hkk
            obtain rfl : k = k' := by simpa using hkk
            refine ⟨mm, rfl, ?_⟩
            rw [without_some hk]
            intro x
            have := h3 x
            simp only [setPenalties_pen, setPenalties_dag] at this
            exact this
          · intro x
            rw [h5 x]
            simp [collected]
          · rw [h6]
            simp [hk]

/-- Upper bounds of the accumulators of the first loop at the value of a joint solution. -/
theorem averageOpen_bound (hA : Accurate A.toMachine F u limit) (hu : 0 ≤ u) {n : Nat} {M : ℚ}
    (v x : Nat) : ∀ (ss : List Sub) (paths : List (List PackedEdge)) (st : AverageState)
    (rs : List (Sub × Option (Nat × (Nat → Cost)))) (st' : AverageState) (k : Nat)
    (f X S g Y T : ℚ), List.Forall₂ (Ready A.toMachine F N V n M v x) ss paths →
    Rounded.averageOpen A v ss st = some (rs, st') →
    st.total x ≤ f → F f → Near u k f X S → st.skipped ≤ g → F g → Near u k g Y T → 2 * n + 1 ≤ k →
    (1 + u) ^ (k + ss.length) * (S + T + ss.length * M) ≤ limit →
    ∃ f' X' S' g' Y' T' : ℚ, st'.total x ≤ f' ∧ F f' ∧ Near u (k + ss.length) f' X' S'
      ∧ st'.skipped ≤ g' ∧ F g' ∧ Near u (k + ss.length) g' Y' T'
      ∧ S' + T' = S + T + ss.length * M
      ∧ ((X' + Y' : ℚ) : Cost) = ((X + Y : ℚ) : Cost)
        + (List.zipWith (fun s p => pathCost (Sub.without s v) p) ss paths).sum := by
  intro ss
  induction ss with
  | nil =>
    intro paths st rs st' k f X S g Y T hj h hf f0 fn hg g0 gn _ hl
    cases hj
    simp only [Rounded.averageOpen, Option.some.injEq, Prod.mk.injEq] at h
    obtain ⟨rfl, rfl⟩ := h
    exact ⟨f, X, S, g, Y, T, hf, f0, fn, hg, g0, gn, by simp, by simp⟩
  | cons s ss ih =>
    intro paths st rs st' k f X S g Y T hj h hf f0 fn hg g0 gn hnk hl
    cases hj with
    | @cons _ p _ paths hp hj =>
    have hs := hp.ok
    have hlen : ((s :: ss).length : ℚ) = ss.length + 1 := by simp
    have hk1 : k + (s :: ss).length = k + 1 + ss.length := by simp; omega
    rw [hlen, hk1] at hl
    have hM : 0 ≤ M := by
      obtain ⟨t, ht⟩ := size_of_pathCost (F := F)
        (fun e he => hp.range.member e (complete_mem hp.path e he)) hp.finite
      exact (size_nonneg ht).trans (hp.range.total p hp.path t ht)
    have hS := fn.size
    have hT := gn.size
    have hsM : 0 ≤ (ss.length : ℚ) * M := mul_nonneg (by positivity) hM
    have hPk := one_le_pow_u hu k
    have q1 := pow_mono hu (show k ≤ k + 1 + ss.length by omega)
    have q2 := pow_mono hu (show 2 * n ≤ k + 1 + ss.length by omega)
    have hl1 : (1 + u) ^ (2 * n) * M ≤ limit := by
      refine le_trans (mul_le_mul q2 (by linarith) hM (by linarith)) hl
    have hlk : ∀ z, 0 ≤ z → z ≤ S + T + (ss.length + 1) * M → (1 + u) ^ k * z ≤ limit := by
      intro z z0 hz
      exact le_trans (mul_le_mul q1 hz z0 (by linarith)) hl
    have hl' : ∀ S' T', S' + T' = S + T + M →
        (1 + u) ^ (k + 1 + ss.length) * (S' + T' + ss.length * M) ≤ limit := by
      intro S' T' he
      refine le_trans (le_of_eq ?_) hl
      rw [he]; ring
    unfold Rounded.averageOpen at h
    cases hk : s.index v with
    | none =>
      simp only [hk] at h
      split at h
      · cases h
      · rename_i m c hc
        split at h
        · cases h
        · rename_i rs1 st1 hl2
          simp only [Option.some.injEq, Prod.mk.injEq] at h
          obtain ⟨rfl, rfl⟩ := h
          obtain ⟨-, -, h3⟩ := rsub_skip hs hc
          have hfin := hp.finite
          have hrange := hp.range
          rw [without_none hk] at hfin hrange
          obtain ⟨r, e, r1, r2, r3, r4⟩ := skip_bound hA hu hs.view.wf hrange hl1 hp.path hfin h3
          obtain ⟨g', k0, k1, k2⟩ := Near.add hA hu g0 r2 gn (r4.weaken hu hnk (le_refl _))
            (hlk _ (by linarith) (by linarith))
          obtain ⟨f'', X', S', g'', Y', T', a1, a2, a3, a4, a5, a6, a7, a8⟩ :=
            ih paths _ _ _ (k + 1) f X S g' (Y + e) (T + M) hj hl2 hf f0
              (fn.weaken hu (by omega) (le_refl _)) (by
                rw [← k1]; exact A.mono hg r1) k0 k2 (by omega) (hl' _ _ (by ring))
          rw [hk1]
          refine ⟨f'', X', S', g'', Y', T', a1, a2, a3, a4, a5, a6, ?_, ?_⟩
          · rw [a7, hlen]; ring
          · rw [a8, List.zipWith_cons_cons, List.sum_cons, without_none hk, r3,
              ← add_assoc ((X + Y : ℚ) : Cost), ← WithTop.coe_add]
            congr 2
            ring
    | some kv =>
      simp only [hk] at h
      split at h
      · cases h
      · rename_i m mm hc
        split at h
        · cases h
        · rename_i rs1 st1 hl2
          simp only [Option.some.injEq, Prod.mk.injEq] at h
          obtain ⟨rfl, rfl⟩ := h
          obtain ⟨g1, -⟩ := rsub_set hs hk (fun _ => 0)
          obtain ⟨-, -, h3⟩ := rsub_marg g1 hc
          have h3' : MarginalOf A.toMachine s.memo.dag (Sub.without s v) kv x (mm x) := by
            have := h3 x
            simp only [setPenalties_pen, setPenalties_dag] at this
            rw [without_some hk]
            exact this
          obtain ⟨r, e, r1, r2, r3, r4⟩ := marg_bound hA hu hp.range hl1 hp.path hp.finite
            (hp.value kv hk) h3'
          obtain ⟨f', k0, k1, k2⟩ := Near.add hA hu f0 r2 fn (r4.weaken hu hnk (le_refl _))
            (hlk _ (by linarith) (by linarith))
          obtain ⟨f'', X', S', g'', Y', T', a1, a2, a3, a4, a5, a6, a7, a8⟩ :=
            ih paths _ _ _ (k + 1) f' (X + e) (S + M) g Y T hj hl2 (by
                rw [← k1]; exact A.mono hf r1) k0 k2 hg g0
              (gn.weaken hu (by omega) (le_refl _)) (by omega) (hl' _ _ (by ring))
          rw [hk1]
          refine ⟨f'', X', S', g'', Y', T', a1, a2, a3, a4, a5, a6, ?_, ?_⟩
          · rw [a7, hlen]; ring
          · rw [a8, List.zipWith_cons_cons, List.sum_cons, r3,
              ← add_assoc ((X + Y : ℚ) : Cost), ← WithTop.coe_add]
            congr 2
            ring

end RUSure.Lemmas.Rnd
