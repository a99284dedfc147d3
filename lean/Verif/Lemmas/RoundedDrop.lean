import Verif.Lemmas.RoundedAttained
import Verif.Lemmas.RoundedGreedy

/-! # Averaging in machine arithmetic: how much a bound can drop -/

namespace RUSure.Lemmas.Rnd
open RUSure RUSure.Spec RUSure.Lemmas RUSure.Rounded

variable {A : Arith} {F : ℚ → Prop} {u τ η limit : ℚ}

/-- No finite path gives the variable this value. -/
def Blocked (S : System) (w x : Nat) : Prop :=
  S.extra w x = ⊤ ∨ ∃ s ∈ S.subs, ∃ k, s.index w = some k ∧
    ∀ p, Complete s.memo.dag p → (k, x) ∈ assignments p → pathCost (Sub.without s w) p = ⊤

/-- A value is in balance or impossible. -/
def Settled (S : System) (D : ℚ) (w x : Nat) : Prop := Bal S (fun _ => x) w D ∨ Blocked S w x

theorem forall₂_mem_left {α β : Type} {R : α → β → Prop} {l : List α} {l' : List β}
    (h : List.Forall₂ R l l') : ∀ a ∈ l, ∃ b ∈ l', R a b := by
  induction h with
  | nil => simp
  | cons h1 _ ih =>
    intro a ha
    rcases List.mem_cons.1 ha with rfl | ha
    · exact ⟨_, by simp, h1⟩
    · obtain ⟨b, hb, hr⟩ := ih a ha
      exact ⟨b, List.mem_cons_of_mem _ hb, hr⟩

/-- Enough room for intermediate results. -/
theorem limit_pow (hu : 0 ≤ u) (hη : 0 ≤ η) (hτ : 0 ≤ τ) {N n : Nat} {M X : ℚ}
    (hl : rangeNeeded u η τ N n M X ≤ limit) {k : Nat} (hk : k ≤ 2 * n + N + 4) {z : ℚ}
    (z0 : 0 ≤ z) (hz : z ≤ N * M + X) : (1 + u) ^ k * z ≤ limit := by
  have hsize := z0.trans hz
  have h1 := one_le_pow_u hu (2 * n + N + 4)
  have h2 := mul_le_mul (pow_mono hu hk) hz z0 (by linarith)
  refine h2.trans (le_trans ?_ hl)
  unfold rangeNeeded
  have h3 : 0 ≤ (1 + u) ^ (2 * n + N + 4) * (N * M + X) := mul_nonneg (by linarith) hsize
  nlinarith

theorem participants_ne {S : System} {v : Nat} (hs : FairShares A S v η) (hη : η < 1) :
    participants S v ≠ [] := by
  intro h
  have := hs.total
  unfold machineShares at this
  rw [h] at this
  norm_num at this
  linarith

/-- What averaging a variable does to the system. -/
structure Effect (A : Arith) (S : System) (v : Nat) (S' : System) (b : Cost)
    (rs : List (Sub × Option (Nat × (Nat → Cost)))) (st : AverageState) : Prop where
  opened : Rounded.averageOpen A v S.subs ⟨fun _ => 0, 0, 0⟩ = some (rs, st)
  each : List.Forall₂ (Opened A.toMachine S.numKeys S.numValues v) S.subs rs
  total : ∀ x, st.total x = machineSum A.toMachine (collected x rs)
  weight : st.weight = (participants S v).foldl (fun (w : ℚ) s => (A.add w s.weight).untopD 0) 0
  extra : S'.extra = S.extra
  keys : S'.numKeys = S.numKeys
  values : S'.numValues = S.numValues
  subs : S'.subs = rs.map (Rounded.averageClose A (fun x => A.add (st.total x) (S.extra v x)) st.weight)
  bound : b = A.add (arrayMin S.numValues fun x => A.add (st.total x) (S.extra v x)) st.skipped

theorem effect {S S' : System} {v : Nat} {b : Cost}
    (hok : ∀ s ∈ S.subs, RSubOK A.toMachine S.numKeys S.numValues s)
    (he : Rounded.average A S v = some (S', b)) : ∃ rs st, Effect A S v S' b rs st := by
  obtain ⟨rs, st, h1, h2, h3, h4, h5, h6, h7, h8, h9⟩ := average_effect hok he
  exact ⟨rs, st, h1, h2, h3, h4, h5, h6, h7, h8, h9⟩

/-- The total computed for a value. -/
abbrev totalAt (A : Arith) (S : System) (v : Nat) (st : AverageState) (x : Nat) : Cost :=
  A.add (st.total x) (S.extra v x)

section
variable {S S' : System} {v : Nat} {b : Cost} {rs : List (Sub × Option (Nat × (Nat → Cost)))}
  {st : AverageState}

theorem Effect.closed (h : Effect A S v S' b rs st)
    (hok : ∀ s ∈ S.subs, RSubOK A.toMachine S.numKeys S.numValues s) :
    List.Forall₂ (fun s s' => ∃ r, Opened A.toMachine S.numKeys S.numValues v s r
      ∧ s' = Rounded.averageClose A (totalAt A S v st) st.weight r
      ∧ Closed A S.numKeys S.numValues v (totalAt A S v st) st.weight s r s') S.subs S'.subs := by
  rw [h.subs]
  exact forall₂_map_both h.each fun s r hs hr =>
    ⟨r, hr, rfl, averageClose_spec (hok s hs).view hr _ _⟩

theorem Effect.length (h : Effect A S v S' b rs st) : S'.subs.length = S.subs.length := by
  rw [h.subs, List.length_map]; exact h.each.length_eq.symm

theorem Effect.ok (h : Effect A S v S' b rs st)
    (hok : ∀ s ∈ S.subs, RSubOK A.toMachine S.numKeys S.numValues s) :
    ∀ s ∈ S'.subs, RSubOK A.toMachine S'.numKeys S'.numValues s := by
  intro s hs
  obtain ⟨s0, -, r, -, -, hc⟩ := Rnd.forall₂_mem_right (h.closed hok) s hs
  rw [h.keys, h.values]
  exact hc.ok

/-- The min-marginals and shares of the participating subproblems, at a value of finite total. -/
theorem collected_at (hA : Accurate A.toMachine F u limit) (hu : 0 ≤ u) {n N V : Nat} {M : ℚ}
    (v x : Nat) (W : ℚ) (hl : 0 ≤ M → (1 + u) ^ (2 * n) * M ≤ limit) : ∀ (ss : List Sub)
    (rs : List (Sub × Option (Nat × (Nat → Cost)))),
    (∀ s ∈ ss, InRange F s.memo.dag (Sub.without s v) n M) →
    List.Forall₂ (Opened A.toMachine N V v) ss rs → (∀ c ∈ collected x rs, c < ⊤) →
    ∃ l : List (ℚ × ℚ),
      (rs.filterMap fun r => r.2.map fun q => (q.2 x, A.div r.1.weight W))
        = l.map (fun p => ((p.1 : Cost), p.2))
      ∧ (∀ p ∈ l, F p.1 ∧ |p.1| ≤ (1 + u) ^ (2 * n + 1) * M ∧ 0 ≤ M)
      ∧ l.length ≤ ss.length
      ∧ l.map Prod.snd = (ss.filter fun s => (s.index v).isSome).map fun s => A.div s.weight W := by
  intro ss
  induction ss with
  | nil =>
    intro rs _ h _
    cases h
    exact ⟨[], rfl, by simp, by simp, rfl⟩
  | cons s ss ih =>
    intro rs hr h hfin
    cases h with
    | @cons _ r _ rs hop h =>
    have hsub : ∀ c ∈ collected x rs, c < ⊤ := by
      intro c hc
      apply hfin c
      unfold collected at hc ⊢
      rw [List.filterMap_cons]
      split
      · exact hc
      · exact List.mem_cons_of_mem _ hc
    obtain ⟨l, h1, h2, h3, h4⟩ := ih rs (fun s' hs' => hr s' (List.mem_cons_of_mem _ hs')) h hsub
    have hw : r.1.weight = s.weight := by
      have := congrArg View.weight hop.view
      rw [openView, update_weight] at this
      exact this
    cases hk : s.index v with
    | none =>
      refine ⟨l, ?_, h2, by simp; omega, ?_⟩
      · rw [List.filterMap_cons, hop.out hk]
        exact h1
      · rw [h4, List.filter_cons, hk]; rfl
    | some k =>
      obtain ⟨mm, m1, m2⟩ := hop.marg k hk
      have hf : mm x < ⊤ := by
        apply hfin
        unfold collected
        rw [List.filterMap_cons, m1]
        simp
      obtain ⟨-, -, -, m, e, e1, e2, -, e3⟩ := marg_attained hA hu (hr s (by simp)) hl (m2 x) hf
      refine ⟨(m, A.div s.weight W) :: l, ?_, ?_, by simp; omega, ?_⟩
      · rw [List.filterMap_cons, m1]
        simp only [Option.map_some, List.map_cons]
        rw [h1, e1, hw]
      · intro p hp'
        rcases List.mem_cons.1 hp' with rfl | hp'
        · exact ⟨e2, e3.abs, e3.size⟩
        · exact h2 p hp'
      · rw [List.map_cons, h4, List.filter_cons, hk]
        rfl

theorem Effect.shares (h : Effect A S v S' b rs st) :
    machineShares A S v = (S.subs.filter fun s => (s.index v).isSome).map
      fun s => A.div s.weight st.weight := by
  unfold machineShares
  rw [← h.weight]
  rfl

/-- What is known about an averaging step. -/
structure StepGood (A : Arith) (F : ℚ → Prop) (u τ η limit : ℚ) (S : System) (v n : Nat) (M X : ℚ) :
    Prop where
  ok : ∀ s ∈ S.subs, RSubOK A.toMachine S.numKeys S.numValues s
  range : StepInRange F S v n M X
  shares : FairShares A S v η
  limit : rangeNeeded u η τ S.subs.length n M X ≤ limit
  sizeX : 0 ≤ X

theorem StepGood.eta {n : Nat} {M X : ℚ} (g : StepGood A F u τ η limit S v n M X) : 0 ≤ η :=
  (abs_nonneg _).trans g.shares.total

theorem StepGood.pos {n : Nat} {M X : ℚ} (g : StepGood A F u τ η limit S v n M X) (hη : η < 1) :
    0 < S.subs.length := by
  have h := participants_ne g.shares hη
  unfold participants at h
  by_contra hc
  have : S.subs = [] := List.length_eq_zero_iff.1 (by omega)
  rw [this] at h
  exact h rfl

theorem StepGood.room {n : Nat} {M X : ℚ} (g : StepGood A F u τ η limit S v n M X) (hη : η < 1)
    (hu : 0 ≤ u) (hτ : 0 ≤ τ) : 0 ≤ M → (1 + u) ^ (2 * n) * M ≤ limit := by
  intro hM
  have h1 : (1 : ℚ) ≤ S.subs.length := by exact_mod_cast g.pos hη
  exact limit_pow hu g.eta hτ g.limit (by omega) hM (by have := g.sizeX; nlinarith)

/-- The balance of the averaged variable, at a value with finite min-marginals. -/
theorem step_balance_at (hA : AccurateArith A F u τ limit) (hu : 0 ≤ u) (hτ : 0 ≤ τ) (hη1 : η < 1)
    {n : Nat} {M X : ℚ} (g : StepGood A F u τ η limit S v n M X) (h : Effect A S v S' b rs st) {x : Nat}
    {e : ℚ} (hext : (e : Cost) = S.extra v x) (hcfin : ∀ c ∈ collected x rs, c < ⊤) :
    Bal S' (fun _ => x) v (imbalance u η τ S.subs.length n M X)
    ∧ ∃ T : ℚ, totalAt A S v st x = T ∧ F T ∧ 0 ≤ M
      ∧ |T| ≤ (1 + u) ^ (2 * n + S.subs.length + 2) * (S.subs.length * M + X) := by
  have hη := g.eta
  have hX := g.sizeX
  obtain ⟨l, l1, l2, l3, l4⟩ := collected_at hA.sums hu v x st.weight (g.room hη1 hu hτ) S.subs rs
    g.range.subs h.each hcfin
  obtain ⟨e1, e2⟩ := g.range.extra x e hext.symm
  have hsh : machineShares A S v = l.map Prod.snd := by rw [h.shares, l4]
  have hs1 : ∀ r ∈ l.map Prod.snd, 0 ≤ r := fun r hr => g.shares.nonneg r (by rw [hsh]; exact hr)
  have hs2 : |(l.map Prod.snd).sum - 1| ≤ η := by rw [← hsh]; exact g.shares.total
  have hM0 : 0 ≤ M := by
    cases l with
    | nil => norm_num at hs2; linarith
    | cons p l => exact (l2 p (by simp)).2.2
  have hM : 0 ≤ (S.subs.length : ℚ) * M := by positivity
  obtain ⟨r1, r2, r3⟩ := range_facts hu hη hτ hM hX g.limit
  have p1 := one_le_pow_u hu (2 * n + 1)
  have p2 := one_le_pow_u hu (S.subs.length + 1)
  have hsum := closed_sum (x := x) (total := fun x => A.add (st.total x) (S.extra v x))
    (W := st.weight) (fun s hs => (g.ok s hs).view) h.each
  rw [← h.subs, l1, List.map_map] at hsum
  have hcol : collected x rs = coes (l.map Prod.fst) := by
    have : collected x rs = (rs.filterMap fun r => r.2.map fun q =>
        (q.2 x, A.div r.1.weight st.weight)).map Prod.fst := by
      rw [← filterMap_comp]
      unfold collected
      congr 1
      funext r
      cases r.2 <;> rfl
    rw [this, l1, coes, List.map_map, List.map_map]
    rfl
  have h3' := h.total x
  have h5 := h.extra
  have himb := imbalance_bound (n := n) hu hη hτ hM hX l3
  have hB : 0 ≤ (1 + u) ^ (2 * n + 1) * (S.subs.length * M) := mul_nonneg (by linarith) hM
  have habs := abs_sum_le (fun p hp => (l2 p hp).2.1) l3 (by linarith)
  generalize S.subs.length = N at *
  have hlen' : (l.map Prod.fst).length = l.length := by simp
  have habs' : ((l.map Prod.fst).map abs).sum = (l.map fun p => |p.1|).sum := by
    rw [List.map_map]; rfl
  have hPN := pow_mono hu (show l.length ≤ N + 1 by omega)
  have hab0 := abs_sum_nonneg (l.map Prod.fst)
  have hle1 : ((l.map Prod.fst).map abs).sum + |e| ≤ (1 + u) ^ (2 * n + 1) * (N * M) + X := by
    rw [habs']; linarith
  have hFm : ∀ x ∈ l.map Prod.fst, F x := by
    intro x hx
    obtain ⟨p, hp, rfl⟩ := List.mem_map.1 hx
    exact (l2 p hp).1
  obtain ⟨t, t0, t1, t2, t3⟩ := sum_error hA.sums hu (l.map Prod.fst) hFm (by
    rw [hlen']
    refine le_trans (mul_le_mul hPN ?_ hab0 (by linarith)) r1
    have := abs_nonneg e
    linarith)
  rw [hlen'] at t2 t3
  obtain ⟨T, T0, T1, T2⟩ := Near.add hA.sums hu t0 e1 ⟨hab0, t2, t3⟩
    (near_self hu l.length (le_refl |e|))
    (le_trans (mul_le_mul hPN hle1 (add_nonneg hab0 (abs_nonneg e)) (by linarith)) r1)
  have T3 := T2.weaken hu (show l.length + 1 ≤ N + 1 by omega) hle1
  have hT : A.add (st.total x) (S.extra v x) = (T : Cost) := by
    rw [h3', hcol, t1, ← hext, T1]
  have T4 := T3.err
  obtain ⟨Q, Q1, Q2⟩ := balance_error hA hu hτ hη T0 p2 l
    (fun p hp => ⟨(l2 p hp).1, hs1 _ (List.mem_map.2 ⟨p, hp, rfl⟩)⟩) hs2
    T4 T3.abs (by linarith) r2
  refine ⟨⟨Q, e, ?_, by rw [h5]; exact hext.symm, Q2.trans himb⟩, T, hT, T0, hM0, ?_⟩
  · rw [hsum, ← Q1]
    simp only [hT]
    rfl
  · refine T3.abs.trans ?_
    have pe : (1 + u) ^ (2 * n + N + 2) = (1 + u) ^ (N + 1) * (1 + u) ^ (2 * n + 1) := by
      rw [← pow_add]; congr 1; omega
    rw [pe, mul_assoc]
    refine mul_le_mul_of_nonneg_left ?_ (by linarith)
    have : 1 * X ≤ (1 + u) ^ (2 * n + 1) * X := mul_le_mul_of_nonneg_right p1 hX
    linarith

theorem finite_parts (h : Effect A S v S' b rs st) {x : Nat} (hfin : totalAt A S v st x < ⊤) :
    (∃ e : ℚ, (e : Cost) = S.extra v x) ∧ ∀ c ∈ collected x rs, c < ⊤ := by
  have hext : S.extra v x ≠ ⊤ := by
    intro hc
    unfold totalAt at hfin
    rw [hc, A.top_right] at hfin
    exact absurd hfin (lt_irrefl _)
  have htot : st.total x < ⊤ := by
    rw [lt_top_iff_ne_top]
    intro hc
    unfold totalAt at hfin
    rw [hc, A.top_left] at hfin
    exact absurd hfin (lt_irrefl _)
  rw [h.total x] at htot
  obtain ⟨l0, hl0⟩ := machineSum_finite htot
  refine ⟨WithTop.ne_top_iff_exists.1 hext, ?_⟩
  intro c hc
  rw [hl0] at hc
  obtain ⟨q, -, rfl⟩ := List.mem_map.1 hc
  exact WithTop.coe_lt_top _

/-- The total of an impossible value is infinite. -/
theorem blocked_total (hA : Accurate A.toMachine F u limit) (hu : 0 ≤ u) (hτ : 0 ≤ τ) (hη1 : η < 1)
    {n : Nat} {M X : ℚ} (g : StepGood A F u τ η limit S v n M X) (h : Effect A S v S' b rs st) {x : Nat}
    (hb : Blocked S v x) : totalAt A S v st x = ⊤ := by
  by_contra hc
  obtain ⟨⟨e, he⟩, hcf⟩ := finite_parts h (lt_top_iff_ne_top.2 hc)
  rcases hb with hb | ⟨s, hs, k, hk, hp⟩
  · rw [hb] at he; exact absurd he WithTop.coe_ne_top
  · obtain ⟨r, hr, hop⟩ := forall₂_mem_left h.each s hs
    obtain ⟨mm, m1, m2⟩ := hop.marg k hk
    have hm : mm x ∈ collected x rs := by
      unfold collected
      exact List.mem_filterMap.2 ⟨r, hr, by rw [m1]; rfl⟩
    obtain ⟨p, p1, p2, -, z, -, -, p3, -⟩ := marg_attained hA hu (g.range.subs s hs)
      (g.room hη1 hu hτ) (m2 x) (hcf _ hm)
    rw [hp p p1 p2] at p3
    exact absurd p3.symm WithTop.coe_ne_top

theorem close_penalty {N V : Nat} {s s' : Sub} {r : Sub × Option (Nat × (Nat → Cost))}
    {total : Nat → Cost} {W : ℚ} (hc : Closed A N V v total W s r s')
    (ho : Opened A.toMachine N V v s r) {k : Nat} (hk : s.index v = some k) :
    ∃ mm, r.2 = some (k, mm) ∧ (∀ x, MarginalOf A.toMachine s.memo.dag (Sub.without s v) k x (mm x))
      ∧ ∀ x, s'.memo.pen k x = Rounded.newPenalty A (total x) (A.div s.weight W) (mm x) := by
  obtain ⟨mm, m1, m2⟩ := ho.marg k hk
  refine ⟨mm, m1, m2, fun x => ?_⟩
  have h1 := hc.same x
  have hk' : s'.view.index v = some k := by
    change s'.index v = _
    rw [hc.index]; exact hk
  have hw : r.1.weight = s.weight := by
    have := congrArg View.weight ho.view
    rw [openView, update_weight] at this
    exact this
  rw [View.charge, hk', m1] at h1
  simp only [Option.map_some, Option.getD_some, hw] at h1
  exact h1

/-- Without the averaged variable, the penalties are the same as before. -/
theorem close_without {N V : Nat} {s s' : Sub} {r : Sub × Option (Nat × (Nat → Cost))}
    {total : Nat → Cost} {W : ℚ} (hv : ViewOK N V s.view) (hc : Closed A N V v total W s r s')
    {k : Nat} (hk : k < s.memo.dag.numKeys) (x : Nat) :
    Sub.without s' v k x = Sub.without s v k x := by
  obtain ⟨w, hw⟩ := hv.surj k hk
  have hw' : s.index w = some k := hw
  have hw2 : s'.view.index w = some k := by
    change s'.index w = _
    rw [hc.index]; exact hw'
  unfold Sub.without
  rw [hc.index]
  by_cases hwv : w = v
  · subst hwv
    rw [if_pos hw', if_pos hw']
  · have hne : ¬ s.index v = some k := fun hn => hwv (hv.inj w v k hw hn)
    rw [if_neg hne, if_neg hne]
    have := hc.other w hwv x
    unfold View.charge at this
    rw [hw2, hw] at this
    exact this

theorem assign_key {d : PackedDag} (wf : PackedWF d) {p : List PackedEdge} (hp : Complete d p)
    {k x : Nat} (h : (k, x) ∈ assignments p) : k < d.numKeys := (assign_edge wf hp h).1

theorem close_without_path {N V : Nat} {s s' : Sub} {r : Sub × Option (Nat × (Nat → Cost))}
    {total : Nat → Cost} {W : ℚ} (hv : ViewOK N V s.view) (hc : Closed A N V v total W s r s')
    {p : List PackedEdge} (hp : Complete s.memo.dag p) :
    pathCost (Sub.without s' v) p = pathCost (Sub.without s v) p := by
  apply pathCost_congr
  intro k x hkx
  exact close_without hv hc (assign_key hv.wf hp hkx) x

/-- After averaging, each value of the variable is in balance or impossible. -/
theorem averaged_settled (hA : AccurateArith A F u τ limit) (hu : 0 ≤ u) (hτ : 0 ≤ τ) (hη1 : η < 1)
    {n : Nat} {M X : ℚ} (g : StepGood A F u τ η limit S v n M X) (h : Effect A S v S' b rs st) (x : Nat) :
    Settled S' (imbalance u η τ S.subs.length n M X) v x := by
  by_cases hext : S.extra v x = ⊤
  · exact .inr (.inl (by rw [h.extra]; exact hext))
  obtain ⟨e, he⟩ := WithTop.ne_top_iff_exists.1 hext
  by_cases hcf : ∀ c ∈ collected x rs, c < ⊤
  · exact .inl (step_balance_at hA hu hτ hη1 g h he hcf).1
  · right
    right
    push Not at hcf
    obtain ⟨c, hc, hct⟩ := hcf
    obtain rfl := top_le_iff.1 hct
    obtain ⟨r, hr, hr2⟩ := List.mem_filterMap.1 hc
    obtain ⟨s, hs, s', hs', hop, hcl⟩ : ∃ s ∈ S.subs, ∃ s' ∈ S'.subs,
        Opened A.toMachine S.numKeys S.numValues v s r
        ∧ Closed A S.numKeys S.numValues v (totalAt A S v st) st.weight s r s' := by
      obtain ⟨s, hs, hop⟩ := forall₂_mem_right h.each r hr
      refine ⟨s, hs, _, ?_, hop, averageClose_spec (g.ok s hs).view hop _ _⟩
      rw [h.subs]
      exact List.mem_map_of_mem hr
    cases hk : s.index v with
    | none => rw [hop.out hk] at hr2; cases hr2
    | some k =>
      obtain ⟨mm, m1, m2⟩ := hop.marg k hk
      rw [m1] at hr2
      have hmt : mm x = ⊤ := by simpa using hr2
      refine ⟨s', hs', k, by rw [hcl.index]; exact hk, ?_⟩
      intro p hp hpx
      rw [hcl.dag] at hp
      rw [close_without_path (g.ok s hs).view hcl hp]
      by_contra hne
      have hfin := lt_top_iff_ne_top.2 hne
      have hM : 0 ≤ M := by
        obtain ⟨t, ht⟩ := size_of_pathCost (F := F)
          (fun e he => (g.range.subs s hs).member e (complete_mem hp e he)) hfin
        exact (size_nonneg ht).trans ((g.range.subs s hs).total p hp t ht)
      obtain ⟨z, -, z1, -⟩ := marg_bound hA.sums hu (g.range.subs s hs) (g.room hη1 hu hτ hM) hp hfin hpx
        (m2 x)
      rw [hmt, top_le_iff] at z1
      exact absurd z1 WithTop.coe_ne_top

/-- Values of other variables stay in balance or impossible. -/
theorem step_settled (hA : AccurateArith A F u τ limit) (hu : 0 ≤ u) (hτ : 0 ≤ τ) (hη1 : η < 1)
    {n : Nat} {M X : ℚ} (g : StepGood A F u τ η limit S v n M X) (h : Effect A S v S' b rs st)
    (hs : ∀ w < S.numKeys, ∀ x, Settled S (imbalance u η τ S.subs.length n M X) w x) :
    ∀ w < S'.numKeys, ∀ x, Settled S' (imbalance u η τ S'.subs.length n M X) w x := by
  intro w hw x
  rw [h.keys] at hw
  rw [h.length]
  by_cases hwv : w = v
  · rw [hwv]; exact averaged_settled hA hu hτ hη1 g h x
  rcases hs w hw x with ⟨q, e, b1, b2, b3⟩ | hb
  · refine .inl ⟨q, e, ?_, by rw [h.extra]; exact b2, b3⟩
    rw [← b1]
    refine (forall₂_sum (h.closed g.ok) ?_).symm
    rintro s s' _ ⟨r, -, -, hc⟩
    exact (hc.other w hwv x).symm
  · right
    rcases hb with hb | ⟨s, hsm, k, hk, hp⟩
    · exact .inl (by rw [h.extra]; exact hb)
    · right
      obtain ⟨s', hs', r, hop, -, hcl⟩ := forall₂_mem_left (h.closed g.ok) s hsm
      refine ⟨s', hs', k, by rw [hcl.index]; exact hk, ?_⟩
      intro p hpc hpx
      rw [hcl.dag] at hpc
      have htop := hp p hpc hpx
      by_contra hne
      have hfin := (pathCost_lt_top _ p).1 (lt_top_iff_ne_top.2 hne)
      have hv := (g.ok s hsm).view
      have : pathCost (Sub.without s w) p < ⊤ := by
        refine (pathCost_lt_top _ p).2 ⟨hfin.1, ?_⟩
        rintro ⟨k', y⟩ hky
        have h2 := hfin.2 _ hky
        dsimp only at h2 ⊢
        unfold Sub.without at h2 ⊢
        rw [hcl.index] at h2
        by_cases hkk : s.index w = some k'
        · rw [if_pos hkk]; exact WithTop.coe_lt_top 0
        · rw [if_neg hkk] at h2 ⊢
          obtain ⟨w', hw'⟩ := hv.surj k' (assign_key hv.wf hpc hky)
          have hi : s.index w' = some k' := hw'
          by_cases hwv' : w' = v
          · subst hwv'
            obtain ⟨mm, -, -, m3⟩ := close_penalty hcl hop hi
            rcases hs w' (hv.lt w' k' hw').1 y with ⟨q, e, b1, -, -⟩ | hb
            · have hall := sum_lt_top.1 (show (S.subs.map fun s => s.view.charge w' y).sum < ⊤ by
                rw [b1]; exact WithTop.coe_lt_top _)
              have := hall _ (List.mem_map_of_mem hsm)
              unfold View.charge at this
              rw [hw'] at this
              exact this
            · have ht := blocked_total hA.sums hu hτ hη1 g h hb
              rw [m3 y, ht] at h2
              unfold Rounded.newPenalty at h2
              rw [A.mul_top, if_pos rfl] at h2
              exact absurd h2 (lt_irrefl _)
          · have hi' : s'.view.index w' = some k' := by
              change s'.index w' = _
              rw [hcl.index]; exact hi
            have := hcl.other w' hwv' y
            unfold View.charge at this
            rw [hi', hw'] at this
            have h3 : s'.memo.pen k' y = s.memo.pen k' y := this
            rw [← h3]; exact h2
      rw [htop] at this
      exact absurd this (lt_irrefl _)

end

end RUSure.Lemmas.Rnd
