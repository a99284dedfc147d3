import Verif.Lemmas.RoundedDualStep
import Verif.Lemmas.DualSolve

/-! # Averaging in machine arithmetic: systems and runs -/

namespace RUSure.Lemmas.Rnd
open RUSure RUSure.Spec RUSure.Lemmas RUSure.Rounded

variable {A : Arith} {F : ℚ → Prop} {u τ η limit : ℚ}

theorem forall₂_of_map {α β γ : Type} {R : α → β → Prop} {P : α → β → γ → Prop} {f : β → γ}
    {l : List α} {l' : List β} (h : List.Forall₂ R l l')
    (hP : ∀ a b, a ∈ l → R a b → P a b (f b)) :
    ∀ c ∈ l'.map f, ∃ a ∈ l, ∃ b, P a b c := by
  induction h with
  | nil => intro c hc; simp at hc
  | @cons a b l l' h1 _ ih =>
    intro c hc
    rcases List.mem_cons.1 hc with rfl | hc
    · exact ⟨a, by simp, b, hP a b (by simp) h1⟩
    · obtain ⟨a', ha', b', hb'⟩ := ih (fun a' b' ha' => hP a' b' (List.mem_cons_of_mem _ ha')) c hc
      exact ⟨a', List.mem_cons_of_mem _ ha', b', hb'⟩

/-- The effect of averaging on the system. -/
theorem average_effect {S S' : System} {v : Nat} {b : Cost}
    (hok : ∀ s ∈ S.subs, RSubOK A.toMachine S.numKeys S.numValues s)
    (he : Rounded.average A S v = some (S', b)) :
    ∃ rs st, Rounded.averageOpen A v S.subs ⟨fun _ => 0, 0, 0⟩ = some (rs, st)
      ∧ List.Forall₂ (Opened A.toMachine S.numKeys S.numValues v) S.subs rs
      ∧ (∀ x, st.total x = machineSum A.toMachine (collected x rs))
      ∧ st.weight = (participants S v).foldl (fun (w : ℚ) s => (A.add w s.weight).untopD 0) 0
      ∧ S'.extra = S.extra ∧ S'.numKeys = S.numKeys ∧ S'.numValues = S.numValues
      ∧ S'.subs = rs.map (Rounded.averageClose A (fun x => A.add (st.total x) (S.extra v x)) st.weight)
      ∧ b = A.add (arrayMin S.numValues fun x => A.add (st.total x) (S.extra v x)) st.skipped := by
  unfold Rounded.average at he
  rw [Option.map_eq_some_iff] at he
  obtain ⟨⟨rs, st⟩, h1, h2⟩ := he
  simp only [Prod.mk.injEq] at h2
  obtain ⟨rfl, rfl⟩ := h2
  obtain ⟨h3, h4, h5⟩ := averageOpen_shape v _ _ _ _ hok h1
  exact ⟨rs, st, h1, h3, h4, h5, rfl, rfl, rfl, rfl, rfl⟩

/-- The paths of a joint solution when a variable is averaged. -/
theorem joint_ready {S : System} {v n : Nat} {M X J : ℚ} {a : Nat → Nat}
    {paths : List (List PackedEdge)} {D : ℚ}
    (hok : ∀ s ∈ S.subs, RSubOK A.toMachine S.numKeys S.numValues s)
    (hj : Joint S a paths) (hJ : jointCost S a paths = J)
    (hb : ∀ w < S.numKeys, Bal S a w D) (hv : v < S.numKeys) (hr : StepInRange F S v n M X) :
    List.Forall₂ (Ready A.toMachine F S.numKeys S.numValues n M v (a v)) S.subs paths
    ∧ ∃ E e : ℚ, (List.zipWith (fun s p => pathCost (Sub.without s v) p) S.subs paths).sum = E
      ∧ S.extra v (a v) = e ∧ E + e ≤ J + (S.numKeys - 1) * D := by
  -- the views with the penalties of the variable removed
  have hok' : ∀ w ∈ (views S).map (openView v), ViewOK S.numKeys S.numValues w := by
    intro w hw
    obtain ⟨w0, hw0, rfl⟩ := List.mem_map.1 hw
    obtain ⟨s, hs, rfl⟩ := List.mem_map.1 hw0
    exact update_ok v _ (hok s hs).view
  have hvj : VJoint S.numKeys S.numValues ((views S).map (openView v)) a paths :=
    (vjoint_update v _ a paths).2 ((joint_iff S a paths).1 hj)
  have hsum := joint_charges hok' hvj
  have hz : (List.zipWith (fun (w : View) p => pathCost w.pen p) ((views S).map (openView v)) paths)
      = List.zipWith (fun s p => pathCost (Sub.without s v) p) S.subs paths := by
    unfold views
    rw [List.map_map, List.zipWith_map_left]
    congr 1
    funext s p
    rw [without_eq]
    rfl
  rw [hz] at hsum
  choose! q e hq he hqe using hb
  have hcharge : ∀ w < S.numKeys, (((views S).map (openView v)).map fun s => s.charge w (a w)).sum
      = (((if w = v then 0 else q w : ℚ)) : Cost) := by
    intro w hw
    unfold views
    rw [List.map_map, List.map_map]
    by_cases hwv : w = v
    · subst hwv
      rw [if_pos rfl]
      apply List.sum_eq_zero
      intro c hc
      obtain ⟨s, hs, rfl⟩ := List.mem_map.1 hc
      simp only [Function.comp, openView, View.charge, update_index]
      cases hk : s.view.index w with
      | none => rfl
      | some k => simp only [update_pen_same w _ hk]
    · rw [if_neg hwv, ← hq w hw]
      congr 1
      apply List.map_congr_left
      intro s hs
      exact update_charge_other v _ (hok s hs).view hwv (a w)
  have hcharges : ((List.range S.numKeys).map fun w =>
      (((views S).map (openView v)).map fun s => s.charge w (a w)).sum).sum
      = ((((List.range S.numKeys).map fun w => if w = v then 0 else q w).sum : ℚ) : Cost) := by
    rw [coe_sum_map]
    congr 1
    apply List.map_congr_left
    intro w hw
    exact hcharge w (List.mem_range.1 hw)
  have hextra : ((List.range S.numKeys).map fun w => S.extra w (a w)).sum
      = ((((List.range S.numKeys).map e).sum : ℚ) : Cost) := by
    rw [coe_sum_map]
    congr 1
    apply List.map_congr_left
    intro w hw
    exact he w (List.mem_range.1 hw)
  have hW : (paths.map (weight PackedEdge.cost)).sum ≠ ⊤ := by
    intro hc
    rw [jointCost, hc, WithTop.top_add] at hJ
    exact absurd hJ.symm WithTop.coe_ne_top
  generalize hWe : (paths.map (weight PackedEdge.cost)).sum = W0 at *
  lift W0 to ℚ using hW
  rw [jointCost, hWe, hextra, ← WithTop.coe_add, WithTop.coe_inj] at hJ
  rw [hcharges, ← WithTop.coe_add] at hsum
  refine ⟨?_, _, e v, hsum, he v hv, ?_⟩
  · -- every path is finite
    have hfin : ∀ c ∈ List.zipWith (fun s p => pathCost (Sub.without s v) p) S.subs paths, c < ⊤ := by
      apply sum_lt_top.1
      rw [hsum]
      exact WithTop.coe_lt_top _
    have hp := hj.paths
    have hsub := hr.subs
    clear hsum hz hvj hok' hcharge hcharges hWe hj hq hr
    generalize S.subs = ss at *
    induction hp with
    | nil => exact .nil
    | @cons s p ss paths h1 h2 ih =>
      refine .cons ?_ (ih (fun s' hs' => hok s' (List.mem_cons_of_mem _ hs'))
        (fun c hc => hfin c (by rw [List.zipWith_cons_cons]; exact List.mem_cons_of_mem _ hc))
        (fun s' hs' => hsub s' (List.mem_cons_of_mem _ hs')))
      refine ⟨hok s (by simp), hsub s (by simp), h1.1, ?_, hfin _ (by simp)⟩
      intro k hk
      obtain ⟨x, -, hx⟩ := complete_value (hok s (by simp)).view.wf h1.1
        ((hok s (by simp)).view.lt v k hk).2
      have := h1.2 v k x hk hx
      rw [← this]
      exact hx
  · have := other_charges hv (q := q) (e := e) (D := D) (fun w hw _ => hqe w hw)
    linarith

theorem length_paths {S : System} {a : Nat → Nat} {paths : List (List PackedEdge)}
    (hj : Joint S a paths) : paths.length = S.subs.length := hj.paths.length_eq.symm

/-- The bound reported by a step. -/
theorem step_bound (hA : Accurate A.toMachine F u limit) (hu : 0 ≤ u) (hη : 0 ≤ η) (hτ : 0 ≤ τ)
    {S S' : System} {v n : Nat} {M X J D : ℚ} {a : Nat → Nat} {paths : List (List PackedEdge)}
    {b : Cost}
    (hok : ∀ s ∈ S.subs, RSubOK A.toMachine S.numKeys S.numValues s)
    (hj : Joint S a paths) (hJ : jointCost S a paths = J)
    (hb : ∀ w < S.numKeys, Bal S a w D) (hv : v < S.numKeys) (hr : StepInRange F S v n M X)
    (hM : 0 ≤ (S.subs.length : ℚ) * M) (hX : 0 ≤ X)
    (hl : rangeNeeded u η τ S.subs.length n M X ≤ limit)
    (he : Rounded.average A S v = some (S', b)) :
    b ≤ ((J + (S.numKeys - 1) * D + sumError u S.subs.length n M X : ℚ) : Cost) := by
  obtain ⟨hready, E, e, hE, hext, hle⟩ := joint_ready hok hj hJ hb hv hr
  obtain ⟨rs, st, h1, -, -, -, -, -, -, -, h9⟩ := average_effect hok he
  have hsize : 0 ≤ (S.subs.length : ℚ) * M + X := by linarith
  have hpow : ∀ k, k ≤ 2 * n + S.subs.length + 4 → ∀ z, 0 ≤ z → z ≤ (S.subs.length : ℚ) * M + X →
      (1 + u) ^ k * z ≤ limit := by
    intro k hk z z0 hz
    have h2 := mul_le_mul (pow_mono hu hk) hz z0 (by have := one_le_pow_u hu (2 * n + S.subs.length + 4); linarith)
    refine h2.trans (le_trans ?_ hl)
    unfold rangeNeeded
    have h3 : 0 ≤ (1 + u) ^ (2 * n + S.subs.length + 4) * (S.subs.length * M + X) :=
      mul_nonneg (by have := one_le_pow_u hu (2 * n + S.subs.length + 4); linarith) hsize
    nlinarith
  obtain ⟨f, X', S1, g, Y', T1, a1, a2, a3, a4, a5, a6, a7, a8⟩ :=
    averageOpen_bound hA hu v (a v) S.subs paths _ _ _ (2 * n + 1) 0 0 0 0 0 0 hready h1
      (le_refl _) hA.zero ⟨le_refl _, by simp, by simp⟩ (le_refl _) hA.zero
      ⟨le_refl _, by simp, by simp⟩ (le_refl _) (hpow _ (by omega) _ (by linarith) (by linarith))
  obtain ⟨e1, e2⟩ := hr.extra (a v) e hext
  have hS1 := a3.size
  have hT1 := a6.size
  obtain ⟨f', b1, b2, b3⟩ := Near.add hA hu a2 e1 a3 (near_self hu _ e2)
    (hpow _ (by omega) _ (by linarith) (by linarith))
  obtain ⟨r, c1, c2, c3⟩ := Near.add hA hu b1 a5 b3 (a6.weaken hu (by omega) (le_refl _))
    (hpow _ (by omega) _ (by linarith) (by linarith))
  have hbr : b ≤ (r : Cost) := by
    rw [h9, ← c2, ← b2]
    refine A.mono ?_ a4
    refine (arrayMin_le _ _ (a v) (hj.values v hv)).trans ?_
    exact A.mono a1 (le_of_eq hext)
  refine hbr.trans ?_
  rw [hE, ← WithTop.coe_add, WithTop.coe_inj] at a8
  apply WithTop.coe_le_coe.2
  have herr := (abs_le.1 c3.err).2
  have hk : 2 * n + 1 + S.subs.length + 1 + 1 = 2 * n + S.subs.length + 3 := by omega
  have hs : S1 + X + T1 = S.subs.length * M + X := by linarith
  rw [hk, hs] at herr
  unfold sumError
  linarith

/-- Sizes are not negative. -/
theorem sizes_nonneg {S : System} {v n : Nat} {M : ℚ} {N V x : Nat}
    {paths : List (List PackedEdge)}
    (h : List.Forall₂ (Ready A.toMachine F N V n M v x) S.subs paths) :
    0 ≤ (S.subs.length : ℚ) * M := by
  generalize S.subs = ss at *
  cases h with
  | nil => simp
  | @cons s p ss paths hp _ =>
    have hM : 0 ≤ M := by
      obtain ⟨t, ht⟩ := size_of_pathCost (F := F)
        (fun e he => hp.range.member e (complete_mem hp.path e he)) hp.finite
      exact (size_nonneg ht).trans (hp.range.total p hp.path t ht)
    positivity

theorem forall₂_sum {α β : Type} {R : α → β → Prop} {f : α → Cost} {g : β → Cost}
    {l : List α} {l' : List β} (h : List.Forall₂ R l l') (hP : ∀ a b, a ∈ l → R a b → f a = g b) :
    (l.map f).sum = (l'.map g).sum := by
  induction h with
  | nil => rfl
  | @cons a b l l' h1 _ ih =>
    rw [List.map_cons, List.map_cons, List.sum_cons, List.sum_cons, hP a b (by simp) h1,
      ih fun a' b' ha' => hP a' b' (List.mem_cons_of_mem _ ha')]

/-- A step keeps the tables valid, the joint solutions and the balance of the other variables. -/
theorem step_keep {S S' : System} {v : Nat} {a : Nat → Nat} {paths : List (List PackedEdge)}
    {b : Cost} (hok : ∀ s ∈ S.subs, RSubOK A.toMachine S.numKeys S.numValues s)
    (hj : Joint S a paths) (he : Rounded.average A S v = some (S', b)) :
    (∀ s ∈ S'.subs, RSubOK A.toMachine S'.numKeys S'.numValues s) ∧ Joint S' a paths
    ∧ jointCost S' a paths = jointCost S a paths ∧ S'.numKeys = S.numKeys
    ∧ S'.subs.length = S.subs.length ∧ S'.extra = S.extra
    ∧ ∀ w D, w ≠ v → Bal S a w D → Bal S' a w D := by
  obtain ⟨rs, st, h1, h2, -, -, h5, h6, h7, h8, -⟩ := average_effect hok he
  have hclosed : ∀ s r, s ∈ S.subs → Opened A.toMachine S.numKeys S.numValues v s r →
      Closed A S.numKeys S.numValues v (fun x => A.add (st.total x) (S.extra v x)) st.weight s r
        (Rounded.averageClose A (fun x => A.add (st.total x) (S.extra v x)) st.weight r) :=
    fun s r hs hr => averageClose_spec (hok s hs).view hr _ _
  refine ⟨?_, ⟨?_, ?_⟩, ?_, h6, ?_, h5, ?_⟩
  · intro s hs
    rw [h8] at hs
    obtain ⟨s0, -, r, hc⟩ := forall₂_of_map h2 hclosed s hs
    rw [h6, h7]
    exact hc.ok
  · rw [h6, h7]; exact hj.values
  · rw [h8]
    have h3 : List.Forall₂ (fun s s' : Sub => s'.memo.dag = s.memo.dag ∧ s'.index = s.index) S.subs
        (rs.map (Rounded.averageClose A (fun x => A.add (st.total x) (S.extra v x)) st.weight)) :=
      forall₂_map_both h2 fun s r hs hr => ⟨(hclosed s r hs hr).dag, (hclosed s r hs hr).index⟩
    generalize rs.map _ = ss' at h3
    have hp := hj.paths
    clear hj hok h1 h2 hclosed h8
    generalize S.subs = ss at *
    induction h3 generalizing paths with
    | nil => cases hp; exact .nil
    | cons g1 _ ih =>
      cases hp with
      | cons p1 p2 =>
        refine .cons ?_ (ih p2)
        rw [g1.1, g1.2]
        exact p1
  · unfold jointCost; rw [h5, h6]
  · rw [h8, List.length_map]; exact h2.length_eq.symm
  · rintro w D hw ⟨q, e, b1, b2, b3⟩
    refine ⟨q, e, ?_, by rw [h5]; exact b2, b3⟩
    rw [← b1, h8]
    have h3 : List.Forall₂ (fun s s' : Sub => s'.view.charge w (a w) = s.view.charge w (a w)) S.subs
        (rs.map (Rounded.averageClose A (fun x => A.add (st.total x) (S.extra v x)) st.weight)) :=
      forall₂_map_both h2 fun s r hs hr => (hclosed s r hs hr).other w hw (a w)
    exact (forall₂_sum h3 fun s s' _ h => h.symm).symm

/-- What the range assumption gives. -/
theorem range_facts (hu : 0 ≤ u) (hη : 0 ≤ η) (hτ : 0 ≤ τ) {N n : Nat} {M X : ℚ}
    (hM : 0 ≤ (N : ℚ) * M) (hX : 0 ≤ X) (hl : rangeNeeded u η τ N n M X ≤ limit) :
    (1 + u) ^ (N + 1) * ((1 + u) ^ (2 * n + 1) * (N * M) + X) ≤ limit
    ∧ (1 + u) * ((1 + η) * ((1 + u) ^ (N + 1) * ((1 + u) ^ (2 * n + 1) * (N * M) + X))) + τ
      + ((1 + u) ^ (2 * n + 1) * (N * M) + X) ≤ limit
    ∧ (0 < N → (1 + u) ^ (2 * n) * M ≤ limit) := by
  unfold rangeNeeded at hl
  have pe : (1 + u) ^ (2 * n + N + 4)
      = (1 + u) ^ (2 * n + 1) * ((1 + u) ^ (N + 1) * (1 + u) * (1 + u)) := by
    rw [← pow_succ, ← pow_succ, ← pow_add]; congr 1; omega
  have pf : (1 + u) ^ (2 * n + 1) = (1 + u) ^ (2 * n) * (1 + u) := pow_succ _ _
  have p0 := one_le_pow_u hu (2 * n)
  have p1 := one_le_pow_u hu (2 * n + 1)
  have p2 := one_le_pow_u hu (N + 1)
  generalize (1 + u) ^ (2 * n + N + 4) = R at *
  generalize (1 + u) ^ (2 * n + 1) = P1 at *
  generalize (1 + u) ^ (2 * n) = P0 at *
  generalize (1 + u) ^ (N + 1) = P2 at *
  have hsize : 0 ≤ (N : ℚ) * M + X := by linarith
  have hB : 0 ≤ P1 * (N * M) := mul_nonneg (by linarith) hM
  have hS0 : P1 * (N * M) + X ≤ P1 * (N * M + X) := by
    have : 1 * X ≤ P1 * X := mul_le_mul_of_nonneg_right p1 hX
    linarith
  generalize hS : P1 * (N * M) + X = S0 at *
  have hS0n : 0 ≤ S0 := by rw [← hS]; linarith
  have hbase : 0 ≤ P1 * (N * M + X) := hS0n.trans hS0
  have q1 : 0 ≤ P2 * S0 := mul_nonneg (by linarith) hS0n
  have q2 : P2 * S0 ≤ (1 + u) * (P2 * S0) := le_mul_of_one_le_left q1 (by linarith)
  have q3 : S0 ≤ P2 * S0 := le_mul_of_one_le_left hS0n p2
  have q4 : (1 + u) * (P2 * S0) ≤ R * (N * M + X) := by
    have h1 : (1 + u) * (P2 * S0) ≤ (1 + u) * (P2 * (P1 * (N * M + X))) :=
      mul_le_mul_of_nonneg_left (mul_le_mul_of_nonneg_left hS0 (by linarith)) (by linarith)
    have h2 : 0 ≤ (1 + u) * (P2 * (P1 * (N * M + X))) :=
      mul_nonneg (by linarith) (mul_nonneg (by linarith) hbase)
    have h3 := le_mul_of_one_le_left h2 (show (1 : ℚ) ≤ 1 + u by linarith)
    calc _ ≤ _ := h1.trans h3
      _ = R * (N * M + X) := by rw [pe]; ring
  have q5 : (1 + η) * ((1 + u) * (P2 * S0)) ≤ (1 + η) * (R * (N * M + X)) :=
    mul_le_mul_of_nonneg_left q4 (by linarith)
  have q6 : 0 ≤ R * (N * M + X) := by linarith
  have q7 : R * (N * M + X) ≤ (1 + η) * (R * (N * M + X)) := le_mul_of_one_le_left q6 (by linarith)
  refine ⟨by linarith, by linarith, ?_⟩
  intro h0
  have hN1 : (1 : ℚ) ≤ N := by exact_mod_cast h0
  have hM' : 0 ≤ M := by
    by_contra hc
    push Not at hc
    nlinarith
  have h9 : M ≤ N * M := by nlinarith
  have h10 : P0 * M ≤ P1 * (N * M) := by
    refine mul_le_mul ?_ h9 hM' (by linarith)
    rw [pf]; exact le_mul_of_one_le_right (by linarith) (by linarith)
  linarith

/-- The balance bound in the form stated. -/
theorem imbalance_bound (hu : 0 ≤ u) (hη : 0 ≤ η) (hτ : 0 ≤ τ) {N n k : Nat} {M X : ℚ}
    (hM : 0 ≤ (N : ℚ) * M) (hX : 0 ≤ X) (hk : k ≤ N) :
    ((1 + η) * ((1 + u) ^ (N + 1) * (1 + u) ^ 2) - 1 + u) * ((1 + u) ^ (2 * n + 1) * (N * M) + X)
      + k * (τ * (1 + u)) ≤ imbalance u η τ N n M X := by
  unfold imbalance
  have p1 := one_le_pow_u hu (2 * n + 1)
  have p2 := one_le_pow_u hu (N + 3)
  have e3 : (1 + u) ^ (N + 4) = (1 + u) ^ (N + 3) * (1 + u) := pow_succ _ _
  have e4 : (1 + u) ^ (N + 1) * (1 + u) ^ 2 = (1 + u) ^ (N + 3) := by rw [← pow_add]
  rw [e3, e4]
  have hB : 0 ≤ (1 + u) ^ (2 * n + 1) * (N * M) := mul_nonneg (by linarith) hM
  generalize (1 + u) ^ (N + 3) = P at *
  have h9 : (1 + η) * P - 1 + u ≤ (1 + η) * (P * (1 + u)) - 1 := by
    have h1 : 1 ≤ (1 + η) * P := by nlinarith
    have h2 := mul_le_mul_of_nonneg_right h1 hu
    linarith
  have h10 := mul_le_mul_of_nonneg_right h9
    (show 0 ≤ (1 + u) ^ (2 * n + 1) * (N * M) + X by linarith)
  have h11 : (k : ℚ) * (τ * (1 + u)) ≤ N * (τ * (1 + u)) := by
    apply mul_le_mul_of_nonneg_right
    · exact_mod_cast hk
    · exact mul_nonneg hτ (by linarith)
  linarith

theorem abs_sum_le {l : List (ℚ × ℚ)} {N : Nat} {B : ℚ} (h : ∀ p ∈ l, |p.1| ≤ B)
    (hl : l.length ≤ N) (hB : 0 ≤ (N : ℚ) * B) : (l.map fun p => |p.1|).sum ≤ N * B := by
  have h9 : (l.map fun p => |p.1|).sum ≤ l.length * B := by
    clear hl
    induction l with
    | nil => simp
    | cons p l ih =>
      have := ih fun p' hp' => h p' (List.mem_cons_of_mem _ hp')
      have := h p (by simp)
      rw [List.map_cons, List.sum_cons, List.length_cons]
      push_cast
      linarith
  cases l with
  | nil => simpa using hB
  | cons p l =>
    have h0 : 0 ≤ B := (abs_nonneg _).trans (h p (by simp))
    refine h9.trans (mul_le_mul_of_nonneg_right ?_ h0)
    exact_mod_cast hl

/-- The sum of the new charges at a value. -/
theorem closed_sum {v x W' V' : Nat} {total : Nat → Cost} {W : ℚ} :
    ∀ {ss : List Sub} {rs : List (Sub × Option (Nat × (Nat → Cost)))},
    (∀ s ∈ ss, ViewOK W' V' s.view) → List.Forall₂ (Opened A.toMachine W' V' v) ss rs →
    ((rs.map (Rounded.averageClose A total W)).map fun s => s.view.charge v x).sum
      = ((rs.filterMap fun r => r.2.map fun q => (q.2 x, A.div r.1.weight W)).map
        fun p => Rounded.newPenalty A (total x) p.2 p.1).sum := by
  intro ss rs hok h
  induction h with
  | nil => rfl
  | @cons s r ss rs g1 _ ih =>
    have h1 := (averageClose_spec (hok s (by simp)) g1 total W).same x
    have h2 := ih fun s' hs' => hok s' (List.mem_cons_of_mem _ hs')
    rw [List.map_cons, List.map_cons, List.sum_cons, h2, h1, List.filterMap_cons]
    cases r.2 with
    | none => simp
    | some q => simp

/-- The balance of the averaged variable. -/
theorem step_balance (hA : AccurateArith A F u τ limit) (hu : 0 ≤ u) (hτ : 0 ≤ τ)
    {S S' : System} {v n : Nat} {M X J D : ℚ} {a : Nat → Nat} {paths : List (List PackedEdge)}
    {b : Cost}
    (hok : ∀ s ∈ S.subs, RSubOK A.toMachine S.numKeys S.numValues s)
    (hj : Joint S a paths) (hJ : jointCost S a paths = J)
    (hb : ∀ w < S.numKeys, Bal S a w D) (hv : v < S.numKeys) (hr : StepInRange F S v n M X)
    (hs : FairShares A S v η)
    (hl : rangeNeeded u η τ S.subs.length n M X ≤ limit)
    (he : Rounded.average A S v = some (S', b)) :
    Bal S' a v (imbalance u η τ S.subs.length n M X) := by
  have hη : 0 ≤ η := (abs_nonneg _).trans hs.total
  obtain ⟨hready, -, e, -, hext, -⟩ := joint_ready hok hj hJ hb hv hr
  obtain ⟨e1, e2⟩ := hr.extra (a v) e hext
  have hX : 0 ≤ X := (abs_nonneg _).trans e2
  have hM := sizes_nonneg hready
  obtain ⟨rs, st, -, h2, h3, h4, h5, -, -, h8, -⟩ := average_effect hok he
  obtain ⟨r1, r2, r3⟩ := range_facts hu hη hτ hM hX hl
  have p1 := one_le_pow_u hu (2 * n + 1)
  have p2 := one_le_pow_u hu (S.subs.length + 1)
  -- the min-marginals and shares
  obtain ⟨l, l1, l2, l3, l4⟩ := collected_rational hA.sums hu v (a v) st.weight S.subs paths rs
    (fun hne => r3 (List.length_pos_of_ne_nil hne)) hready h2
  have hsum := closed_sum (x := a v) (total := fun x => A.add (st.total x) (S.extra v x))
    (W := st.weight) (fun s hs => (hok s hs).view) h2
  rw [← h8, l1, List.map_map] at hsum
  have hcol : collected (a v) rs = coes (l.map Prod.fst) := by
    have : collected (a v) rs = (rs.filterMap fun r => r.2.map fun q =>
        (q.2 (a v), A.div r.1.weight st.weight)).map Prod.fst := by
      rw [← filterMap_comp]
      unfold collected
      congr 1
      funext r
      cases r.2 <;> rfl
    rw [this, l1, coes, List.map_map, List.map_map]
    rfl
  have hsh : machineShares A S v = l.map Prod.snd := by
    unfold machineShares
    rw [← h4, l4]
    rfl
  have h3' := h3 (a v)
  have himb := imbalance_bound (n := n) hu hη hτ hM hX l3
  have hB : 0 ≤ (1 + u) ^ (2 * n + 1) * (S.subs.length * M) := mul_nonneg (by linarith) hM
  have habs := abs_sum_le (fun p hp => (l2 p hp).2) l3 (by linarith)
  have hs1 : ∀ r ∈ l.map Prod.snd, 0 ≤ r := fun r hr => hs.nonneg r (by rw [hsh]; exact hr)
  have hs2 : |(l.map Prod.snd).sum - 1| ≤ η := by rw [← hsh]; exact hs.total
  clear hready h2 h3 l1 l4 hb hJ hj hok he r3 hM hr
  generalize S.subs.length = N at *
  have hlen' : (l.map Prod.fst).length = l.length := by simp
  have habs' : ((l.map Prod.fst).map abs).sum = (l.map fun p => |p.1|).sum := by
    rw [List.map_map]; rfl
  have hPN := pow_mono hu (show l.length ≤ N + 1 by omega)
  have hab0 := abs_sum_nonneg (l.map Prod.fst)
  have hle1 : ((l.map Prod.fst).map abs).sum + |e| ≤ (1 + u) ^ (2 * n + 1) * (N * M) + X := by
    rw [habs']; linarith
  have hFm : ∀ x ∈ l.map Prod.fst, F x := by
    intro x hx
    obtain ⟨p, hp, rfl⟩ := List.mem_map.1 hx
    exact (l2 p hp).1
  obtain ⟨t, t0, t1, t2, t3⟩ := sum_error hA.sums hu (l.map Prod.fst) hFm (by
    rw [hlen']
    refine le_trans (mul_le_mul hPN ?_ hab0 (by linarith)) r1
    have := abs_nonneg e
    linarith)
  rw [hlen'] at t2 t3
  obtain ⟨T, T0, T1, T2⟩ := Near.add hA.sums hu t0 e1 ⟨hab0, t2, t3⟩
    (near_self hu l.length (le_refl |e|))
    (le_trans (mul_le_mul hPN hle1 (add_nonneg hab0 (abs_nonneg e)) (by linarith)) r1)
  have T3 := T2.weaken hu (show l.length + 1 ≤ N + 1 by omega) hle1
  have hT : A.add (st.total (a v)) (S.extra v (a v)) = (T : Cost) := by
    rw [h3', hcol, t1, hext, T1]
  have T4 := T3.err
  obtain ⟨Q, Q1, Q2⟩ := balance_error hA hu hτ hη T0 p2 l
    (fun p hp => ⟨(l2 p hp).1, hs1 _ (List.mem_map.2 ⟨p, hp, rfl⟩)⟩) hs2
    T4 T3.abs (by linarith) r2
  refine ⟨Q, e, ?_, by rw [h5]; exact hext, Q2.trans himb⟩
  rw [hsum, ← Q1]
  simp only [hT]
  rfl

/-- A step keeps the DAGs. -/
theorem step_dags {S S' : System} {v : Nat} {b : Cost} {P : PackedDag → (Nat → Option Nat) → Prop}
    (hok : ∀ s ∈ S.subs, RSubOK A.toMachine S.numKeys S.numValues s)
    (he : Rounded.average A S v = some (S', b)) (h : ∀ s ∈ S.subs, P s.memo.dag s.index) :
    ∀ s ∈ S'.subs, P s.memo.dag s.index := by
  obtain ⟨rs, st, -, h2, -, -, -, -, -, h8, -⟩ := average_effect hok he
  intro s hs
  rw [h8] at hs
  obtain ⟨s0, hs0, r, hc⟩ := forall₂_of_map h2
    (fun s r hs hr => averageClose_spec (hok s hs).view hr
      (fun x => A.add (st.total x) (S.extra v x)) st.weight) s hs
  rw [hc.dag, hc.index]
  exact h s0 hs0

/-- A step keeps the shares. -/
theorem step_shares {S S' : System} {v w : Nat} {b : Cost}
    (hok : ∀ s ∈ S.subs, RSubOK A.toMachine S.numKeys S.numValues s)
    (he : Rounded.average A S v = some (S', b)) : machineShares A S' w = machineShares A S w := by
  obtain ⟨rs, st, -, h2, -, -, -, -, -, h8, -⟩ := average_effect hok he
  have h3 : List.Forall₂ (fun s s' : Sub => s'.weight = s.weight ∧ s'.index = s.index) S.subs
      S'.subs := by
    rw [h8]
    refine forall₂_map_both h2 fun s r hs hr => ?_
    have hc := averageClose_spec (hok s hs).view hr
      (fun x => A.add (st.total x) (S.extra v x)) st.weight
    exact ⟨hc.weight, hc.index⟩
  have h4 : (participants S' w).map Sub.weight = (participants S w).map Sub.weight := by
    unfold participants
    clear h2 h8 hok he
    generalize S.subs = ss, S'.subs = ss' at h3
    induction h3 with
    | nil => rfl
    | cons g _ ih =>
      rw [List.filter_cons, List.filter_cons, g.2]
      split
      · rw [List.map_cons, List.map_cons, ih, g.1]
      · exact ih
  have h5 : ∀ T : System, machineShares A T w = ((participants T w).map Sub.weight).map fun q =>
      A.div q (((participants T w).map Sub.weight).foldl
        (fun (w : ℚ) (q : ℚ) => (A.add w q).untopD 0) (0 : ℚ)) := by
    intro T
    unfold machineShares
    rw [List.foldl_map, List.map_map]
    rfl
  rw [h5, h5, h4]

theorem imbalance_nonneg (hu : 0 ≤ u) (hη : 0 ≤ η) (hτ : 0 ≤ τ) {N n : Nat} {M X : ℚ}
    (hM : 0 ≤ (N : ℚ) * M) (hX : 0 ≤ X) : 0 ≤ imbalance u η τ N n M X := by
  have h := imbalance_bound (n := n) hu hη hτ hM hX (Nat.zero_le N)
  refine le_trans ?_ h
  have p1 := one_le_pow_u hu (2 * n + 1)
  have p2 := one_le_pow_u hu (N + 3)
  have e4 : (1 + u) ^ (N + 1) * (1 + u) ^ 2 = (1 + u) ^ (N + 3) := by rw [← pow_add]
  rw [e4]
  have hB : 0 ≤ (1 + u) ^ (2 * n + 1) * (N * M) := mul_nonneg (by linarith) hM
  have h1 : 1 ≤ (1 + η) * (1 + u) ^ (N + 3) := by nlinarith
  have := mul_nonneg (show 0 ≤ (1 + η) * (1 + u) ^ (N + 3) - 1 + u by linarith)
    (show 0 ≤ (1 + u) ^ (2 * n + 1) * (N * M) + X by linarith)
  simpa using this

/-- The bounds reported by a run. -/
theorem run_bound (hA : AccurateArith A F u τ limit) (hu : 0 ≤ u) (hτ : 0 ≤ τ)
    {n : Nat} {M X J : ℚ} {a : Nat → Nat} {paths : List (List PackedEdge)} :
    ∀ (vs : List Nat) (S S' : System) (bs : List Cost),
    (∀ s ∈ S.subs, RSubOK A.toMachine S.numKeys S.numValues s) →
    Joint S a paths → jointCost S a paths = J →
    (∀ w < S.numKeys, Bal S a w (imbalance u η τ S.subs.length n M X)) →
    (∀ v ∈ vs, v < S.numKeys ∧ FairShares A S v η) → RunInRange A F n M X vs S →
    rangeNeeded u η τ S.subs.length n M X ≤ limit → averages A vs S = some (S', bs) →
    ∀ b ∈ bs, b ≤ ((J + (S.numKeys - 1) * imbalance u η τ S.subs.length n M X
      + sumError u S.subs.length n M X : ℚ) : Cost) := by
  intro vs
  induction vs with
  | nil =>
    intro S S' bs _ _ _ _ _ _ _ he
    simp only [averages, Option.some.injEq, Prod.mk.injEq] at he
    rw [← he.2]
    simp
  | cons v vs ih =>
    intro S S' bs hok hj hJ hb hvs hr hl he
    obtain ⟨hv, hs⟩ := hvs v (by simp)
    have hη : 0 ≤ η := (abs_nonneg _).trans hs.total
    obtain ⟨hready, -, e, -, hext, -⟩ := joint_ready hok hj hJ hb hv hr.1
    have hX : 0 ≤ X := (abs_nonneg _).trans (hr.1.extra (a v) e hext).2
    have hM := sizes_nonneg hready
    unfold averages at he
    cases h1 : Rounded.average A S v with
    | none => rw [h1] at he; cases he
    | some r =>
      obtain ⟨S1, b1⟩ := r
      rw [h1, Option.bind_some] at he
      dsimp only at he
      cases h2 : averages A vs S1 with
      | none => rw [h2] at he; cases he
      | some r' =>
        obtain ⟨S2, bs'⟩ := r'
        rw [h2] at he
        simp only [Option.map_some, Option.some.injEq, Prod.mk.injEq] at he
        obtain ⟨k1, k2, k3, k4, k5, k6, k7⟩ := step_keep hok hj h1
        intro b hbm
        rw [← he.2] at hbm
        rcases List.mem_cons.1 hbm with rfl | hbm
        · exact step_bound hA.sums hu hη hτ hok hj hJ hb hv hr.1 hM hX hl h1
        · have h3 := ih S1 S2 bs' k1 k2 (k3.trans hJ) (by
            intro w hw
            rw [k4] at hw
            rw [k5]
            by_cases hwv : w = v
            · rw [hwv]
              exact step_balance hA hu hτ hok hj hJ hb hv hr.1 hs hl h1
            · exact k7 w _ hwv (hb w hw)) (by
            intro w hw
            obtain ⟨g1, g2⟩ := hvs w (List.mem_cons_of_mem _ hw)
            have hsh := step_shares (w := w) hok h1
            refine ⟨by rw [k4]; exact g1, ?_, ?_⟩
            · rw [hsh]; exact g2.nonneg
            · rw [hsh]; exact g2.total) (hr.2 _ h1) (by rw [k5]; exact hl) h2 b hbm
          rw [k4, k5] at h3
          exact h3

/-- The bounds reported by a run from a system in balance. -/
theorem run_bound_start (hA : AccurateArith A F u τ limit) (hu : 0 ≤ u) (hτ : 0 ≤ τ)
    {n : Nat} {M X J : ℚ} {a : Nat → Nat} {paths : List (List PackedEdge)}
    {vs : List Nat} {S S' : System} {bs : List Cost}
    (hok : ∀ s ∈ S.subs, RSubOK A.toMachine S.numKeys S.numValues s)
    (hj : Joint S a paths) (hJ : jointCost S a paths = J)
    (hb : ∀ w < S.numKeys, Bal S a w 0)
    (hvs : ∀ v ∈ vs, v < S.numKeys ∧ FairShares A S v η) (hr : RunInRange A F n M X vs S)
    (hl : rangeNeeded u η τ S.subs.length n M X ≤ limit) (he : averages A vs S = some (S', bs)) :
    ∀ b ∈ bs, b ≤ ((J + (S.numKeys - 1) * imbalance u η τ S.subs.length n M X
      + sumError u S.subs.length n M X : ℚ) : Cost) := by
  cases vs with
  | nil =>
    simp only [averages, Option.some.injEq, Prod.mk.injEq] at he
    rw [← he.2]
    simp
  | cons v vs =>
    refine run_bound hA hu hτ _ S S' bs hok hj hJ ?_ hvs hr hl he
    intro w hw
    obtain ⟨q, e, b1, b2, b3⟩ := hb w hw
    obtain ⟨hv, hs⟩ := hvs v (by simp)
    have hη : 0 ≤ η := (abs_nonneg _).trans hs.total
    obtain ⟨hready, -, e', -, hext, -⟩ := joint_ready hok hj hJ hb hv hr.1
    have hX : 0 ≤ X := (abs_nonneg _).trans (hr.1.extra (a v) e' hext).2
    exact ⟨q, e, b1, b2, b3.trans (imbalance_nonneg hu hη hτ (sizes_nonneg hready) hX)⟩

end RUSure.Lemmas.Rnd
