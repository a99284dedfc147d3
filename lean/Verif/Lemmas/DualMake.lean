import Verif.Lemmas.DualSolve
import Verif.Lemmas.ConvertTables

/-!
# Building systems, and the systems reachable from them
-/

namespace RUSure.Lemmas
open RUSure RUSure.Spec

section make
variable {K V : Type} [LinearOrder K] [DecidableEq V]

omit [DecidableEq V] in
theorem mem_systemKeys {dags : List (PackedDag × List K × List V)} {k : K} :
    k ∈ systemKeys dags ↔ ∃ d ∈ dags, k ∈ d.2.1 := by
  unfold systemKeys
  rw [List.mem_mergeSort, mem_firstSeen]
  simp

omit [DecidableEq V] in
theorem systemKeys_nodup (dags : List (PackedDag × List K × List V)) : (systemKeys dags).Nodup :=
  (List.mergeSort_perm _ _).nodup_iff.2 (firstSeen_nodup _ _)

omit [DecidableEq V] in
theorem systemKeys_sorted (dags : List (PackedDag × List K × List V)) :
    (systemKeys dags).Pairwise (· < ·) := by
  have h1 : (systemKeys dags).Pairwise (fun a b => decide (a ≤ b) = true) := by
    apply List.pairwise_mergeSort
    · intro a b c h1 h2
      simp only [decide_eq_true_eq] at *
      exact h1.trans h2
    · intro a b
      simp only [Bool.or_eq_true, decide_eq_true_eq]
      exact le_total a b
  refine List.Pairwise.imp₂ ?_ h1 (systemKeys_nodup dags)
  intro a b h2 h3
  exact lt_of_le_of_ne (by simpa using h2) h3

theorem indexColumn_iff {keys dagKeys : List K} (hd : dagKeys.Nodup) {v k : Nat} :
    indexColumn keys dagKeys v = some k ↔ ∃ key, keys[v]? = some key ∧ dagKeys[k]? = some key := by
  unfold indexColumn
  rw [Option.bind_eq_some_iff]
  constructor
  · rintro ⟨key, h1, h2⟩; exact ⟨key, h1, dictIndex_get h2⟩
  · rintro ⟨key, h1, h2⟩; exact ⟨key, h1, dictIndex_of_get hd h2⟩

theorem makeSystem_ok {invalid : Cost} {dags : List (PackedDag × List K × List V)}
    {weights : Option (List ℚ)} {D : DualSystem K V} (h : makeSystem invalid dags weights = .ok D) :
    D.keys = systemKeys dags ∧ (∀ d ∈ dags, d.2.2 = D.values) ∧ dags ≠ []
    ∧ D.data.numKeys = D.keys.length ∧ D.data.numValues = D.values.length
    ∧ D.data.extra = (fun _ _ => 0)
    ∧ D.data.subs = dags.zipIdx.map (fun x =>
        ⟨emptyUnpenalizedTable invalid x.1.1, indexColumn (systemKeys dags) x.1.2.1,
          subWeight weights x.2⟩) := by
  unfold makeSystem at h
  cases dags with
  | nil => simp at h
  | cons d ds =>
    simp only at h
    split at h
    · cases h
    · rename_i hany
      simp only [Except.ok.injEq] at h
      subst h
      refine ⟨rfl, ?_, by simp, rfl, rfl, rfl, rfl⟩
      intro d' hd'
      rcases List.mem_cons.1 hd' with rfl | hd'
      · rfl
      · simp only [List.any_eq_true, decide_eq_true_eq, not_exists, not_and, not_not] at hany
        exact hany d' hd'

theorem makeSystem_inv {invalid : Cost} {dags : List (PackedDag × List K × List V)}
    {weights : Option (List ℚ)} {D : DualSystem K V} (h : makeSystem invalid dags weights = .ok D)
    (hd : ∀ d ∈ dags, GoodDag d) (hw : GoodWeights dags.length weights) : SysInv D.data := by
  obtain ⟨h1, h2, h3, h4, h5, h6, h7⟩ := makeSystem_ok h
  have hsub : ∀ s ∈ D.data.subs, SubOK D.data.numKeys D.data.numValues s ∧ s.memo.pen = fun _ _ => 0 := by
    intro s hs
    rw [h7] at hs
    obtain ⟨⟨d, i⟩, hx, rfl⟩ := List.mem_map.1 hs
    have hmem : d ∈ dags := List.fst_mem_of_mem_zipIdx hx
    have hg := hd d hmem
    have hi : i < dags.length := by
      have := List.snd_lt_of_mem_zipIdx hx
      simpa using this
    refine ⟨⟨emptyTable_inv hg.wf _ _, ?_⟩, rfl⟩
    constructor
    · exact hg.wf
    · change d.1.numValues = _
      rw [h5, ← h2 d hmem, hg.values_length]
    · intro v k hk
      obtain ⟨key, hk1, hk2⟩ := (indexColumn_iff hg.keys_nodup).1 hk
      refine ⟨?_, ?_⟩
      · rw [h4, h1]
        exact (List.getElem?_eq_some_iff.1 hk1).1
      · change k < d.1.numKeys
        rw [← hg.keys_length]
        exact (List.getElem?_eq_some_iff.1 hk2).1
    · intro v u k hv hu
      obtain ⟨key, hk1, hk2⟩ := (indexColumn_iff hg.keys_nodup).1 hv
      obtain ⟨key', hk1', hk2'⟩ := (indexColumn_iff hg.keys_nodup).1 hu
      rw [hk2] at hk2'
      simp only [Option.some.injEq] at hk2'
      subst hk2'
      exact (List.getElem?_inj (List.getElem?_eq_some_iff.1 hk1).1 (systemKeys_nodup dags)).1
        (hk1.trans hk1'.symm)
    · intro k hk
      change k < d.1.numKeys at hk
      rw [← hg.keys_length] at hk
      have hkm : d.2.1[k] ∈ systemKeys dags := mem_systemKeys.2 ⟨d, hmem, by simp⟩
      obtain ⟨v, hv⟩ := List.getElem?_of_mem hkm
      exact ⟨v, (indexColumn_iff hg.keys_nodup).2 ⟨_, hv, by simp [hk]⟩⟩
    · change 0 < subWeight weights i
      cases weights with
      | none => simp [subWeight]
      | some w =>
        obtain ⟨hl, hp⟩ := hw w rfl
        simp only [subWeight]
        rw [List.getD_eq_getElem?_getD, List.getElem?_eq_getElem (by omega)]
        exact hp _ (by simp)
  refine ⟨fun s hs => (hsub s hs).1, ?_, ?_, ?_⟩
  · intro w hw
    obtain ⟨s, hs, rfl⟩ := List.mem_map.1 hw
    exact (hsub s hs).1.view
  · intro v hv
    rw [h4, h1] at hv
    have hkm : (systemKeys dags)[v] ∈ systemKeys dags := by simp
    obtain ⟨d, hd1, hd2⟩ := mem_systemKeys.1 hkm
    obtain ⟨k, hk⟩ := List.getElem?_of_mem hd2
    obtain ⟨i, hi⟩ := List.getElem?_of_mem hd1
    have hx : (d, i) ∈ dags.zipIdx := by
      rw [List.mem_zipIdx_iff_getElem?]; exact hi
    refine ⟨_, List.mem_map.2 ⟨_, by rw [h7]; exact List.mem_map.2 ⟨(d, i), hx, rfl⟩, rfl⟩, k, ?_⟩
    change indexColumn (systemKeys dags) d.2.1 v = some k
    rw [indexColumn_iff (hd d hd1).keys_nodup]
    exact ⟨_, by simp [hv], hk⟩
  · intro v hv x hx
    left
    rw [h6]
    apply List.sum_eq_zero
    intro c hc
    obtain ⟨w, hw, rfl⟩ := List.mem_map.1 hc
    obtain ⟨s, hs, rfl⟩ := List.mem_map.1 hw
    have hp := (hsub s hs).2
    unfold View.charge
    cases s.view.index v with
    | none => rfl
    | some k =>
      change s.memo.pen k x = 0
      rw [hp]

end make

/-! ### reachable systems -/

section reach
variable {K V : Type} [DecidableEq K] [DecidableEq V]

/-- The invariant of systems with their keys. -/
structure DInv (D : DualSystem K V) : Prop where
  sys : SysInv D.data
  keys : D.keys.length = D.data.numKeys
  values : D.values.length = D.data.numValues

theorem constrain_inv {penalty : Cost} : ∀ (cs : List (K × V)) (D D' : DualSystem K V), DInv D →
    DualSystem.constrain penalty cs D = some D' → DInv D' := by
  intro cs
  induction cs with
  | nil =>
    intro D D' h he
    simp only [DualSystem.constrain, Option.some.injEq] at he
    exact he ▸ h
  | cons c cs ih =>
    intro D D' h he
    unfold DualSystem.constrain at he
    split at he
    · rename_i v i hv hi
      refine ih _ _ ?_ he
      have hlt : v < D.data.numKeys := by rw [← h.keys]; exact dictIndex_lt hv
      exact ⟨(h.sys.addUnary hlt _).1, h.keys, h.values⟩
    · cases he

theorem breakSymmetry_inv {S : System} (h : SysInv S) (noise : Nat → Nat → ℚ) :
    SysInv (S.breakSymmetry noise) ∧ (S.breakSymmetry noise).numKeys = S.numKeys
      ∧ (S.breakSymmetry noise).numValues = S.numValues := by
  unfold System.breakSymmetry
  have : ∀ (vs : List Nat) (T : System), SysInv T → (∀ v ∈ vs, v < T.numKeys) →
      SysInv (vs.foldl (fun S v => S.addUnary v (fun x => (noise v x : Cost))) T)
      ∧ (vs.foldl (fun S v => S.addUnary v (fun x => (noise v x : Cost))) T).numKeys = T.numKeys
      ∧ (vs.foldl (fun S v => S.addUnary v (fun x => (noise v x : Cost))) T).numValues
        = T.numValues := by
    intro vs
    induction vs with
    | nil => intro T hT _; exact ⟨hT, rfl, rfl⟩
    | cons v vs ih =>
      intro T hT hvs
      have h1 := (hT.addUnary (hvs v (by simp)) (fun x => (noise v x : Cost))).1
      exact ih _ h1 (fun u hu => hvs u (List.mem_cons_of_mem _ hu))
  exact this _ S h (by simp)

/-- Two systems with the same subproblems, in which the second has forbidden some values. -/
structure Tightened (S S' : System) : Prop where
  keys : S'.numKeys = S.numKeys
  values : S'.numValues = S.numValues
  dags : (views S').map (fun w => (w.dag, w.index)) = (views S).map fun w => (w.dag, w.index)
  extra : ∀ v x, S'.extra v x = S.extra v x ∨ S'.extra v x = ⊤

theorem Tightened.refl (S : System) : Tightened S S := ⟨rfl, rfl, rfl, fun _ _ => .inl rfl⟩

theorem Tightened.trans {S S' S'' : System} (h : Tightened S S') (h' : Tightened S' S'') :
    Tightened S S'' := by
  refine ⟨h'.keys.trans h.keys, h'.values.trans h.values, h'.dags.trans h.dags, ?_⟩
  intro v x
  rcases h'.extra v x with h1 | h1
  · rw [h1]; exact h.extra v x
  · exact .inr h1

theorem SameProblem.tightened {S S' : System} (h : SameProblem S S') : Tightened S S' :=
  ⟨h.keys, h.values, h.dags, fun _ _ => .inl (by rw [h.extra])⟩

theorem Tightened.joint {S S' : System} (h : Tightened S S') {a : Nat → Nat}
    {paths : List (List PackedEdge)} : Joint S' a paths ↔ Joint S a paths := by
  rw [joint_iff, joint_iff, h.keys, h.values]
  exact ⟨vjoint_same h.dags.symm, vjoint_same h.dags⟩

theorem Tightened.cost_le {S S' : System} (h : Tightened S S') (a : Nat → Nat)
    (paths : List (List PackedEdge)) : jointCost S a paths ≤ jointCost S' a paths := by
  unfold jointCost
  rw [h.keys]
  refine add_le_add (le_refl _) (List.sum_le_sum ?_)
  intro v _
  rcases h.extra v (a v) with h1 | h1
  · rw [h1]
  · rw [h1]; exact le_top

theorem forbid_tightened {S : System} (h : SysInv S) {v : Nat} (hv : v < S.numKeys) (bad : Nat → Bool) :
    Tightened S (S.forbid v bad) := by
  obtain ⟨-, h2⟩ := h.forbid hv bad
  refine ⟨rfl, rfl, by rw [h2]; exact update_same _ _ _, ?_⟩
  intro u x
  simp only [System.forbid]
  split
  · exact .inr rfl
  · exact .inl rfl

theorem forbid_cost {S : System} {v : Nat} {bad : Nat → Bool} {a : Nat → Nat}
    (hb : bad (a v) = false) (paths : List (List PackedEdge)) :
    jointCost (S.forbid v bad) a paths = jointCost S a paths := by
  unfold jointCost System.forbid
  congr 2
  apply List.map_congr_left
  intro u _
  by_cases hu : u = v
  · subst hu; simp [hb]
  · simp [hu]

theorem collectMarginals_spec : ∀ (vs : List Nat) (S : System) (agg : Nat → Nat → Cost) (S' : System)
    (agg' : Nat → Nat → Cost), SysInv S → collectMarginals vs S agg = some (S', agg') →
    SysInv S' ∧ SameProblem S S' ∧ views S' = views S
      ∧ ∀ v, agg' v = agg v ∨ ∀ x, agg' v x = ((views S).map fun w => w.marg v x).sum := by
  intro vs
  induction vs with
  | nil =>
    intro S agg S' agg' h he
    simp only [collectMarginals, Option.some.injEq, Prod.mk.injEq] at he
    obtain ⟨rfl, rfl⟩ := he
    exact ⟨h, .refl _, rfl, fun _ => .inl rfl⟩
  | cons v vs ih =>
    intro S agg S' agg' h he
    unfold collectMarginals at he
    cases hm : S.minMarginals v with
    | none => rw [hm] at he; cases he
    | some r =>
      obtain ⟨S1, mm⟩ := r
      rw [hm] at he
      obtain ⟨i1, i2, -, -, -, i3⟩ := h.minMarginals hm
      obtain ⟨j1, j2, j3, j4⟩ := ih _ _ _ _ i1 he
      refine ⟨j1, (minMarginals_same h hm).trans j2, j3.trans i2, ?_⟩
      intro u
      rcases j4 u with h' | h'
      · by_cases hu : u = v
        · subst hu
          right
          intro x
          rw [h']
          simp only [↓reduceIte]
          exact i3 x
        · left
          rw [h']
          simp [hu]
      · right
        intro x
        rw [h' x, i2]

theorem collectMarginals_all : ∀ (vs : List Nat) (S : System) (agg : Nat → Nat → Cost) (S' : System)
    (agg' : Nat → Nat → Cost), SysInv S → collectMarginals vs S agg = some (S', agg') →
    ∀ v ∈ vs, ∀ x, agg' v x = ((views S).map fun w => w.marg v x).sum := by
  intro vs
  induction vs with
  | nil => intro S agg S' agg' _ _ v hv; simp at hv
  | cons v vs ih =>
    intro S agg S' agg' h he u hu x
    unfold collectMarginals at he
    cases hm : S.minMarginals v with
    | none => rw [hm] at he; cases he
    | some r =>
      obtain ⟨S1, mm⟩ := r
      rw [hm] at he
      obtain ⟨i1, i2, -, -, -, i3⟩ := h.minMarginals hm
      by_cases huv : u ∈ vs
      · rw [ih _ _ _ _ i1 he u huv x, i2]
      · have : u = v := by simpa [huv] using hu
        subst this
        obtain ⟨-, -, -, j4⟩ := collectMarginals_spec _ _ _ _ _ i1 he
        rcases j4 u with h' | h'
        · rw [h']
          simp only [↓reduceIte]
          exact i3 x
        · rw [h' x, i2]

theorem commitLoop_spec {gap : Cost} : ∀ (vs : List Nat) (S : System) (bound : Cost) (count : Nat)
    (S' : System) (bound' : Cost) (count' : Nat), SysInv S → (∀ v ∈ vs, v < S.numKeys) →
    commitLoop gap vs S bound count = some (S', bound', count') →
    SysInv S' ∧ Tightened S S' ∧ bound ≤ bound' ∧ count ≤ count'
      ∧ (0 ≤ gap → ∀ a paths, Joint S a paths → jointCost S a paths ≤ bound + gap →
          jointCost S' a paths = jointCost S a paths)
      ∧ (count' = 0 → ∀ a paths, Joint S a paths → jointCost S a paths < ⊤ →
          jointCost S' a paths = jointCost S a paths) := by
  intro vs
  induction vs with
  | nil =>
    intro S bound count S' bound' count' h _ he
    simp only [commitLoop, Option.some.injEq, Prod.mk.injEq] at he
    obtain ⟨rfl, rfl, rfl⟩ := he
    exact ⟨h, .refl _, le_refl _, le_refl _, fun _ _ _ _ _ => rfl, fun _ _ _ _ _ => rfl⟩
  | cons v vs ih =>
    intro S bound count S' bound' count' h hvs he
    have hv := hvs v (by simp)
    unfold commitLoop at he
    cases hm : S.minMarginals v with
    | none => rw [hm] at he; cases he
    | some r =>
      obtain ⟨S1, mm⟩ := r
      rw [hm] at he
      simp only at he
      obtain ⟨i1, i2, i3, i4, i5, i6⟩ := h.minMarginals hm
      have hsame := minMarginals_same h hm
      generalize hb : (if bound < arrayMin S.numValues mm then arrayMin S.numValues mm else bound) = b
        at he
      have hbb : bound ≤ b := by
        rw [← hb]; split
        · rename_i hlt; exact hlt.le
        · exact le_refl _
      generalize hbad : (fun x => decide (b + gap < mm x)) = bad at he
      have hv1 : v < S1.numKeys := by rw [i4]; exact hv
      obtain ⟨j1, -⟩ := i1.forbid hv1 bad
      have ht := forbid_tightened i1 hv1 bad
      obtain ⟨k1, k2, k3, k4, k5, k6⟩ := ih _ _ _ _ _ _ j1 (by
        intro u hu
        change u < S1.numKeys
        rw [i4]; exact hvs u (List.mem_cons_of_mem _ hu)) he
      have hmm : ∀ a paths, Joint S a paths → mm (a v) ≤ jointCost S a paths := by
        intro a paths hj
        rw [i6, jointCost_eq]
        exact h.inv.marg_le ((joint_iff _ _ _).1 hj) v
      have hstep : ∀ a paths, Joint S a paths → bad (a v) = false →
          Joint (S1.forbid v bad) a paths ∧
          jointCost (S1.forbid v bad) a paths = jointCost S a paths := by
        intro a paths hj hnb
        refine ⟨ht.joint.2 (hsame.joint.2 hj), ?_⟩
        rw [forbid_cost hnb, hsame.cost]
      refine ⟨k1, hsame.tightened.trans (ht.trans k2), hbb.trans k3, by omega, ?_, ?_⟩
      · intro hgap a paths hj hle
        have hnb : bad (a v) = false := by
          rw [← hbad]
          simp only [decide_eq_false_iff_not, not_lt]
          exact ((hmm a paths hj).trans hle).trans (add_le_add hbb (le_refl _))
        obtain ⟨h1, h2⟩ := hstep a paths hj hnb
        rw [k5 hgap a paths h1 (by rw [h2]; exact hle.trans (add_le_add hbb (le_refl _))), h2]
      · intro hc a paths hj hlt
        have hc' : count = 0 ∧ ((List.range S.numValues).filter fun x =>
            decide (b + gap < mm x) && decide (mm x < ⊤)).length = 0 := by omega
        have hnb : bad (a v) = false := by
          by_contra hbt
          have hbt : bad (a v) = true := by simpa using hbt
          rw [← hbad] at hbt
          have hin : a v ∈ (List.range S.numValues).filter fun x =>
              decide (b + gap < mm x) && decide (mm x < ⊤) := by
            simp only [List.mem_filter, List.mem_range, Bool.and_eq_true, decide_eq_true_eq] at hbt ⊢
            exact ⟨hj.values v hv, hbt, lt_of_le_of_lt (hmm a paths hj) hlt⟩
          rw [List.length_eq_zero_iff.1 hc'.2] at hin
          simp at hin
        obtain ⟨h1, h2⟩ := hstep a paths hj hnb
        rw [k6 hc a paths h1 (by rw [h2]; exact hlt), h2]

theorem foldl_max_le {l : List Cost} {b : Cost} : b ≤ l.foldl max b := by
  induction l generalizing b with
  | nil => exact le_refl _
  | cons a l ih => exact (le_max_left b a).trans ih

theorem marg_ge_cost {S : System} (h : SysInv S) (v x : Nat) :
    dualValue S ≤ ((views S).map fun w => w.marg v x).sum := by
  rw [dualValue_eq h]
  apply List.sum_le_sum
  intro w hw
  unfold View.marg
  cases hk : w.index v with
  | none => exact le_refl _
  | some k =>
    have hok := h.inv.ok w hw
    exact costOf_le_margOf hok.wf w.pen (hok.lt v k hk).2 x

theorem commit_spec {S S' : System} (h : SysInv S) {dir : Direction}
    {quantile : (Nat → Nat → Cost) → Quantile} {strictness epsilon : ℚ} {status : CommitStatus}
    (he : S.partiallyCommit dir quantile strictness epsilon = some (S', status)) :
    SysInv S' ∧ Tightened S S'
      ∧ (0 ≤ strictness → ∀ a paths, Joint S a paths → jointCost S a paths ≤ dualValue S →
          jointCost S' a paths = jointCost S a paths)
      ∧ (status ≠ .madePartialAssignment → ∀ a paths, Joint S a paths → jointCost S a paths < ⊤ →
          jointCost S' a paths = jointCost S a paths) := by
  unfold System.partiallyCommit at he
  split at he
  · cases he
  · rename_i hN
    cases hcm : collectMarginals (dir.order S.numKeys) S (fun _ _ => 0) with
    | none => rw [hcm] at he; cases he
    | some r =>
      obtain ⟨S1, agg⟩ := r
      rw [hcm] at he
      dsimp only at he
      obtain ⟨i1, i2, i3, -⟩ := collectMarginals_spec _ _ _ _ _ h hcm
      have hall := collectMarginals_all _ _ _ _ _ h hcm
      -- the bound is at least the dual value
      have hbound : dualValue S ≤ ((List.range S.numKeys).map fun v =>
          arrayMin S.numValues (agg v)).foldl max
          (((List.range S.numKeys).map fun v => arrayMin S.numValues (agg v)).headD 0) := by
        obtain ⟨n, hn⟩ : ∃ n, S.numKeys = n + 1 := ⟨S.numKeys - 1, by omega⟩
        refine le_trans ?_ foldl_max_le
        rw [hn, List.range_succ_eq_map]
        simp only [List.map_cons, List.headD_cons]
        apply le_arrayMin
        intro x hx
        rw [hall 0 (by rw [mem_order]; omega) x]
        exact marg_ge_cost h 0 x
      generalize ((List.range S.numKeys).map fun v => arrayMin S.numValues (agg v)).foldl max
          (((List.range S.numKeys).map fun v => arrayMin S.numValues (agg v)).headD 0) = bound
        at he hbound
      have same : ∀ {st : CommitStatus}, S1 = S' → st = status →
          SysInv S' ∧ Tightened S S'
          ∧ (0 ≤ strictness → ∀ a paths, Joint S a paths → jointCost S a paths ≤ dualValue S →
              jointCost S' a paths = jointCost S a paths)
          ∧ (status ≠ .madePartialAssignment → ∀ a paths, Joint S a paths →
              jointCost S a paths < ⊤ → jointCost S' a paths = jointCost S a paths) := by
        rintro st rfl -
        exact ⟨i1, i2.tightened, fun _ a paths _ _ => i2.cost a paths,
          fun _ a paths _ _ => i2.cost a paths⟩
      have commit : ∀ gap : ℚ, 0 ≤ gap →
          (commitLoop ((gap * strictness : ℚ) : Cost) (dir.order S.numKeys) S1 bound 0).map
            (fun r => (r.1, if r.2.2 = 0 then CommitStatus.stuck
              else CommitStatus.madePartialAssignment)) = some (S', status) →
          SysInv S' ∧ Tightened S S'
          ∧ (0 ≤ strictness → ∀ a paths, Joint S a paths → jointCost S a paths ≤ dualValue S →
              jointCost S' a paths = jointCost S a paths)
          ∧ (status ≠ .madePartialAssignment → ∀ a paths, Joint S a paths →
              jointCost S a paths < ⊤ → jointCost S' a paths = jointCost S a paths) := by
        intro gap hgap hc
        rw [Option.map_eq_some_iff] at hc
        obtain ⟨⟨S2, b, cnt⟩, hc1, hc2⟩ := hc
        simp only [Prod.mk.injEq] at hc2
        obtain ⟨rfl, hstat⟩ := hc2
        obtain ⟨k1, k2, k3, k4, k5, k6⟩ := commitLoop_spec _ _ _ _ _ _ _ i1 (by
          intro v hv
          rw [i2.keys]
          exact (mem_order dir).1 hv) hc1
        refine ⟨k1, i2.tightened.trans k2, ?_, ?_⟩
        · intro hs a paths hj hle
          have hg : (0 : Cost) ≤ ((gap * strictness : ℚ) : Cost) := by
            exact_mod_cast mul_nonneg hgap hs
          rw [k5 hg a paths (i2.joint.2 hj), i2.cost]
          rw [i2.cost]
          refine hle.trans (hbound.trans ?_)
          calc bound = bound + 0 := (add_zero _).symm
            _ ≤ _ := add_le_add (le_refl _) hg
        · intro hne a paths hj hlt
          have hcnt : cnt = 0 := by
            by_contra hcn
            rw [if_neg hcn] at hstat
            exact hne hstat.symm
          rw [k6 hcnt a paths (i2.joint.2 hj) (by rw [i2.cost]; exact hlt), i2.cost]
      split at he
      · simp only [Option.some.injEq, Prod.mk.injEq] at he
        exact same he.1 he.2
      · exact commit 0 (le_refl _) he
      · split at he
        · simp only [Option.some.injEq, Prod.mk.injEq] at he
          exact same he.1 he.2
        · exact commit _ (le_max_left _ _) he

theorem solve_inv {S : System} (h : SysInv S) {tol : ℚ} {late : Nat → Bool} {fuel : Nat}
    {st : SweepState} (he : S.solve tol late fuel = .ok st) :
    SweepInv S st ∧ SweepLog st ∧ st.objectiveAtSweep ≠ [] ∧
      st.objectiveAtSweep.getLast? = some st.last :=
  solveLoop_inv fuel _ _ (start_inv h) (start_log S) he

theorem reach_inv {D D' : DualSystem K V} (h : DInv D) (hr : SystemReach D D') : DInv D' := by
  induction hr with
  | start => exact h
  | average _ hv he ih =>
    obtain ⟨h1, h2, h3, h4, -⟩ := ih.sys.average hv he
    exact ⟨h1, by rw [ih.keys, h3], by rw [ih.values, h4]⟩
  | minMarginals _ hv he ih =>
    obtain ⟨h1, -, -, h3, h4, -⟩ := ih.sys.minMarginals he
    exact ⟨h1, by rw [ih.keys, h3], by rw [ih.values, h4]⟩
  | solve _ he ih =>
    obtain ⟨h1, -⟩ := solve_inv ih.sys he
    exact ⟨h1.inv, by rw [ih.keys, h1.same.keys], by rw [ih.values, h1.same.values]⟩
  | constrain _ he ih => exact constrain_inv _ _ _ ih he
  | breakSymmetry _ ih =>
    rename_i noise _
    obtain ⟨h1, h2, h3⟩ := breakSymmetry_inv ih.sys noise
    exact ⟨h1, by rw [ih.keys, h2], by rw [ih.values, h3]⟩
  | partiallyCommit _ he ih =>
    obtain ⟨h1, h2, -⟩ := commit_spec ih.sys he
    exact ⟨h1, by rw [ih.keys, h2.keys], by rw [ih.values, h2.values]⟩

/-! ### more about joint solutions -/

theorem joint_congr {S : System} (h : SysInv S) {b b' : Nat → Nat} {paths : List (List PackedEdge)}
    (hbb : ∀ u < S.numKeys, b u = b' u) (hj : Joint S b paths) : Joint S b' paths := by
  have hlt : ∀ s ∈ S.subs, ∀ u k, s.index u = some k → u < S.numKeys :=
    fun s hs u k hk => ((h.subs s hs).view.lt u k hk).1
  refine ⟨fun u hu => by rw [← hbb u hu]; exact hj.values u hu, ?_⟩
  have hf := hj.paths
  clear hj
  generalize S.subs = ss at hf hlt
  induction hf with
  | nil => exact .nil
  | @cons s p ss ps h1 _ ih =>
    refine .cons ⟨h1.1, ?_⟩ (ih fun s' hs' => hlt s' (List.mem_cons_of_mem _ hs'))
    intro u k x hk hx
    rw [← hbb u (hlt s (by simp) u k hk)]
    exact h1.2 u k x hk hx

theorem jointCost_congr {S : System} {b b' : Nat → Nat} (hbb : ∀ u < S.numKeys, b u = b' u)
    (paths : List (List PackedEdge)) : jointCost S b paths = jointCost S b' paths := by
  unfold jointCost
  congr 2
  apply List.map_congr_left
  intro u hu
  rw [hbb u (by simpa using hu)]

theorem addUnary_same {S : System} (h : SysInv S) {v : Nat} (hv : v < S.numKeys) (p : Nat → Cost) :
    (views (S.addUnary v p)).map (fun w => (w.dag, w.index))
      = (views S).map fun w => (w.dag, w.index) := by
  rw [(h.addUnary hv p).2]
  exact update_same _ _ _

theorem sum_single {n v : Nat} (hv : v < n) (f : Nat → Cost) (c : Cost) :
    ((List.range n).map fun u => if u = v then f u + c else f u).sum
      = ((List.range n).map f).sum + c := by
  have h1 : (List.range n).map (fun u => if u = v then f u + c else f u)
      = (List.range n).map fun u => f u + if u = v then c else 0 := by
    apply List.map_congr_left
    intro u _
    by_cases h : u = v <;> simp [h]
  rw [h1, List.sum_map_add]
  congr 1
  induction n with
  | zero => omega
  | succ n ih =>
    rw [List.range_succ, List.map_append, List.sum_append]
    by_cases hvn : v = n
    · subst hvn
      have : ((List.range v).map fun u => if u = v then c else 0).sum = 0 := by
        apply List.sum_eq_zero
        intro x hx
        obtain ⟨u, hu, rfl⟩ := List.mem_map.1 hx
        rw [if_neg (by simp at hu; omega)]
      rw [this]
      simp
    · have h2 := ih (by omega) (by
        apply List.map_congr_left
        intro u _
        by_cases h : u = v <;> simp [h])
      rw [h2]
      have : ¬ n = v := fun h => hvn h.symm
      simp [this]

theorem addUnary_cost {S : System} {v : Nat} (hv : v < S.numKeys) (p : Nat → Cost) (a : Nat → Nat)
    (paths : List (List PackedEdge)) :
    jointCost (S.addUnary v p) a paths = jointCost S a paths + p (a v) := by
  unfold jointCost
  change _ + ((List.range S.numKeys).map fun u =>
    if u = v then S.extra u (a u) + p (a u) else S.extra u (a u)).sum = _
  rw [add_assoc]
  congr 1
  rw [← sum_single hv (fun u => S.extra u (a u)) (p (a v))]
  congr 1
  apply List.map_congr_left
  intro u _
  by_cases h : u = v
  · subst h; simp
  · simp [h]

theorem reach_same {D D' : DualSystem K V} (h : DInv D) (hr : SystemReach D D') :
    D'.keys = D.keys ∧ D'.values = D.values ∧ D'.data.numKeys = D.data.numKeys
    ∧ D'.data.numValues = D.data.numValues
    ∧ (views D'.data).map (fun w => (w.dag, w.index))
      = (views D.data).map fun w => (w.dag, w.index) := by
  induction hr with
  | start => exact ⟨rfl, rfl, rfl, rfl, rfl⟩
  | average hr hv he ih =>
    have hs := average_same (reach_inv h hr).sys hv he
    exact ⟨ih.1, ih.2.1, hs.keys.trans ih.2.2.1, hs.values.trans ih.2.2.2.1, hs.dags.trans ih.2.2.2.2⟩
  | minMarginals hr hv he ih =>
    have hs := minMarginals_same (reach_inv h hr).sys he
    exact ⟨ih.1, ih.2.1, hs.keys.trans ih.2.2.1, hs.values.trans ih.2.2.2.1, hs.dags.trans ih.2.2.2.2⟩
  | solve hr he ih =>
    have hs := (solve_inv (reach_inv h hr).sys he).1.same
    exact ⟨ih.1, ih.2.1, hs.keys.trans ih.2.2.1, hs.values.trans ih.2.2.2.1, hs.dags.trans ih.2.2.2.2⟩
  | @constrain D1 D2 pen cs hr he ih =>
    have : ∀ (cs : List (K × V)) (D1 D2 : DualSystem K V), DInv D1 →
        DualSystem.constrain pen cs D1 = some D2 → D2.keys = D1.keys ∧ D2.values = D1.values
        ∧ D2.data.numKeys = D1.data.numKeys ∧ D2.data.numValues = D1.data.numValues
        ∧ (views D2.data).map (fun w => (w.dag, w.index))
          = (views D1.data).map fun w => (w.dag, w.index) := by
      intro cs
      induction cs with
      | nil =>
        intro D1 D2 _ he
        simp only [DualSystem.constrain, Option.some.injEq] at he
        subst he
        exact ⟨rfl, rfl, rfl, rfl, rfl⟩
      | cons c cs ih =>
        intro D1 D2 h1 he
        unfold DualSystem.constrain at he
        split at he
        · rename_i v i hv hi
          have hlt : v < D1.data.numKeys := by rw [← h1.keys]; exact dictIndex_lt hv
          have hD : DInv { D1 with data := D1.data.addUnary v (setEntry (fun _ => pen) i 0) } :=
            ⟨(h1.sys.addUnary hlt _).1, h1.keys, h1.values⟩
          obtain ⟨j1, j2, j3, j4, j5⟩ := ih _ _ hD he
          exact ⟨j1, j2, j3, j4, j5.trans (addUnary_same h1.sys hlt _)⟩
        · cases he
    obtain ⟨j1, j2, j3, j4, j5⟩ := this cs D1 D2 (reach_inv h hr) he
    exact ⟨j1.trans ih.1, j2.trans ih.2.1, j3.trans ih.2.2.1, j4.trans ih.2.2.2.1,
      j5.trans ih.2.2.2.2⟩
  | @breakSymmetry D1 noise hr ih =>
    have hs := (reach_inv h hr).sys
    have : ∀ (vs : List Nat) (T : System), SysInv T → (∀ v ∈ vs, v < T.numKeys) →
        (views (vs.foldl (fun S v => S.addUnary v (fun x => (noise v x : Cost))) T)).map
          (fun w => (w.dag, w.index)) = (views T).map fun w => (w.dag, w.index) := by
      intro vs
      induction vs with
      | nil => intro T _ _; rfl
      | cons v vs ih =>
        intro T hT hvs
        have hv := hvs v (by simp)
        rw [List.foldl_cons, ih _ (hT.addUnary hv _).1
          (fun u hu => hvs u (List.mem_cons_of_mem _ hu)), addUnary_same hT hv]
    obtain ⟨-, h2, h3⟩ := breakSymmetry_inv hs noise
    exact ⟨ih.1, ih.2.1, h2.trans ih.2.2.1, h3.trans ih.2.2.2.1,
      (this _ _ hs (by simp)).trans ih.2.2.2.2⟩
  | partiallyCommit hr he ih =>
    have hs := (commit_spec (reach_inv h hr).sys he).2.1
    exact ⟨ih.1, ih.2.1, hs.keys.trans ih.2.2.1, hs.values.trans ih.2.2.2.1, hs.dags.trans ih.2.2.2.2⟩

theorem solveLoop_mono {tol : ℚ} {late : Nat → Bool} : ∀ (fuel : Nat) (st st' : SweepState),
    solveLoop tol late fuel st = .ok st' → ∀ fuel', fuel ≤ fuel' →
    solveLoop tol late fuel' st = .ok st' := by
  intro fuel
  induction fuel with
  | zero => intro st st' h; simp [solveLoop] at h
  | succ fuel ih =>
    intro st st' h fuel' hf
    obtain ⟨f, rfl⟩ : ∃ f, fuel' = f + 1 := ⟨fuel' - 1, by omega⟩
    have hf' : fuel ≤ f := by omega
    unfold solveLoop at h ⊢
    split at h
    · cases h
    · rename_i st1 c1 h1
      dsimp only at h ⊢
      split at h
      · rename_i hl
        rw [if_pos hl]
        split at h
        · rename_i hc
          rw [if_pos hc]
          exact ih _ _ h f hf'
        · rename_i hc
          rw [if_neg hc]
          exact h
      · rename_i hl
        rw [if_neg hl]
        split at h
        · cases h
        · rename_i st2 c2 h2
          split at h
          · rename_i hc
            rw [if_pos hc]
            exact ih _ _ h f hf'
          · rename_i hc
            rw [if_neg hc]
            exact h

theorem greedyLoop_isSome {S0 : System} (hu : ∀ v, ∀ s ∈ S0.subs, Usable v s) (hV : S0.numValues ≠ 0) :
    ∀ (vs : List Nat) (S : System) (done : Nat → Prop) (a : Nat → Nat) (c : Option Cost),
    GreedyInv S0 S done a → vs.Nodup → (∀ v ∈ vs, v < S0.numKeys ∧ ¬ done v) →
    ∃ r, greedyLoop vs S a c = some r := by
  intro vs
  induction vs with
  | nil => intro S done a c _ _ _; exact ⟨_, rfl⟩
  | cons v vs ih =>
    intro S done a c h hnd hvs
    rw [List.nodup_cons] at hnd
    obtain ⟨hv, hdv⟩ := hvs v (by simp)
    have hsome : (S.minMarginals v).isSome := by
      rw [h.inv.minMarginals_isSome]
      intro s hs hnone
      have : (s.view.dag, s.view.index) ∈ (views S).map fun w => (w.dag, w.index) :=
        List.mem_map.2 ⟨s.view, List.mem_map.2 ⟨s, hs, rfl⟩, rfl⟩
      rw [h.dags] at this
      obtain ⟨w, hw, hwe⟩ := List.mem_map.1 this
      obtain ⟨s0, hs0, rfl⟩ := List.mem_map.1 hw
      simp only [Prod.mk.injEq] at hwe
      have h1 : s.memo.dag = s0.memo.dag := hwe.1.symm
      have h2 : s.index = s0.index := hwe.2.symm
      rw [h1]
      apply hu v s0 hs0
      rw [← h2]; exact hnone
    rw [Option.isSome_iff_exists] at hsome
    obtain ⟨⟨S1, mm⟩, hm⟩ := hsome
    have hV' : S.numValues ≠ 0 := by rw [h.values]; exact hV
    unfold greedyLoop
    rw [hm]
    dsimp only
    rw [if_neg hV']
    refine ih _ _ _ _ (greedy_step h hv hdv hm hV') hnd.2 ?_
    intro u hu'
    refine ⟨(hvs u (List.mem_cons_of_mem _ hu')).1, ?_⟩
    rintro (rfl | hd)
    · exact hnd.1 hu'
    · exact (hvs u (List.mem_cons_of_mem _ hu')).2 hd

end reach

end RUSure.Lemmas
