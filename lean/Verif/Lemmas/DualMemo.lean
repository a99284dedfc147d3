import Verif.Lemmas.DualSteps

/-!
# The solver's operations in terms of views
-/

namespace RUSure.Lemmas
open RUSure RUSure.Spec

/-- What is kept for every subproblem. -/
structure SubOK (N V : Nat) (s : Sub) : Prop where
  memo : MemoInv s.memo.dag s.memo
  view : ViewOK N V s.view

/-- A subproblem without variables cannot be skipped. -/
def Usable (v : Nat) (s : Sub) : Prop := s.index v = none → 0 < s.memo.dag.numKeys

section
variable {N V : Nat}

theorem sub_skip {s : Sub} (h : SubOK N V s) {m : Memo} {c : Cost} {st : Strategy}
    (hc : s.memo.minimalCost st = some (m, c)) :
    SubOK N V { s with memo := m } ∧ ({ s with memo := m } : Sub).view = s.view
      ∧ c = s.view.cost := by
  obtain ⟨h1, h2, h3⟩ := memo_cost h.view.wf h.memo hc
  have hv : ({ s with memo := m } : Sub).view = s.view := by
    simp only [Sub.view, View.mk.injEq, true_and]
    exact ⟨h1.dag, h2⟩
  refine ⟨⟨?_, ?_⟩, hv, h3⟩
  · have := h1.dag
    change MemoInv m.dag m
    rw [this]; exact h1
  · rw [hv]; exact h.view

theorem sub_marg {s : Sub} (h : SubOK N V s) {m : Memo} {mm : Nat → Cost} {k : Nat}
    (hc : s.memo.minMarginals k = some (m, mm)) :
    SubOK N V { s with memo := m } ∧ ({ s with memo := m } : Sub).view = s.view
      ∧ mm = margOf s.memo.dag s.memo.pen k := by
  obtain ⟨-, h1, h2, h3⟩ := memo_marg h.view.wf h.memo hc
  have hv : ({ s with memo := m } : Sub).view = s.view := by
    simp only [Sub.view, View.mk.injEq, true_and]
    exact ⟨h1.dag, h2⟩
  refine ⟨⟨?_, ?_⟩, hv, h3⟩
  · have := h1.dag
    change MemoInv m.dag m
    rw [this]; exact h1
  · rw [hv]; exact h.view

theorem setPenalties_pen (m : Memo) (k : Nat) (p : Nat → Cost) :
    (m.setPenalties k p).pen = setPen m.pen k p := by
  unfold Memo.setPenalties setPen
  rfl

theorem setPenalties_dag (m : Memo) (k : Nat) (p : Nat → Cost) :
    (m.setPenalties k p).dag = m.dag := rfl

theorem sub_set {s : Sub} (h : SubOK N V s) {v k : Nat} (hk : s.index v = some k) (p : Nat → Cost)
    (q : View → Nat → Nat → Cost) (hq : q s.view k = p) :
    SubOK N V { s with memo := s.memo.setPenalties k p }
      ∧ ({ s with memo := s.memo.setPenalties k p } : Sub).view = s.view.update v q := by
  have hv : ({ s with memo := s.memo.setPenalties k p } : Sub).view = s.view.update v q := by
    have hk' : s.view.index v = some k := hk
    unfold View.update
    rw [hk']
    simp only [hq]
    simp only [Sub.view, setPenalties_pen, setPenalties_dag]
  refine ⟨⟨?_, ?_⟩, hv⟩
  · exact setPenalties_inv h.view.wf h.memo (h.view.lt v k hk).2 p
  · rw [hv]; exact update_ok v q h.view

/-! ### min-marginals -/

theorem marginalsLoop_spec (v : Nat) : ∀ (ss : List Sub) (t : Nat → Cost) (ss' : List Sub)
    (t' : Nat → Cost), (∀ s ∈ ss, SubOK N V s) → marginalsLoop v ss t = some (ss', t') →
    (∀ s ∈ ss', SubOK N V s) ∧ ss'.map Sub.view = ss.map Sub.view
      ∧ ∀ x, t' x = t x + ((ss.map Sub.view).map fun w => w.marg v x).sum := by
  intro ss
  induction ss with
  | nil =>
    intro t ss' t' _ h
    simp only [marginalsLoop, Option.some.injEq, Prod.mk.injEq] at h
    obtain ⟨rfl, rfl⟩ := h
    simp
  | cons s ss ih =>
    intro t ss' t' hok h
    have hs := hok s (by simp)
    have hss : ∀ s ∈ ss, SubOK N V s := fun s' hs' => hok s' (List.mem_cons_of_mem _ hs')
    unfold marginalsLoop at h
    cases hk : s.index v with
    | none =>
      simp only [hk] at h
      split at h
      · cases h
      · rename_i m c hc
        split at h
        · cases h
        · rename_i ss1 t1 hl
          simp only [Option.some.injEq, Prod.mk.injEq] at h
          obtain ⟨rfl, rfl⟩ := h
          obtain ⟨h1, h2, h3⟩ := sub_skip hs hc
          obtain ⟨h4, h5, h6⟩ := ih _ _ _ hss hl
          refine ⟨?_, ?_, ?_⟩
          · intro s' hs'
            rcases List.mem_cons.1 hs' with rfl | hs'
            · exact h1
            · exact h4 s' hs'
          · simp only [List.map_cons, h2, h5]
          · intro x
            have : s.view.marg v x = c := by
              have hk' : s.view.index v = none := hk
              rw [View.marg, hk', h3]
            rw [h6 x]
            simp only [List.map_cons, List.sum_cons, this]
            rw [add_assoc]
    | some k =>
      simp only [hk] at h
      split at h
      · cases h
      · rename_i m mm hc
        split at h
        · cases h
        · rename_i ss1 t1 hl
          simp only [Option.some.injEq, Prod.mk.injEq] at h
          obtain ⟨rfl, rfl⟩ := h
          obtain ⟨h1, h2, h3⟩ := sub_marg hs hc
          obtain ⟨h4, h5, h6⟩ := ih _ _ _ hss hl
          refine ⟨?_, ?_, ?_⟩
          · intro s' hs'
            rcases List.mem_cons.1 hs' with rfl | hs'
            · exact h1
            · exact h4 s' hs'
          · simp only [List.map_cons, h2, h5]
          · intro x
            have : s.view.marg v x = mm x := by
              have hk' : s.view.index v = some k := hk
              rw [View.marg, hk', h3]
              rfl
            rw [h6 x]
            simp only [List.map_cons, List.sum_cons, this]
            rw [add_assoc]

theorem minimalCost_some {s : Sub} (h : SubOK N V s) (hu : 0 < s.memo.dag.numKeys) :
    ∃ r, s.memo.minimalCost .fromMiddle = some r := by
  obtain ⟨m, c, h1, -⟩ := minimalCost_spec h.view.wf h.memo .fromMiddle (fun _ => hu)
  exact ⟨_, h1⟩

theorem minimalCost_some_iff {s : Sub} (h : SubOK N V s) :
    (s.memo.minimalCost .fromMiddle).isSome ↔ 0 < s.memo.dag.numKeys := by
  constructor
  · intro h'
    by_contra h0
    have : s.memo.dag.numKeys = 0 := by omega
    simp [Memo.minimalCost, this] at h'
  · intro hu
    obtain ⟨r, hr⟩ := minimalCost_some h hu
    simp [hr]

theorem minMarginals_some {d : PackedDag} (wf : PackedWF d) {m : Memo} (hm : MemoInv d m) {k : Nat}
    (hk : k < d.numKeys) : ∃ r, m.minMarginals k = some r := by
  obtain ⟨m', mm, h1, -⟩ := minMarginals_spec wf hm hk
  exact ⟨_, h1⟩

theorem marginalsLoop_some (v : Nat) : ∀ (ss : List Sub) (t : Nat → Cost),
    (∀ s ∈ ss, SubOK N V s) →
    ((marginalsLoop v ss t).isSome ↔ ∀ s ∈ ss, Usable v s) := by
  intro ss
  induction ss with
  | nil => intro t _; simp [marginalsLoop]
  | cons s ss ih =>
    intro t hok
    have hs := hok s (by simp)
    have hss : ∀ s ∈ ss, SubOK N V s := fun s' hs' => hok s' (List.mem_cons_of_mem _ hs')
    unfold marginalsLoop
    rw [List.forall_mem_cons]
    cases hk : s.index v with
    | none =>
      have hu : Usable v s ↔ 0 < s.memo.dag.numKeys := by simp [Usable, hk]
      rw [hu, ← minimalCost_some_iff hs]
      simp only
      cases hc : s.memo.minimalCost .fromMiddle with
      | none => simp
      | some r =>
        rw [← ih (fun x => t x + r.2) hss]
        cases hl : marginalsLoop v ss (fun x => t x + r.2) <;> simp [hl]
    | some k =>
      have hu : Usable v s := by simp [Usable, hk]
      obtain ⟨r, hc⟩ := minMarginals_some hs.view.wf hs.memo (hs.view.lt v k hk).2
      have hc' : s.memo.minMarginals k = some r := hc
      simp only [hc', hu, true_and]
      rw [← ih (fun x => t x + r.2 x) hss]
      cases hl : marginalsLoop v ss (fun x => t x + r.2 x) <;> simp

/-! ### averaging -/

/-- The subproblem with the penalties of the variable removed. -/
def openView (v : Nat) (w : View) : View := w.update v fun _ _ _ => 0

theorem averageOpen_spec (v : Nat) : ∀ (ss : List Sub) (st : AverageState)
    (rs : List (Sub × Option (Nat × (Nat → Cost)))) (st' : AverageState),
    (∀ s ∈ ss, SubOK N V s) → averageOpen v ss st = some (rs, st') →
    (∀ x, st'.total x = st.total x + ((ss.map Sub.view).map fun w => w.openMarg v x).sum)
    ∧ st'.weight = st.weight + totalWeight (ss.map Sub.view) v
    ∧ st'.skipped = st.skipped + ((ss.map Sub.view).map fun w => w.skipped v).sum
    ∧ ∀ total W, (∀ s ∈ rs.map (averageClose total W), SubOK N V s)
      ∧ (rs.map (averageClose total W)).map Sub.view = (ss.map Sub.view).map fun w =>
          w.update v fun w _ x => newPenalty (total x) (w.weight / W) (w.openMarg v x) := by
  intro ss
  induction ss with
  | nil =>
    intro st rs st' _ h
    simp only [averageOpen, Option.some.injEq, Prod.mk.injEq] at h
    obtain ⟨rfl, rfl⟩ := h
    simp [totalWeight]
  | cons s ss ih =>
    intro st rs st' hok h
    have hs := hok s (by simp)
    have hss : ∀ s ∈ ss, SubOK N V s := fun s' hs' => hok s' (List.mem_cons_of_mem _ hs')
    unfold averageOpen at h
    cases hk : s.index v with
    | none =>
      have hk' : s.view.index v = none := hk
      simp only [hk] at h
      split at h
      · cases h
      · rename_i m c hc
        split at h
        · cases h
        · rename_i rs1 st1 hl
          simp only [Option.some.injEq, Prod.mk.injEq] at h
          obtain ⟨rfl, rfl⟩ := h
          obtain ⟨h1, h2, h3⟩ := sub_skip hs hc
          obtain ⟨h4, h5, h6, h7⟩ := ih _ _ _ hss hl
          refine ⟨?_, ?_, ?_, ?_⟩
          · intro x
            rw [h4 x]
            simp [View.openMarg, hk']
          · rw [h5]
            simp [totalWeight, View.share, hk']
          · rw [h6, h3]
            simp only [List.map_cons, List.sum_cons, View.skipped, hk']
            rw [add_assoc]
          · intro total W
            obtain ⟨h8, h9⟩ := h7 total W
            refine ⟨?_, ?_⟩
            · intro s' hs'
              rw [List.map_cons] at hs'
              rcases List.mem_cons.1 hs' with rfl | hs'
              · exact h1
              · exact h8 s' hs'
            · simp only [List.map_cons, h9, averageClose, h2]
              congr 1
              simp [View.update, hk']
    | some k =>
      have hk' : s.view.index v = some k := hk
      simp only [hk] at h
      split at h
      · cases h
      · rename_i m mm hc
        split at h
        · cases h
        · rename_i rs1 st1 hl
          simp only [Option.some.injEq, Prod.mk.injEq] at h
          obtain ⟨rfl, rfl⟩ := h
          obtain ⟨g1, g2⟩ := sub_set hs hk (fun _ => 0) (fun _ _ _ => 0) rfl
          obtain ⟨h1, h2, h3⟩ := sub_marg g1 hc
          obtain ⟨h4, h5, h6, h7⟩ := ih _ _ _ hss hl
          have hmm : ∀ x, mm x = s.view.openMarg v x := by
            intro x
            rw [h3, View.openMarg, hk']
            simp only [setPenalties_pen, setPenalties_dag]
            rfl
          refine ⟨?_, ?_, ?_, ?_⟩
          · intro x
            rw [h4 x]
            simp only [List.map_cons, List.sum_cons, hmm x]
            rw [add_assoc]
          · rw [h5]
            simp only [List.map_cons, totalWeight, List.sum_cons]
            have : s.view.share v = s.weight := by simp only [View.share, hk']; rfl
            rw [this]
            ring
          · rw [h6]
            simp [View.skipped, hk']
          · intro total W
            obtain ⟨h8, h9⟩ := h7 total W
            have hidx : ({ s with memo := m } : Sub).index v = some k := hk
            have hset := sub_set h1 hidx (fun x => newPenalty (total x) (s.weight / W) (mm x))
              (fun w _ x => newPenalty (total x) (w.weight / W) (w.openMarg v x)) (by
                funext x
                rw [h2, g2, update_weight, update_openMarg_same, hmm x]
                rfl)
            refine ⟨?_, ?_⟩
            · intro s' hs'
              rw [List.map_cons] at hs'
              rcases List.mem_cons.1 hs' with rfl | hs'
              · exact hset.1
              · exact h8 s' hs'
            · simp only [List.map_cons, h9]
              congr 1
              refine hset.2.trans ?_
              simp only at h2
              rw [h2, g2]
              simp only [View.update, hk', setPen_setPen]
              congr 2
              funext x
              simp only [View.openMarg, hk', setPen_setPen]

theorem averageOpen_some (v : Nat) : ∀ (ss : List Sub) (st : AverageState),
    (∀ s ∈ ss, SubOK N V s) →
    ((averageOpen v ss st).isSome ↔ ∀ s ∈ ss, Usable v s) := by
  intro ss
  induction ss with
  | nil => intro t _; simp [averageOpen]
  | cons s ss ih =>
    intro st hok
    have hs := hok s (by simp)
    have hss : ∀ s ∈ ss, SubOK N V s := fun s' hs' => hok s' (List.mem_cons_of_mem _ hs')
    unfold averageOpen
    rw [List.forall_mem_cons]
    cases hk : s.index v with
    | none =>
      have hu : Usable v s ↔ 0 < s.memo.dag.numKeys := by simp [Usable, hk]
      rw [hu, ← minimalCost_some_iff hs]
      simp only
      cases hc : s.memo.minimalCost .fromMiddle with
      | none => simp
      | some r =>
        rw [← ih { st with skipped := st.skipped + r.2 } hss]
        cases hl : averageOpen v ss { st with skipped := st.skipped + r.2 } <;> simp [hl]
    | some k =>
      have hu : Usable v s := by simp [Usable, hk]
      obtain ⟨g1, g2⟩ := sub_set hs hk (fun _ => 0) (fun _ _ _ => 0) rfl
      obtain ⟨r, hc⟩ := minMarginals_some g1.view.wf g1.memo (g1.view.lt v k hk).2
      have hc' : (s.memo.setPenalties k fun _ => 0).minMarginals k = some r := hc
      simp only [hc', hu, true_and]
      rw [← ih { st with total := fun x => st.total x + r.2 x, weight := st.weight + s.weight } hss]
      cases hl : averageOpen v ss
        { st with total := fun x => st.total x + r.2 x, weight := st.weight + s.weight } <;> simp

end

/-! ### the invariant of systems -/

/-- The views of all subproblems. -/
def views (S : System) : List View := S.subs.map Sub.view

structure SysInv (S : System) : Prop where
  subs : ∀ s ∈ S.subs, SubOK S.numKeys S.numValues s
  inv : VInv S.numKeys S.numValues S.extra (views S)

theorem SysInv.minMarginals {S S' : System} (h : SysInv S) {v : Nat} {mm : Nat → Cost}
    (he : S.minMarginals v = some (S', mm)) :
    SysInv S' ∧ views S' = views S ∧ S'.extra = S.extra ∧ S'.numKeys = S.numKeys
      ∧ S'.numValues = S.numValues
      ∧ ∀ x, mm x = ((views S).map fun w => w.marg v x).sum := by
  unfold System.minMarginals at he
  rw [Option.map_eq_some_iff] at he
  obtain ⟨⟨ss, t⟩, h1, h2⟩ := he
  simp only [Prod.mk.injEq] at h2
  obtain ⟨rfl, rfl⟩ := h2
  obtain ⟨h3, h4, h5⟩ := marginalsLoop_spec v _ _ _ _ h.subs h1
  refine ⟨⟨h3, ?_⟩, h4, rfl, rfl, rfl, ?_⟩
  · have := h.inv
    unfold views at this ⊢
    simp only [h4]
    exact this
  · intro x
    rw [h5 x, zero_add]
    rfl

theorem SysInv.minMarginals_isSome {S : System} (h : SysInv S) (v : Nat) :
    (S.minMarginals v).isSome ↔ ∀ s ∈ S.subs, Usable v s := by
  unfold System.minMarginals
  rw [Option.isSome_map]
  exact marginalsLoop_some v _ _ h.subs

theorem SysInv.average {S S' : System} (h : SysInv S) {v : Nat} (hv : v < S.numKeys) {c : Cost}
    (he : S.average v = some (S', c)) :
    SysInv S' ∧ S'.extra = S.extra ∧ S'.numKeys = S.numKeys ∧ S'.numValues = S.numValues
      ∧ views S' = (views S).map (fun w => w.update v (averagePen S.extra (views S) v))
      ∧ c = arrayMin S.numValues (totalAt S.extra (views S) v)
          + ((views S).map fun w => w.skipped v).sum := by
  unfold System.average at he
  rw [Option.map_eq_some_iff] at he
  obtain ⟨⟨rs, st⟩, h1, h2⟩ := he
  simp only [Prod.mk.injEq] at h2
  obtain ⟨rfl, rfl⟩ := h2
  obtain ⟨h3, h4, h5, h6⟩ := averageOpen_spec v _ _ _ _ h.subs h1
  have ht : (fun x => st.total x + S.extra v x) = totalAt S.extra (views S) v := by
    funext x
    rw [h3 x, zero_add]
    rfl
  rw [zero_add] at h4 h5
  obtain ⟨h7, h8⟩ := h6 (fun x => st.total x + S.extra v x) st.weight
  have hviews : (rs.map (averageClose (fun x => st.total x + S.extra v x) st.weight)).map Sub.view
      = (views S).map (fun w => w.update v (averagePen S.extra (views S) v)) := by
    rw [h8]
    change (views S).map _ = _
    apply List.map_congr_left
    intro w _
    congr 1
    funext w k x
    unfold averagePen
    rw [h4, ← ht]
    rfl
  refine ⟨⟨h7, ?_⟩, rfl, rfl, rfl, hviews, ?_⟩
  · change VInv S.numKeys S.numValues S.extra _
    unfold views
    simp only
    rw [hviews]
    exact average_inv h.inv hv
  · rw [ht, h5]
    rfl

theorem SysInv.average_isSome {S : System} (h : SysInv S) (v : Nat) :
    (S.average v).isSome ↔ ∀ s ∈ S.subs, Usable v s := by
  unfold System.average
  rw [Option.isSome_map]
  exact averageOpen_some v _ _ h.subs

/-- Updating the penalties of one variable in all subproblems. -/
theorem subs_update {N V v : Nat} (p : Sub → Nat → Nat → Cost) (q : View → Nat → Nat → Cost)
    (ss : List Sub) (hok : ∀ s ∈ ss, SubOK N V s)
    (hq : ∀ s ∈ ss, ∀ k, q s.view k = p s k) :
    (∀ s ∈ ss.map (fun s => match s.index v with
        | none => s
        | some k => { s with memo := s.memo.setPenalties k (p s k) }), SubOK N V s)
    ∧ (ss.map (fun s => match s.index v with
        | none => s
        | some k => { s with memo := s.memo.setPenalties k (p s k) })).map Sub.view
      = (ss.map Sub.view).map fun w => w.update v q := by
  have key : ∀ s ∈ ss, SubOK N V (match s.index v with
        | none => s
        | some k => { s with memo := s.memo.setPenalties k (p s k) })
      ∧ (match s.index v with
        | none => s
        | some k => { s with memo := s.memo.setPenalties k (p s k) } : Sub).view
        = s.view.update v q := by
    intro s hs
    cases hk : s.index v with
    | none =>
      have hk' : s.view.index v = none := hk
      refine ⟨hok s hs, ?_⟩
      simp [View.update, hk']
    | some k => exact sub_set (hok s hs) hk _ q (hq s hs k)
  constructor
  · intro s hs
    obtain ⟨s0, hs0, rfl⟩ := List.mem_map.1 hs
    exact (key s0 hs0).1
  · rw [List.map_map, List.map_map]
    apply List.map_congr_left
    intro s hs
    exact (key s hs).2

theorem SysInv.forbid {S : System} (h : SysInv S) {v : Nat} (hv : v < S.numKeys) (bad : Nat → Bool) :
    SysInv (S.forbid v bad)
      ∧ views (S.forbid v bad) = (views S).map fun w => w.update v (forbidPen bad) := by
  obtain ⟨h1, h2⟩ := subs_update (v := v) (fun s k x => if bad x then ⊤ else s.memo.pen k x)
    (forbidPen bad) S.subs h.subs (fun _ _ _ => rfl)
  refine ⟨⟨h1, ?_⟩, h2⟩
  change VInv S.numKeys S.numValues (fun u x => if u = v ∧ bad x = true then ⊤ else S.extra u x) _
  have h3 : views (S.forbid v bad) = (views S).map fun w => w.update v (forbidPen bad) := h2
  rw [h3]
  exact forbid_inv h.inv hv bad

theorem numRelevant_eq (S : System) (v : Nat) : S.numRelevant v = relevant (views S) v := by
  unfold System.numRelevant relevant views
  rw [List.filter_map, List.length_map]
  rfl

theorem SysInv.addUnary {S : System} (h : SysInv S) {v : Nat} (hv : v < S.numKeys) (p : Nat → Cost) :
    SysInv (S.addUnary v p)
      ∧ views (S.addUnary v p)
        = (views S).map fun w => w.update v (unaryPen (relevant (views S) v) p) := by
  obtain ⟨h1, h2⟩ := subs_update (v := v)
    (fun s k x => s.memo.pen k x + (p x).map (· / (S.numRelevant v : ℚ)))
    (unaryPen (relevant (views S) v) p) S.subs h.subs (by
      intro s _ k
      funext x
      rw [numRelevant_eq]
      rfl)
  refine ⟨⟨h1, ?_⟩, h2⟩
  change VInv S.numKeys S.numValues (fun u x => if u = v then S.extra u x + p x else S.extra u x) _
  have h3 : views (S.addUnary v p)
      = (views S).map fun w => w.update v (unaryPen (relevant (views S) v) p) := h2
  rw [h3]
  exact unary_inv h.inv hv p

end RUSure.Lemmas
