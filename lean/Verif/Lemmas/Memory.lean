import Verif.Spec.Memory

/-!
# The solver in memory: helper lemmas
-/

namespace RUSure.Memory

/-- The arrays of a memo. -/
def MemoRef.locs (r : MemoRef) : List Nat := [r.pen, r.pre, r.suf, r.pv, r.sv]

/-- The arrays of a system. -/
def SystemRef.locs (r : SystemRef) : List Nat := r.extra :: r.subs.flatMap (·.memo.locs)

/-- Only the arrays in `F` and new arrays differ. -/
structure Frame (F : List Nat) (h h' : Heap) : Prop where
  next : h.next ≤ h'.next
  mats : ∀ l < h.next, l ∉ F → h'.mats l = h.mats l
  rows : ∀ l < h.next, l ∉ F → h'.rows l = h.rows l
  tags : ∀ l < h.next, l ∉ F → h'.tags l = h.tags l

/-- Different arrays that exist. -/
def Sep (h : Heap) (L : List Nat) : Prop := L.Nodup ∧ ∀ l ∈ L, l < h.next

theorem Frame.refl (F : List Nat) (h : Heap) : Frame F h h :=
  ⟨le_refl _, fun _ _ _ => rfl, fun _ _ _ => rfl, fun _ _ _ => rfl⟩

theorem Frame.trans {F : List Nat} {a b c : Heap} (x : Frame F a b) (y : Frame F b c) :
    Frame F a c :=
  ⟨le_trans x.next y.next,
    fun l hl hF => (y.mats l (lt_of_lt_of_le hl x.next) hF).trans (x.mats l hl hF),
    fun l hl hF => (y.rows l (lt_of_lt_of_le hl x.next) hF).trans (x.rows l hl hF),
    fun l hl hF => (y.tags l (lt_of_lt_of_le hl x.next) hF).trans (x.tags l hl hF)⟩

theorem Frame.mono {F G : List Nat} {a b : Heap} (x : Frame F a b) (hs : ∀ l ∈ F, l ∈ G) :
    Frame G a b :=
  ⟨x.next, fun l hl hF => x.mats l hl fun hh => hF (hs l hh),
    fun l hl hF => x.rows l hl fun hh => hF (hs l hh),
    fun l hl hF => x.tags l hl fun hh => hF (hs l hh)⟩

theorem Sep.frame {F L : List Nat} {h h' : Heap} (hs : Sep h L) (f : Frame F h h') : Sep h' L :=
  ⟨hs.1, fun l hl => lt_of_lt_of_le (hs.2 l hl) f.next⟩

theorem memo_frame {F : List Nat} {h h' : Heap} {r : MemoRef} (f : Frame F h h')
    (hn : ∀ l ∈ r.locs, l < h.next) (hd : ∀ l ∈ r.locs, l ∉ F) : h'.memo r = h.memo r := by
  have k : ∀ l, l = r.pen ∨ l = r.pre ∨ l = r.suf ∨ l = r.pv ∨ l = r.sv → l < h.next ∧ l ∉ F := by
    intro l hl
    have : l ∈ r.locs := by simpa [MemoRef.locs] using hl
    exact ⟨hn l this, hd l this⟩
  unfold Heap.memo
  rw [f.mats r.pen (k _ (by simp)).1 (k _ (by simp)).2,
    f.rows r.pre (k _ (by simp)).1 (k _ (by simp)).2,
    f.rows r.suf (k _ (by simp)).1 (k _ (by simp)).2,
    f.tags r.pv (k _ (by simp)).1 (k _ (by simp)).2,
    f.tags r.sv (k _ (by simp)).1 (k _ (by simp)).2]

theorem subs_frame {F : List Nat} {h h' : Heap} {ss : List SubRef} (f : Frame F h h')
    (hn : ∀ l ∈ ss.flatMap (·.memo.locs), l < h.next)
    (hd : ∀ l ∈ ss.flatMap (·.memo.locs), l ∉ F) : ss.map h'.sub = ss.map h.sub := by
  apply List.map_congr_left
  intro s hs
  unfold Heap.sub
  rw [memo_frame f (fun l hl => hn l (List.mem_flatMap.2 ⟨s, hs, hl⟩))
    (fun l hl => hd l (List.mem_flatMap.2 ⟨s, hs, hl⟩))]

theorem system_frame {F : List Nat} {h h' : Heap} {r : SystemRef} (f : Frame F h h')
    (hn : ∀ l ∈ r.locs, l < h.next) (hd : ∀ l ∈ r.locs, l ∉ F) : h'.system r = h.system r := by
  unfold Heap.system
  rw [subs_frame f (fun l hl => hn l (List.mem_cons_of_mem _ hl))
      (fun l hl => hd l (List.mem_cons_of_mem _ hl)),
    f.mats r.extra (hn _ (by simp [SystemRef.locs])) (hd _ (by simp [SystemRef.locs]))]

/-! ## Tables -/

theorem setRow_frame (h : Heap) (l : Nat) (t : Nat → Cost) : Frame [l] h (h.setRow l t) :=
  ⟨le_refl _, fun _ _ _ => rfl, fun i _ hi => by
    have : i ≠ l := by simpa using hi
    simp [Heap.setRow, this], fun _ _ _ => rfl⟩

theorem setTag_frame (h : Heap) (l n : Nat) : Frame [l] h (h.setTag l n) :=
  ⟨le_refl _, fun _ _ _ => rfl, fun _ _ _ => rfl, fun i _ hi => by
    have : i ≠ l := by simpa using hi
    simp [Heap.setTag, this]⟩

theorem setMat_frame (h : Heap) (l : Nat) (t : Nat → Nat → Cost) : Frame [l] h (h.setMat l t) :=
  ⟨le_refl _, fun i _ hi => by
    have : i ≠ l := by simpa using hi
    simp [Heap.setMat, this], fun _ _ _ => rfl, fun _ _ _ => rfl⟩

theorem setRow_self (h : Heap) (l : Nat) : h.setRow l (h.rows l) = h := by
  unfold Heap.setRow
  congr 1
  funext i
  by_cases hi : i = l
  · subst hi; simp
  · simp [hi]

theorem setRow_setRow (h : Heap) (l : Nat) (t u : Nat → Cost) :
    (h.setRow l t).setRow l u = h.setRow l u := by
  unfold Heap.setRow
  congr 1
  funext i
  by_cases hi : i = l <;> simp [hi]

theorem setRow_rows (h : Heap) (l : Nat) (t : Nat → Cost) : (h.setRow l t).rows l = t := by
  simp [Heap.setRow]

/-- Updating a vector in place, edge by edge. -/
theorem fold_setRow (g : Penalties → (Nat → Cost) → PackedEdge → Nat → Cost) (p l : Nat) :
    ∀ (es : List PackedEdge) (h : Heap) (t : Nat → Cost),
      es.foldl (fun (h : Heap) e => h.setRow l (g (h.mats p) (h.rows l) e)) (h.setRow l t)
        = h.setRow l (es.foldl (g (h.mats p)) t)
  | [], h, t => rfl
  | e :: es, h, t => by
    simp only [List.foldl_cons]
    rw [setRow_rows, setRow_setRow]
    exact fold_setRow g p l es h _

/-- The arrays of one memo are different. -/
theorem locs_ne {r : MemoRef} (hr : r.locs.Nodup) : r.pre ≠ r.suf ∧ r.pv ≠ r.sv := by
  simp only [MemoRef.locs, List.nodup_cons, List.mem_cons, not_or] at hr
  exact ⟨hr.2.1.1, hr.2.2.2.1.1⟩

theorem updatePrefixes_refines {h : Heap} {r : MemoRef} (hr : r.locs.Nodup) (τ : Nat) :
    (updatePrefixes h r τ).memo r = (h.memo r).updatePrefixes τ ∧
      Frame r.locs h (updatePrefixes h r τ) := by
  obtain ⟨h1, h2⟩ := locs_ne hr
  unfold updatePrefixes Memo.updatePrefixes
  by_cases hc : τ + 1 ≤ h.tags r.pv
  · have : τ + 1 ≤ (h.memo r).pv := hc
    simp only [if_pos hc, if_pos this]
    exact ⟨trivial, Frame.refl _ _⟩
  · have hc' : ¬ τ + 1 ≤ (h.memo r).pv := hc
    simp only [if_neg hc, if_neg hc']
    have e : ∀ (t : Nat → Cost), (if h.tags r.pv = 0 then
        (h.setRow r.pre t).setRow r.pre (setEntry ((h.setRow r.pre t).rows r.pre) 0 0)
          else h.setRow r.pre t) =
        h.setRow r.pre (if h.tags r.pv = 0 then setEntry t 0 0 else t) := by
      intro t
      split
      · rw [setRow_rows, setRow_setRow]
      · rfl
    have e' : ∀ (t : Nat → Cost), (h.setRow r.pre t).tags = h.tags := fun _ => rfl
    simp only [e', e, fold_setRow]
    constructor
    · simp [Heap.memo, Heap.setTag, Heap.setRow, h1.symm, h2.symm]
      rfl
    · exact ((setRow_frame h r.pre _).mono (by simp [MemoRef.locs])).trans
        ((setTag_frame _ r.pv _).mono (by simp [MemoRef.locs]))

theorem updateSuffixes_refines {h : Heap} {r : MemoRef} (hr : r.locs.Nodup) (τ : Nat) :
    (updateSuffixes h r τ).memo r = (h.memo r).updateSuffixes τ ∧
      Frame r.locs h (updateSuffixes h r τ) := by
  obtain ⟨h1, h2⟩ := locs_ne hr
  unfold updateSuffixes Memo.updateSuffixes
  by_cases hc : h.tags r.sv ≤ τ
  · have : (h.memo r).sv ≤ τ := hc
    simp only [if_pos hc, if_pos this]
    exact ⟨trivial, Frame.refl _ _⟩
  · have hc' : ¬ (h.memo r).sv ≤ τ := hc
    simp only [if_neg hc, if_neg hc']
    have e : ∀ (t : Nat → Cost), (if h.tags r.sv = r.dag.numKeys + 1 then
        (h.setRow r.suf t).setRow r.suf
          (setEntry ((h.setRow r.suf t).rows r.suf) (r.dag.numStates - 1) 0)
          else h.setRow r.suf t) =
        h.setRow r.suf (if h.tags r.sv = r.dag.numKeys + 1 then
          setEntry t (r.dag.numStates - 1) 0 else t) := by
      intro t
      split
      · rw [setRow_rows, setRow_setRow]
      · rfl
    have e' : ∀ (t : Nat → Cost), (h.setRow r.suf t).tags = h.tags := fun _ => rfl
    simp only [e', e, fold_setRow]
    constructor
    · simp [Heap.memo, Heap.setTag, Heap.setRow, h1, h2]
      rfl
    · exact ((setRow_frame h r.suf _).mono (by simp [MemoRef.locs])).trans
        ((setTag_frame _ r.sv _).mono (by simp [MemoRef.locs]))

theorem setPenalties_refines {h : Heap} {r : MemoRef} (hr : r.locs.Nodup) (v : Nat)
    (p : Nat → Cost) :
    (setPenalties h r v p).memo r = (h.memo r).setPenalties v p ∧
      Frame r.locs h (setPenalties h r v p) := by
  obtain ⟨h1, h2⟩ := locs_ne hr
  unfold setPenalties Memo.setPenalties
  constructor
  · simp [Heap.memo, Heap.setTag, Heap.setMat, h2, h2.symm]
  · exact (((setMat_frame h r.pen _).mono (by simp [MemoRef.locs])).trans
      ((setTag_frame _ r.pv _).mono (by simp [MemoRef.locs]))).trans
        ((setTag_frame _ r.sv _).mono (by simp [MemoRef.locs]))

/-- The two computations fail together, or return the same result, and the arrays then hold the new
value. -/
def Refines {α β : Type} (F : List Nat) (h : Heap) (read : Heap → α) (x : Option (Heap × β))
    (y : Option (α × β)) : Prop :=
  (x = none ∧ y = none) ∨
    ∃ h' b, x = some (h', b) ∧ y = some (read h', b) ∧ Frame F h h'

theorem minMarginals_refines {h : Heap} {r : MemoRef} (hr : r.locs.Nodup) (v : Nat) :
    Refines r.locs h (fun h => h.memo r) (minMarginals h r v) ((h.memo r).minMarginals v) := by
  unfold minMarginals Memo.minMarginals
  obtain ⟨a1, a2⟩ := updatePrefixes_refines (h := h) hr v
  obtain ⟨b1, b2⟩ := updateSuffixes_refines (h := updatePrefixes h r v) hr (v + 1)
  by_cases hv : v < r.dag.numKeys
  · have hv' : v < (h.memo r).dag.numKeys := hv
    simp only [if_pos hv, if_pos hv']
    right
    refine ⟨_, _, rfl, ?_, a2.trans b2⟩
    rw [← a1, ← b1]
    rfl
  · have hv' : ¬ v < (h.memo r).dag.numKeys := hv
    simp only [if_neg hv, if_neg hv']
    left
    exact ⟨rfl, rfl⟩

theorem minimalCost_refines {h : Heap} {r : MemoRef} (hr : r.locs.Nodup) :
    Refines r.locs h (fun h => h.memo r) (minimalCost h r) ((h.memo r).minimalCost .fromMiddle) := by
  unfold minimalCost Memo.minimalCost
  by_cases hk : r.dag.numKeys = 0
  · have hk' : (h.memo r).dag.numKeys = 0 := hk
    simp only [if_pos hk, if_pos hk']
    left
    exact ⟨rfl, rfl⟩
  · have hk' : ¬ (h.memo r).dag.numKeys = 0 := hk
    simp only [if_neg hk, if_neg hk']
    have e : min ((h.memo r).sv - 1) ((h.memo r).dag.numKeys - 1)
        = min (h.tags r.sv - 1) (r.dag.numKeys - 1) := rfl
    rw [e]
    rcases minMarginals_refines (h := h) hr (min (h.tags r.sv - 1) (r.dag.numKeys - 1)) with
      ⟨x, y⟩ | ⟨h', b, x, y, f⟩
    · rw [x, y]; left; exact ⟨rfl, rfl⟩
    · rw [x, y]; right; exact ⟨h', _, rfl, rfl, f⟩

/-! ## Loops over the subproblems -/

theorem sep_cons {h : Heap} {s : SubRef} {ss : List SubRef}
    (hs : Sep h ((s :: ss).flatMap (·.memo.locs))) :
    s.memo.locs.Nodup ∧ Sep h (ss.flatMap (·.memo.locs)) ∧ (∀ l ∈ s.memo.locs, l < h.next) ∧
      (∀ l ∈ ss.flatMap (·.memo.locs), l ∉ s.memo.locs) ∧
      (∀ l ∈ s.memo.locs, l ∉ ss.flatMap (·.memo.locs)) := by
  obtain ⟨h1, h2⟩ := hs
  rw [List.flatMap_cons] at h1 h2
  rw [List.nodup_append] at h1
  refine ⟨h1.1, ⟨h1.2.1, fun l hl => h2 l (List.mem_append_right _ hl)⟩,
    fun l hl => h2 l (List.mem_append_left _ hl), fun l hl hl' => ?_, fun l hl hl' => ?_⟩
  · exact h1.2.2 l hl' l hl rfl
  · exact h1.2.2 l hl l hl' rfl

theorem frame_cons {s : SubRef} {ss : List SubRef} {a b c : Heap}
    (x : Frame s.memo.locs a b) (y : Frame (ss.flatMap (·.memo.locs)) b c) :
    Frame ((s :: ss).flatMap (·.memo.locs)) a c :=
  (x.mono fun l hl => by rw [List.flatMap_cons]; exact List.mem_append_left _ hl).trans
    (y.mono fun l hl => by rw [List.flatMap_cons]; exact List.mem_append_right _ hl)

/-- Reading the list of subproblems after one step at its head and further steps at its tail. -/
theorem map_cons_after {s : SubRef} {ss : List SubRef} {a b c : Heap}
    (hs : Sep a ((s :: ss).flatMap (·.memo.locs)))
    (x : Frame s.memo.locs a b) (y : Frame (ss.flatMap (·.memo.locs)) b c) :
    c.memo s.memo = b.memo s.memo ∧ ss.map b.sub = ss.map a.sub := by
  obtain ⟨_, h2, h3, h4, h5⟩ := sep_cons hs
  exact ⟨memo_frame y (fun l hl => lt_of_lt_of_le (h3 l hl) x.next) h5, subs_frame x h2.2 h4⟩

theorem marginalsLoop_refines (v : Nat) : ∀ (ss : List SubRef) (h : Heap) (t : Nat → Cost),
    Sep h (ss.flatMap (·.memo.locs)) →
    Refines (ss.flatMap (·.memo.locs)) h (fun h => ss.map h.sub) (marginalsLoop v ss h t)
      (RUSure.marginalsLoop v (ss.map h.sub) t)
  | [], h, t, _ => Or.inr ⟨h, t, rfl, rfl, Frame.refl _ _⟩
  | s :: ss, h, t, hs => by
    obtain ⟨n1, n2, _⟩ := sep_cons hs
    simp only [List.map_cons, marginalsLoop, RUSure.marginalsLoop]
    have hi : (h.sub s).index = s.index := rfl
    have hm : (h.sub s).memo = h.memo s.memo := rfl
    rw [hi, hm]
    cases s.index v with
    | none =>
      rcases minimalCost_refines (h := h) n1 with ⟨x, y⟩ | ⟨h', c, x, y, f⟩
      · simp only [x, y]; exact Or.inl ⟨rfl, rfl⟩
      · simp only [x, y]
        have e := (map_cons_after hs f (Frame.refl _ h')).2
        rw [← e]
        rcases marginalsLoop_refines v ss h' (fun z => t z + c) (n2.frame f) with
          ⟨x', y'⟩ | ⟨h'', t', x', y', f'⟩
        · simp only [x', y']; exact Or.inl ⟨rfl, rfl⟩
        · simp only [x', y']
          refine Or.inr ⟨h'', t', rfl, ?_, frame_cons f f'⟩
          have := (map_cons_after hs f f').1
          simp only [Heap.sub, ← this]
    | some k =>
      rcases minMarginals_refines (h := h) n1 k with ⟨x, y⟩ | ⟨h', mm, x, y, f⟩
      · simp only [x, y]; exact Or.inl ⟨rfl, rfl⟩
      · simp only [x, y]
        have e := (map_cons_after hs f (Frame.refl _ h')).2
        rw [← e]
        rcases marginalsLoop_refines v ss h' (fun z => t z + mm z) (n2.frame f) with
          ⟨x', y'⟩ | ⟨h'', t', x', y', f'⟩
        · simp only [x', y']; exact Or.inl ⟨rfl, rfl⟩
        · simp only [x', y']
          refine Or.inr ⟨h'', t', rfl, ?_, frame_cons f f'⟩
          have := (map_cons_after hs f f').1
          simp only [Heap.sub, ← this]

theorem sep_system {h : Heap} {r : SystemRef} (hs : Sep h r.locs) :
    Sep h (r.subs.flatMap (·.memo.locs)) ∧ r.extra ∉ r.subs.flatMap (·.memo.locs) ∧
      r.extra < h.next := by
  obtain ⟨h1, h2⟩ := hs
  simp only [SystemRef.locs, List.nodup_cons] at h1
  exact ⟨⟨h1.2, fun l hl => h2 l (List.mem_cons_of_mem _ hl)⟩, h1.1,
    h2 _ (by simp [SystemRef.locs])⟩

theorem frame_system {r : SystemRef} {h h' : Heap} (hs : Sep h r.locs)
    (f : Frame (r.subs.flatMap (·.memo.locs)) h h') :
    h'.mats r.extra = h.mats r.extra ∧ Frame r.locs h h' := by
  obtain ⟨_, h2, h3⟩ := sep_system hs
  exact ⟨f.mats _ h3 h2, f.mono fun l hl => List.mem_cons_of_mem _ hl⟩

theorem systemMarginals_refines {h : Heap} {r : SystemRef} (hs : Sep h r.locs) (v : Nat) :
    Refines r.locs h (fun h => h.system r) (systemMarginals h r v)
      ((h.system r).minMarginals v) := by
  unfold systemMarginals System.minMarginals
  rcases marginalsLoop_refines v r.subs h (fun _ => 0) (sep_system hs).1 with
    ⟨x, y⟩ | ⟨h', t, x, y, f⟩
  · have y' : RUSure.marginalsLoop v (h.system r).subs (fun _ => 0) = none := y
    rw [x, y']
    exact Or.inl ⟨rfl, rfl⟩
  · have y' : RUSure.marginalsLoop v (h.system r).subs (fun _ => 0)
      = some (r.subs.map h'.sub, t) := y
    rw [x, y']
    obtain ⟨e, f'⟩ := frame_system hs f
    refine Or.inr ⟨h', t, rfl, ?_, f'⟩
    simp [Heap.system, e]

/-- A loop whose steps each change one subproblem. -/
theorem fold_refines {ι : Type} (ref : ι → SubRef) (step : Heap → ι → Heap) (g : ι → Sub → Sub)
    (H : ∀ h x, (ref x).memo.locs.Nodup →
      (step h x).sub (ref x) = g x (h.sub (ref x)) ∧ Frame (ref x).memo.locs h (step h x)) :
    ∀ (xs : List ι) (h : Heap), Sep h ((xs.map ref).flatMap (·.memo.locs)) →
      xs.map (fun x => (xs.foldl step h).sub (ref x)) = xs.map (fun x => g x (h.sub (ref x))) ∧
        Frame ((xs.map ref).flatMap (·.memo.locs)) h (xs.foldl step h)
  | [], _, _ => ⟨rfl, Frame.refl _ _⟩
  | x :: xs, h, hs => by
    have hs' : Sep h ((ref x :: xs.map ref).flatMap (·.memo.locs)) := hs
    obtain ⟨n1, n2, _⟩ := sep_cons hs'
    obtain ⟨a1, a2⟩ := H h x n1
    obtain ⟨b1, b2⟩ := fold_refines ref step g H xs (step h x) (n2.frame a2)
    refine ⟨?_, ?_⟩
    · obtain ⟨c1, c2⟩ := map_cons_after hs' a2 b2
      simp only [List.map_cons, List.foldl_cons]
      congr 1
      · rw [← a1]
        simp only [Heap.sub, c1]
      · rw [b1]
        apply List.map_congr_left
        intro z hz
        have := List.map_inj_left.1 c2 (ref z) (List.mem_map_of_mem hz)
        rw [this]
    · exact frame_cons a2 b2

theorem averageOpen_refines (v : Nat) : ∀ (ss : List SubRef) (h : Heap) (st : AverageState),
    Sep h (ss.flatMap (·.memo.locs)) →
    (averageOpen v ss h st = none ∧ RUSure.averageOpen v (ss.map h.sub) st = none) ∨
      ∃ h' info st', averageOpen v ss h st = some (h', info, st') ∧ info.map Prod.fst = ss ∧
        RUSure.averageOpen v (ss.map h.sub) st
          = some (info.map (fun p => (h'.sub p.1, p.2)), st') ∧
        Frame (ss.flatMap (·.memo.locs)) h h'
  | [], h, st, _ => Or.inr ⟨h, [], st, rfl, rfl, rfl, Frame.refl _ _⟩
  | s :: ss, h, st, hs => by
    obtain ⟨n1, n2, _⟩ := sep_cons hs
    simp only [List.map_cons, averageOpen, RUSure.averageOpen]
    have hi : (h.sub s).index = s.index := rfl
    have hm : (h.sub s).memo = h.memo s.memo := rfl
    have hw : (h.sub s).weight = s.weight := rfl
    rw [hi, hm, hw]
    cases s.index v with
    | none =>
      rcases minimalCost_refines (h := h) n1 with ⟨x, y⟩ | ⟨h', c, x, y, f⟩
      · simp only [x, y]; exact Or.inl ⟨trivial, trivial⟩
      · simp only [x, y]
        have e := (map_cons_after hs f (Frame.refl _ h')).2
        rw [← e]
        rcases averageOpen_refines v ss h' { st with skipped := st.skipped + c } (n2.frame f) with
          ⟨x', y'⟩ | ⟨h'', info, st', x', m', y', f'⟩
        · simp only [x', y']; exact Or.inl ⟨trivial, trivial⟩
        · simp only [x', y']
          refine Or.inr ⟨h'', _, st', rfl, by simp [m'], ?_, frame_cons f f'⟩
          have := (map_cons_after hs f f').1
          simp only [Heap.sub, ← this, List.map_cons]
    | some k =>
      obtain ⟨p1, p2⟩ := setPenalties_refines (h := h) n1 k (fun _ => 0)
      have q := minMarginals_refines (h := setPenalties h s.memo k (fun _ => 0)) n1 k
      rw [p1] at q
      rcases q with ⟨x, y⟩ | ⟨h', mm, x, y, f0⟩
      · simp only [x, y]; exact Or.inl ⟨trivial, trivial⟩
      · simp only [x, y]
        have f := p2.trans f0
        have e := (map_cons_after hs f (Frame.refl _ h')).2
        rw [← e]
        rcases averageOpen_refines v ss h'
            { st with total := fun z => st.total z + mm z, weight := st.weight + s.weight }
            (n2.frame f) with
          ⟨x', y'⟩ | ⟨h'', info, st', x', m', y', f'⟩
        · simp only [x', y']; exact Or.inl ⟨trivial, trivial⟩
        · simp only [x', y']
          refine Or.inr ⟨h'', _, st', rfl, by simp [m'], ?_, frame_cons f f'⟩
          have := (map_cons_after hs f f').1
          simp only [Heap.sub, ← this, List.map_cons]

/-- One step of the second loop of the averaging. -/
def closeStep (total : Nat → Cost) (W : ℚ) (h : Heap) (p : SubRef × Option (Nat × (Nat → Cost))) :
    Heap :=
  match p.2 with
  | none => h
  | some (k, mm) =>
    setPenalties h p.1.memo k (fun x => newPenalty (total x) (p.1.weight / W) (mm x))

theorem averageClose_fold (total : Nat → Cost) (W : ℚ) :
    ∀ (info : List (SubRef × Option (Nat × (Nat → Cost)))) (h : Heap),
      averageClose total W info h = info.foldl (closeStep total W) h
  | [], _ => rfl
  | (_, none) :: info, h => averageClose_fold total W info h
  | (_, some (_, _)) :: info, h => averageClose_fold total W info _

theorem average_refines {h : Heap} {r : SystemRef} (hs : Sep h r.locs) (v : Nat) :
    Refines r.locs h (fun h => h.system r) (average h r v) ((h.system r).average v) := by
  unfold average System.average
  have es : (h.system r).subs = r.subs.map h.sub := rfl
  rw [es]
  rcases averageOpen_refines v r.subs h ⟨fun _ => 0, 0, 0⟩ (sep_system hs).1 with
    ⟨x, y⟩ | ⟨h', info, st, x, m, y, f⟩
  · rw [x, y]; exact Or.inl ⟨rfl, rfl⟩
  · rw [x, y]
    obtain ⟨e, f'⟩ := frame_system hs f
    right
    simp only [averageClose_fold, Option.map_some]
    have k := fold_refines (ι := SubRef × Option (Nat × (Nat → Cost))) Prod.fst
      (closeStep (fun x => st.total x + h'.mats r.extra v x) st.weight)
      (fun p s => RUSure.averageClose (fun x => st.total x + h'.mats r.extra v x) st.weight (s, p.2))
      (by
        intro a p hp
        unfold closeStep RUSure.averageClose
        cases hq : p.2 with
        | none => exact ⟨rfl, Frame.refl _ _⟩
        | some km =>
          obtain ⟨u1, u2⟩ := setPenalties_refines (h := a) hp km.1
            (fun x => newPenalty (st.total x + h'.mats r.extra v x) (p.1.weight / st.weight)
              (km.2 x))
          refine ⟨?_, u2⟩
          simp only [Heap.sub, u1])
      info h' (by rw [m]; exact (sep_system hs).1.frame f)
    obtain ⟨k1, k2⟩ := k
    rw [m] at k2
    obtain ⟨e2, f2⟩ := frame_system (hs.frame f') k2
    refine ⟨_, _, rfl, ?_, f'.trans f2⟩
    have e3 : (h.system r).extra v = h'.mats r.extra v := by rw [e]; rfl
    have e4 : (h.system r).numValues = r.numValues := rfl
    simp only [e3, e4, List.map_map]
    congr 2
    unfold Heap.system
    congr 1
    · conv_rhs => rw [← m]
      rw [List.map_map]
      exact k1.symm
    · rw [e2, e]

/-! ## Forbidding values and adding costs -/

/-- One step of the loop forbidding values. -/
def forbidStep (v : Nat) (bad : Nat → Bool) (h : Heap) (s : SubRef) : Heap :=
  match s.index v with
  | none => h
  | some k => setPenalties h s.memo k (fun x => if bad x then ⊤ else h.mats s.memo.pen k x)

theorem forbidSubs_fold (v : Nat) (bad : Nat → Bool) : ∀ (ss : List SubRef) (h : Heap),
    forbidSubs v bad ss h = ss.foldl (forbidStep v bad) h
  | [], _ => rfl
  | s :: ss, h => by
    simp only [forbidSubs, List.foldl_cons, forbidStep]
    cases s.index v with
    | none => exact forbidSubs_fold v bad ss h
    | some k => exact forbidSubs_fold v bad ss _

/-- One step of the loop dividing extra costs. -/
def addUnaryStep (v : Nat) (p : Nat → Cost) (n : Nat) (h : Heap) (s : SubRef) : Heap :=
  match s.index v with
  | none => h
  | some k => setPenalties h s.memo k
      (fun x => h.mats s.memo.pen k x + (p x).map (· / (n : ℚ)))

theorem addUnarySubs_fold (v : Nat) (p : Nat → Cost) (n : Nat) : ∀ (ss : List SubRef) (h : Heap),
    addUnarySubs v p n ss h = ss.foldl (addUnaryStep v p n) h
  | [], _ => rfl
  | s :: ss, h => by
    simp only [addUnarySubs, List.foldl_cons, addUnaryStep]
    cases s.index v with
    | none => exact addUnarySubs_fold v p n ss h
    | some k => exact addUnarySubs_fold v p n ss _

/-- Writing the extra costs, then changing each subproblem. -/
theorem extra_then_subs {h : Heap} {r : SystemRef} (hs : Sep h r.locs) (t : Nat → Nat → Cost)
    (step : Heap → SubRef → Heap) (g : Sub → Sub)
    (H : ∀ h s, s.memo.locs.Nodup →
      (step h s).sub s = g (h.sub s) ∧ Frame s.memo.locs h (step h s)) :
    (r.subs.foldl step (h.setMat r.extra t)).system r =
        ⟨(h.system r).subs.map g, t, r.numKeys, r.numValues⟩ ∧
      Frame r.locs h (r.subs.foldl step (h.setMat r.extra t)) := by
  obtain ⟨s1, s2, s3⟩ := sep_system hs
  have f0 : Frame [r.extra] h (h.setMat r.extra t) := setMat_frame _ _ _
  have f1 : Frame r.locs h (h.setMat r.extra t) := f0.mono (by simp [SystemRef.locs])
  have hd : ∀ l ∈ r.subs.flatMap (·.memo.locs), l ∉ [r.extra] := by
    intro l hl hl'
    rw [List.mem_singleton] at hl'
    exact s2 (hl' ▸ hl)
  obtain ⟨k1, k2⟩ := fold_refines (ι := SubRef) (fun s => s) step (fun _ => g) H r.subs
    (h.setMat r.extra t) (by rw [List.map_id']; exact s1.frame f0)
  rw [List.map_id'] at k2
  obtain ⟨e, f2⟩ := frame_system (hs.frame f1) k2
  refine ⟨?_, f1.trans f2⟩
  unfold Heap.system
  congr 1
  · have e2 := subs_frame f0 s1.2 hd
    rw [← e2, List.map_map]
    exact k1
  · rw [e]
    simp [Heap.setMat]

theorem forbid_refines {h : Heap} {r : SystemRef} (hs : Sep h r.locs) (v : Nat) (bad : Nat → Bool) :
    (forbid h r v bad).system r = (h.system r).forbid v bad ∧ Frame r.locs h (forbid h r v bad) := by
  unfold forbid
  rw [forbidSubs_fold]
  obtain ⟨a, b⟩ := extra_then_subs hs
    (fun u x => if u = v ∧ bad x = true then ⊤ else h.mats r.extra u x) (forbidStep v bad)
    (fun s => match s.index v with
      | none => s
      | some k =>
        let p := fun x => if bad x then ⊤ else s.memo.pen k x
        { s with memo := s.memo.setPenalties k p })
    (by
      intro a s hn
      have hi : (a.sub s).index = s.index := rfl
      unfold forbidStep
      simp only [hi]
      cases s.index v with
      | none => exact ⟨rfl, Frame.refl _ _⟩
      | some k =>
        obtain ⟨u1, u2⟩ := setPenalties_refines (h := a) hn k
          (fun x => if bad x then ⊤ else a.mats s.memo.pen k x)
        refine ⟨?_, u2⟩
        simp only [Heap.sub, u1]
        rfl)
  exact ⟨a, b⟩

theorem addUnary_refines {h : Heap} {r : SystemRef} (hs : Sep h r.locs) (v : Nat) (p : Nat → Cost) :
    (addUnary h r v p).system r = (h.system r).addUnary v p ∧ Frame r.locs h (addUnary h r v p) := by
  unfold addUnary
  rw [addUnarySubs_fold]
  have hn : (h.system r).numRelevant v = (r.subs.filter fun s => (s.index v).isSome).length := by
    unfold System.numRelevant Heap.system
    simp only [List.filter_map, List.length_map]
    rfl
  obtain ⟨a, b⟩ := extra_then_subs hs
    (fun u x => if u = v then h.mats r.extra u x + p x else h.mats r.extra u x)
    (addUnaryStep v p (r.subs.filter fun s => (s.index v).isSome).length)
    (fun s => match s.index v with
      | none => s
      | some k =>
        let p' := fun x => s.memo.pen k x + (p x).map (· / ((h.system r).numRelevant v : ℚ))
        { s with memo := s.memo.setPenalties k p' })
    (by
      intro a s hnd
      have hi : (a.sub s).index = s.index := rfl
      rw [hn]
      unfold addUnaryStep
      simp only [hi]
      cases s.index v with
      | none => exact ⟨rfl, Frame.refl _ _⟩
      | some k =>
        obtain ⟨u1, u2⟩ := setPenalties_refines (h := a) hnd k
          (fun x => a.mats s.memo.pen k x +
            (p x).map (· / ((r.subs.filter fun s => (s.index v).isSome).length : ℚ)))
        refine ⟨?_, u2⟩
        simp only [Heap.sub, u1]
        rfl)
  exact ⟨a, b⟩

theorem constrain_refines {K V : Type} [DecidableEq K] [DecidableEq V] (penalty : Cost)
    (r : DualRef K V) : ∀ (cs : List (K × V)) (h : Heap), Sep h r.data.locs →
    (constrain penalty r cs h = none ∧ (h.dual r).constrain penalty cs = none) ∨
      ∃ h', constrain penalty r cs h = some h' ∧
        (h.dual r).constrain penalty cs = some (h'.dual r) ∧ Frame r.data.locs h h'
  | [], h, _ => Or.inr ⟨h, rfl, rfl, Frame.refl _ _⟩
  | (k, x) :: cs, h, hs => by
    simp only [constrain, DualSystem.constrain]
    have e1 : (h.dual r).keys = r.keys := rfl
    have e2 : (h.dual r).values = r.values := rfl
    rw [e1, e2]
    cases dictIndex r.keys k with
    | none => exact Or.inl ⟨rfl, rfl⟩
    | some v =>
      cases dictIndex r.values x with
      | none => exact Or.inl ⟨rfl, rfl⟩
      | some i =>
        simp only
        obtain ⟨a, b⟩ := addUnary_refines hs v (setEntry (fun _ => penalty) i 0)
        have := constrain_refines penalty r cs
          (addUnary h r.data v (setEntry (fun _ => penalty) i 0)) (hs.frame b)
        have e : (⟨(h.dual r).data.addUnary v (setEntry (fun _ => penalty) i 0), r.keys, r.values⟩ :
            DualSystem K V) =
            (addUnary h r.data v (setEntry (fun _ => penalty) i 0)).dual r := by
          simp only [Heap.dual, a]
        rw [← e] at this
        rcases this with ⟨x, y⟩ | ⟨h', x, y, f⟩
        · exact Or.inl ⟨x, y⟩
        · exact Or.inr ⟨h', x, y, b.trans f⟩

theorem noise_refines (r : SystemRef) (noise : Nat → Nat → ℚ) : ∀ (vs : List Nat) (h : Heap),
    Sep h r.locs →
    (vs.foldl (fun (h : Heap) v => addUnary h r v (fun x => (noise v x : Cost))) h).system r =
      vs.foldl (fun (S : System) v => S.addUnary v (fun x => (noise v x : Cost))) (h.system r) ∧
    Frame r.locs h (vs.foldl (fun (h : Heap) v => addUnary h r v (fun x => (noise v x : Cost))) h)
  | [], _, _ => ⟨rfl, Frame.refl _ _⟩
  | v :: vs, h, hs => by
    obtain ⟨a, b⟩ := addUnary_refines hs v (fun x => (noise v x : Cost))
    obtain ⟨c, d⟩ := noise_refines r noise vs (addUnary h r v (fun x => (noise v x : Cost)))
      (hs.frame b)
    simp only [List.foldl_cons]
    rw [c, a]
    exact ⟨rfl, b.trans d⟩

/-! ## Extraction and commitment -/

theorem greedyLoop_refines (r : SystemRef) : ∀ (vs : List Nat) (h : Heap) (a : Nat → Nat)
    (c : Option Cost), Sep h r.locs →
    Refines r.locs h (fun h => h.system r) (greedyLoop r vs h a c)
      (RUSure.greedyLoop vs (h.system r) a c)
  | [], h, a, c, _ => Or.inr ⟨h, (a, c), rfl, rfl, Frame.refl _ _⟩
  | v :: vs, h, a, c, hs => by
    simp only [greedyLoop, RUSure.greedyLoop]
    rcases systemMarginals_refines hs v with ⟨x, y⟩ | ⟨h', mm, x, y, f⟩
    · rw [x, y]; exact Or.inl ⟨rfl, rfl⟩
    · rw [x, y]
      have e : (h.system r).numValues = r.numValues := rfl
      simp only [e]
      by_cases hz : r.numValues = 0
      · rw [if_pos hz, if_pos hz]; exact Or.inl ⟨rfl, rfl⟩
      · rw [if_neg hz, if_neg hz]
        obtain ⟨p, q⟩ := forbid_refines (hs.frame f) v
          (fun z => decide (z ≠ argMin r.numValues mm))
        rw [← p]
        rcases greedyLoop_refines r vs (forbid h' r v fun z => decide (z ≠ argMin r.numValues mm))
          (fun u => if u = v then argMin r.numValues mm else a u)
          (some (mm (argMin r.numValues mm))) ((hs.frame f).frame q) with ⟨x', y'⟩ | ⟨h'', b, x', y', f'⟩
        · exact Or.inl ⟨x', y'⟩
        · exact Or.inr ⟨h'', b, x', y', (f.trans q).trans f'⟩

theorem collectMarginals_refines (r : SystemRef) : ∀ (vs : List Nat) (h : Heap)
    (agg : Nat → Nat → Cost), Sep h r.locs →
    Refines r.locs h (fun h => h.system r) (collectMarginals r vs h agg)
      (RUSure.collectMarginals vs (h.system r) agg)
  | [], h, agg, _ => Or.inr ⟨h, agg, rfl, rfl, Frame.refl _ _⟩
  | v :: vs, h, agg, hs => by
    simp only [collectMarginals, RUSure.collectMarginals]
    rcases systemMarginals_refines hs v with ⟨x, y⟩ | ⟨h', mm, x, y, f⟩
    · rw [x, y]; exact Or.inl ⟨rfl, rfl⟩
    · rw [x, y]
      rcases collectMarginals_refines r vs h' (fun u => if u = v then mm else agg u)
        (hs.frame f) with ⟨x', y'⟩ | ⟨h'', b, x', y', f'⟩
      · exact Or.inl ⟨x', y'⟩
      · exact Or.inr ⟨h'', b, x', y', f.trans f'⟩

theorem commitLoop_refines (gap : Cost) (r : SystemRef) : ∀ (vs : List Nat) (h : Heap)
    (bound : Cost) (count : Nat), Sep h r.locs →
    Refines r.locs h (fun h => h.system r) (commitLoop gap r vs h bound count)
      (RUSure.commitLoop gap vs (h.system r) bound count)
  | [], h, bound, count, _ => Or.inr ⟨h, (bound, count), rfl, rfl, Frame.refl _ _⟩
  | v :: vs, h, bound, count, hs => by
    simp only [commitLoop, RUSure.commitLoop]
    rcases systemMarginals_refines hs v with ⟨x, y⟩ | ⟨h', mm, x, y, f⟩
    · rw [x, y]; exact Or.inl ⟨rfl, rfl⟩
    · rw [x, y]
      have e : (h.system r).numValues = r.numValues := rfl
      simp only [e]
      generalize (if bound < arrayMin r.numValues mm then arrayMin r.numValues mm else bound)
        = bound'
      obtain ⟨p, q⟩ := forbid_refines (hs.frame f) v (fun z => decide (bound' + gap < mm z))
      rw [← p]
      rcases commitLoop_refines gap r vs (forbid h' r v fun z => decide (bound' + gap < mm z)) bound'
        (count + ((List.range r.numValues).filter fun x =>
          decide (bound' + gap < mm x) && decide (mm x < ⊤)).length)
        ((hs.frame f).frame q) with ⟨x', y'⟩ | ⟨h'', b, x', y', f'⟩
      · exact Or.inl ⟨x', y'⟩
      · exact Or.inr ⟨h'', b, x', y', (f.trans q).trans f'⟩

theorem Refines.map {α β γ : Type} {F : List Nat} {h : Heap} {read : Heap → α}
    {x : Option (Heap × β)} {y : Option (α × β)} (k : Refines F h read x y) (g : β → γ) :
    Refines F h read (x.map fun z => (z.1, g z.2)) (y.map fun z => (z.1, g z.2)) := by
  rcases k with ⟨a, b⟩ | ⟨h', b, x', y', f⟩
  · rw [a, b]; exact Or.inl ⟨rfl, rfl⟩
  · rw [x', y']; exact Or.inr ⟨h', g b, rfl, rfl, f⟩

theorem Refines.after {α β : Type} {F : List Nat} {h h1 : Heap} {read : Heap → α}
    {x : Option (Heap × β)} {y : Option (α × β)} (f : Frame F h h1)
    (k : Refines F h1 read x y) : Refines F h read x y := by
  rcases k with ⟨a, b⟩ | ⟨h', b, x', y', f'⟩
  · exact Or.inl ⟨a, b⟩
  · exact Or.inr ⟨h', b, x', y', f.trans f'⟩

theorem partiallyCommit_refines {h : Heap} {r : SystemRef} (hs : Sep h r.locs) (dir : Direction)
    (quantile : (Nat → Nat → Cost) → Quantile) (strictness epsilon : ℚ) :
    Refines r.locs h (fun h => h.system r) (partiallyCommit h r dir quantile strictness epsilon)
      ((h.system r).partiallyCommit dir quantile strictness epsilon) := by
  unfold partiallyCommit System.partiallyCommit
  have e1 : (h.system r).numKeys = r.numKeys := rfl
  have e2 : (h.system r).numValues = r.numValues := rfl
  simp only [e1, e2]
  by_cases hz : r.numKeys = 0
  · rw [if_pos hz, if_pos hz]; exact Or.inl ⟨rfl, rfl⟩
  · rw [if_neg hz, if_neg hz]
    rcases collectMarginals_refines r (dir.order r.numKeys) h (fun _ _ => 0) hs with
      ⟨x, y⟩ | ⟨h1, agg, x, y, f⟩
    · rw [x, y]; exact Or.inl ⟨rfl, rfl⟩
    · rw [x, y]
      simp only
      generalize (List.map (fun v => arrayMin r.numValues (agg v)) (List.range r.numKeys)).foldl max
        ((List.map (fun v => arrayMin r.numValues (agg v)) (List.range r.numKeys)).headD 0) = bound
      have com : ∀ gap : ℚ, Refines r.locs h (fun h => h.system r)
          ((commitLoop ((gap * strictness : ℚ) : Cost) r (dir.order r.numKeys) h1 bound 0).map
            fun z => (z.1, if z.2.2 = 0 then CommitStatus.stuck
              else CommitStatus.madePartialAssignment))
          ((RUSure.commitLoop ((gap * strictness : ℚ) : Cost) (dir.order r.numKeys) (h1.system r)
            bound 0).map
            fun z => (z.1, if z.2.2 = 0 then CommitStatus.stuck
              else CommitStatus.madePartialAssignment)) := fun gap =>
        Refines.after f ((commitLoop_refines _ r _ h1 bound 0 (hs.frame f)).map
          (fun z : Cost × Nat => if z.2 = 0 then CommitStatus.stuck
            else CommitStatus.madePartialAssignment))
      cases quantile agg with
      | negInf => exact Or.inr ⟨h1, _, rfl, rfl, f⟩
      | nan => exact com 0
      | val q =>
        simp only
        split
        · exact Or.inr ⟨h1, _, rfl, rfl, f⟩
        · exact com _

/-! ## Sweeps -/

/-- The value of a sweep state. -/
def Sweep.value (r : SystemRef) (st : Sweep) : SweepState :=
  ⟨st.heap.system r, st.last, st.objectiveAtStep, st.variableAtStep, st.objectiveAtSweep,
    st.stepsAtSweep⟩

theorem runSweep_refines (tol : ℚ) (r : SystemRef) : ∀ (vs : List Nat) (st : Sweep) (c : Bool),
    Sep st.heap r.locs →
    (runSweep tol r vs st c = none ∧ RUSure.runSweep tol vs (st.value r) c = none) ∨
      ∃ st' c', runSweep tol r vs st c = some (st', c') ∧
        RUSure.runSweep tol vs (st.value r) c = some (st'.value r, c') ∧
        Frame r.locs st.heap st'.heap
  | [], st, c, _ => Or.inr ⟨st, c, rfl, rfl, Frame.refl _ _⟩
  | v :: vs, st, c, hs => by
    simp only [runSweep, RUSure.runSweep]
    have e : (st.value r).system = st.heap.system r := rfl
    rw [e]
    rcases average_refines hs v with ⟨x, y⟩ | ⟨h', b, x, y, f⟩
    · rw [x, y]; exact Or.inl ⟨rfl, rfl⟩
    · rw [x, y]
      have := runSweep_refines tol r vs
        { st with
          heap := h'
          last := some b
          objectiveAtStep := st.objectiveAtStep ++ [b]
          variableAtStep := st.variableAtStep ++ [v] } (c || improved st.last b tol) (hs.frame f)
      rcases this with ⟨x', y'⟩ | ⟨st', c', x', y', f'⟩
      · exact Or.inl ⟨x', y'⟩
      · exact Or.inr ⟨st', c', x', y', f.trans f'⟩

theorem solveLoop_refines (tol : ℚ) (late : Nat → Bool) (r : SystemRef) : ∀ (fuel : Nat) (st : Sweep),
    Sep st.heap r.locs →
    (∃ e, solveLoop tol late r fuel st = .error e ∧
      RUSure.solveLoop tol late fuel (st.value r) = .error e) ∨
      ∃ st', solveLoop tol late r fuel st = .ok st' ∧
        RUSure.solveLoop tol late fuel (st.value r) = .ok (st'.value r) ∧
        Frame r.locs st.heap st'.heap
  | 0, _, _ => Or.inl ⟨_, rfl, rfl⟩
  | fuel + 1, st, hs => by
    simp only [solveLoop, RUSure.solveLoop]
    have e : (st.value r).system.numKeys = r.numKeys := rfl
    rw [e]
    rcases runSweep_refines tol r (forwardVars r.numKeys) st false hs with
      ⟨x, y⟩ | ⟨st1, c1, x, y, f⟩
    · rw [x, y]; exact Or.inl ⟨_, rfl, rfl⟩
    · rw [x, y]
      have e1 : (st1.value r).record = (st1.record).value r := rfl
      simp only [e1]
      have e2 : (st1.record.value r).objectiveAtSweep = st1.record.objectiveAtSweep := rfl
      rw [e2]
      have again : ∀ st2 : Sweep, Frame r.locs st.heap st2.heap →
          (∃ e, solveLoop tol late r fuel st2 = .error e ∧
            RUSure.solveLoop tol late fuel (st2.value r) = .error e) ∨
          ∃ st', solveLoop tol late r fuel st2 = .ok st' ∧
            RUSure.solveLoop tol late fuel (st2.value r) = .ok (st'.value r) ∧
            Frame r.locs st.heap st'.heap := by
        intro st2 f2
        rcases solveLoop_refines tol late r fuel st2 (hs.frame f2) with h | ⟨st', x', y', f'⟩
        · exact Or.inl h
        · exact Or.inr ⟨st', x', y', f2.trans f'⟩
      by_cases hl : late st1.record.objectiveAtSweep.length = true
      · rw [if_pos hl, if_pos hl]
        cases c1 with
        | false => exact Or.inr ⟨_, rfl, rfl, f⟩
        | true => exact again st1.record f
      · rw [if_neg hl, if_neg hl]
        rcases runSweep_refines tol r (reverseVars r.numKeys) st1.record c1 (hs.frame f) with
          ⟨x', y'⟩ | ⟨st2, c2, x', y', f'⟩
        · rw [x', y']; exact Or.inl ⟨_, rfl, rfl⟩
        · rw [x', y']
          cases c2 with
          | false => exact Or.inr ⟨_, rfl, rfl, f.trans f'⟩
          | true => exact again st2.record (f.trans f')

end RUSure.Memory
