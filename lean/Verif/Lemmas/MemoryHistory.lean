import Verif.Lemmas.Memory

/-!
# New systems, clones and programs in memory: helper lemmas
-/

set_option linter.unusedSectionVars false

namespace RUSure.Memory

/-- Different new arrays. -/
def Fresh (h h' : Heap) (L : List Nat) : Prop := L.Nodup ∧ ∀ l ∈ L, h.next ≤ l ∧ l < h'.next

theorem Fresh.sep {h h' : Heap} {L : List Nat} (f : Fresh h h' L) : Sep h' L :=
  ⟨f.1, fun l hl => (f.2 l hl).2⟩

theorem newMat_frame (h : Heap) (t : Nat → Nat → Cost) : Frame [] h (h.newMat t).1 := by
  refine ⟨Nat.le_succ _, fun l hl _ => ?_, fun _ _ _ => rfl, fun _ _ _ => rfl⟩
  have : l ≠ h.next := ne_of_lt hl
  simp [Heap.newMat, Heap.setMat, this]

theorem newRow_frame (h : Heap) (t : Nat → Cost) : Frame [] h (h.newRow t).1 := by
  refine ⟨Nat.le_succ _, fun _ _ _ => rfl, fun l hl _ => ?_, fun _ _ _ => rfl⟩
  have : l ≠ h.next := ne_of_lt hl
  simp [Heap.newRow, Heap.setRow, this]

theorem newTag_frame (h : Heap) (n : Nat) : Frame [] h (h.newTag n).1 := by
  refine ⟨Nat.le_succ _, fun _ _ _ => rfl, fun _ _ _ => rfl, fun l hl _ => ?_⟩
  have : l ≠ h.next := ne_of_lt hl
  simp [Heap.newTag, Heap.setTag, this]

/-- Five new arrays. -/
theorem newMemo (h : Heap) (d : PackedDag) (p : Penalties) (x y : Nat → Cost) (m n : Nat) :
    let a := h.newMat p
    let b := a.1.newRow x
    let c := b.1.newRow y
    let e := c.1.newTag m
    let f := e.1.newTag n
    f.1.memo ⟨d, a.2, b.2, c.2, e.2, f.2⟩ = ⟨d, p, x, y, m, n⟩ ∧ Frame [] h f.1 ∧
      Fresh h f.1 (MemoRef.locs ⟨d, a.2, b.2, c.2, e.2, f.2⟩) := by
  refine ⟨?_, ?_, ?_, ?_⟩
  · simp [Heap.memo, Heap.newMat, Heap.newRow, Heap.newTag, Heap.setMat, Heap.setRow, Heap.setTag]
  · exact ((((newMat_frame _ _).trans (newRow_frame _ _)).trans (newRow_frame _ _)).trans
      (newTag_frame _ _)).trans (newTag_frame _ _)
  · simp [MemoRef.locs, Heap.newMat, Heap.newRow, Heap.newTag, Heap.setMat, Heap.setRow,
      Heap.setTag]
    omega
  · intro l hl
    simp only [MemoRef.locs, Heap.newMat, Heap.newRow, Heap.newTag, Heap.setMat, Heap.setRow,
      Heap.setTag, List.mem_cons, List.not_mem_nil, or_false] at hl
    simp only [Heap.newMat, Heap.newRow, Heap.newTag, Heap.setMat, Heap.setRow, Heap.setTag]
    omega

theorem emptyTable_refines (invalid : Cost) (h : Heap) (d : PackedDag) (p : Penalties) :
    (emptyTable invalid h d p).1.memo (emptyTable invalid h d p).2 = RUSure.emptyTable invalid d p ∧
      Frame [] h (emptyTable invalid h d p).1 ∧
      Fresh h (emptyTable invalid h d p).1 (emptyTable invalid h d p).2.locs :=
  newMemo h d p (fun _ => invalid) (fun _ => invalid) 0 (d.numKeys + 1)

theorem copyMemo_refines {h : Heap} {r : MemoRef} (hn : ∀ l ∈ r.locs, l < h.next) :
    (copyMemo h r).1.memo (copyMemo h r).2 = h.memo r ∧ Frame [] h (copyMemo h r).1 ∧
      Fresh h (copyMemo h r).1 (copyMemo h r).2.locs := by
  have k := newMemo h r.dag (h.mats r.pen) ((h.newMat (h.mats r.pen)).1.rows r.pre)
    (((h.newMat (h.mats r.pen)).1.newRow
      ((h.newMat (h.mats r.pen)).1.rows r.pre)).1.rows r.suf)
    ((((h.newMat (h.mats r.pen)).1.newRow
      ((h.newMat (h.mats r.pen)).1.rows r.pre)).1.newRow
      (((h.newMat (h.mats r.pen)).1.newRow
        ((h.newMat (h.mats r.pen)).1.rows r.pre)).1.rows r.suf)).1.tags r.pv)
    (((((h.newMat (h.mats r.pen)).1.newRow
      ((h.newMat (h.mats r.pen)).1.rows r.pre)).1.newRow
      (((h.newMat (h.mats r.pen)).1.newRow
        ((h.newMat (h.mats r.pen)).1.rows r.pre)).1.rows r.suf)).1.newTag
      ((((h.newMat (h.mats r.pen)).1.newRow
      ((h.newMat (h.mats r.pen)).1.rows r.pre)).1.newRow
      (((h.newMat (h.mats r.pen)).1.newRow
        ((h.newMat (h.mats r.pen)).1.rows r.pre)).1.rows r.suf)).1.tags r.pv)).1.tags r.sv)
  refine ⟨?_, k.2⟩
  refine k.1.trans ?_
  have h1 : r.suf ≠ h.next := ne_of_lt (hn _ (by simp [MemoRef.locs]))
  have h2 : r.sv ≠ h.next + 1 + 1 + 1 := by
    have := hn r.sv (by simp [MemoRef.locs])
    omega
  have h3 : r.suf ≠ h.next + 1 := by
    have := hn r.suf (by simp [MemoRef.locs])
    omega
  simp [Heap.memo, Heap.newMat, Heap.newRow, Heap.newTag, Heap.setMat, Heap.setRow, Heap.setTag,
    h2, h3]

/-- New arrays, then more new arrays. -/
theorem Fresh.append {a b c : Heap} {L M : List Nat} (x : Fresh a b L) (hab : a.next ≤ b.next)
    (hbc : b.next ≤ c.next) (y : Fresh b c M) : Fresh a c (L ++ M) := by
  refine ⟨List.nodup_append.2 ⟨x.1, y.1, fun l hl m hm => ?_⟩, fun l hl => ?_⟩
  · have := (x.2 l hl).2
    have := (y.2 m hm).1
    omega
  · rcases List.mem_append.1 hl with hl | hl
    · have := x.2 l hl
      omega
    · have := y.2 l hl
      omega

theorem Fresh.notMem_nil {h h' : Heap} {L : List Nat} (_ : Fresh h h' L) : ∀ l ∈ L, l ∉ ([] : List Nat) :=
  fun _ _ => List.not_mem_nil

theorem cloneSubs_refines : ∀ (ss : List SubRef) (h : Heap),
    (∀ l ∈ ss.flatMap (·.memo.locs), l < h.next) →
    (cloneSubs ss h).2.map (cloneSubs ss h).1.sub = ss.map h.sub ∧ Frame [] h (cloneSubs ss h).1 ∧
      Fresh h (cloneSubs ss h).1 ((cloneSubs ss h).2.flatMap (·.memo.locs))
  | [], h, _ => ⟨rfl, Frame.refl _ _, by simp [cloneSubs, Fresh]⟩
  | s :: ss, h, hn => by
    rw [List.flatMap_cons] at hn
    obtain ⟨a1, a2, a3⟩ := copyMemo_refines (h := h) (r := s.memo)
      (fun l hl => hn l (List.mem_append_left _ hl))
    obtain ⟨b1, b2, b3⟩ := cloneSubs_refines ss (copyMemo h s.memo).1
      (fun l hl => lt_of_lt_of_le (hn l (List.mem_append_right _ hl)) a2.next)
    have e1 : (cloneSubs ss (copyMemo h s.memo).1).1.memo (copyMemo h s.memo).2 = h.memo s.memo := by
      rw [memo_frame b2 a3.sep.2 a3.notMem_nil, a1]
    have e2 : ss.map (copyMemo h s.memo).1.sub = ss.map h.sub :=
      subs_frame a2 (fun l hl => hn l (List.mem_append_right _ hl)) (fun _ _ => List.not_mem_nil)
    refine ⟨?_, a2.trans b2, ?_⟩
    · simp only [cloneSubs, List.map_cons]
      rw [b1, e2]
      congr 1
      simp only [Heap.sub, e1]
    · simp only [cloneSubs, List.flatMap_cons]
      exact a3.append a2.next b2.next b3

theorem cloneData_refines {h : Heap} {r : SystemRef} (hn : ∀ l ∈ r.locs, l < h.next) :
    (cloneData h r).1.system (cloneData h r).2 = h.system r ∧ Frame [] h (cloneData h r).1 ∧
      Fresh h (cloneData h r).1 (cloneData h r).2.locs := by
  obtain ⟨a1, a2, a3⟩ := cloneSubs_refines r.subs h (fun l hl => hn l (List.mem_cons_of_mem _ hl))
  have f := newMat_frame (cloneSubs r.subs h).1 ((cloneSubs r.subs h).1.mats r.extra)
  have hx : (cloneSubs r.subs h).1.mats r.extra = h.mats r.extra :=
    a2.mats _ (hn _ (by simp [SystemRef.locs])) List.not_mem_nil
  refine ⟨?_, a2.trans f, ?_⟩
  · unfold cloneData Heap.system
    simp only
    congr 1
    · rw [subs_frame f a3.sep.2 a3.notMem_nil, a1]
    · rw [hx]
      simp [Heap.newMat, Heap.setMat]
  · unfold cloneData SystemRef.locs
    simp only
    refine ⟨List.nodup_cons.2 ⟨fun hm => ?_, a3.1⟩, fun l hl => ?_⟩
    · have := (a3.2 _ hm).2
      simp [Heap.newMat] at this
    · have h1 := a2.next
      have h2 : ((cloneSubs r.subs h).1.newMat
        ((cloneSubs r.subs h).1.mats r.extra)).1.next = (cloneSubs r.subs h).1.next + 1 := rfl
      have h3 : ((cloneSubs r.subs h).1.newMat
        ((cloneSubs r.subs h).1.mats r.extra)).2 = (cloneSubs r.subs h).1.next := rfl
      rw [h2]
      rcases List.mem_cons.1 hl with hl | hl
      · rw [hl, h3]; omega
      · have := a3.2 l hl
        omega

section
variable {K V : Type} [LinearOrder K] [DecidableEq V]

theorem makeSubs_refines (invalid : Cost) (keys : List K) (weights : Option (List ℚ)) :
    ∀ (xs : List ((PackedDag × List K × List V) × Nat)) (h : Heap),
    (makeSubs invalid keys weights xs h).2.map (makeSubs invalid keys weights xs h).1.sub =
        xs.map (fun x => (⟨emptyUnpenalizedTable invalid x.1.1, indexColumn keys x.1.2.1,
          subWeight weights x.2⟩ : Sub)) ∧
      Frame [] h (makeSubs invalid keys weights xs h).1 ∧
      Fresh h (makeSubs invalid keys weights xs h).1
        ((makeSubs invalid keys weights xs h).2.flatMap (·.memo.locs))
  | [], h => ⟨rfl, Frame.refl _ _, by simp [makeSubs, Fresh]⟩
  | x :: xs, h => by
    obtain ⟨a1, a2, a3⟩ := emptyTable_refines invalid h x.1.1 (fun _ _ => 0)
    obtain ⟨b1, b2, b3⟩ := makeSubs_refines invalid keys weights xs
      (emptyTable invalid h x.1.1 (fun _ _ => 0)).1
    refine ⟨?_, a2.trans b2, ?_⟩
    · simp only [makeSubs, List.map_cons]
      rw [b1]
      congr 1
      simp only [Heap.sub, memo_frame b2 a3.sep.2 a3.notMem_nil, a1]
      rfl
    · simp only [makeSubs, List.flatMap_cons]
      exact a3.append a2.next b2.next b3

theorem makeSystem_refines (invalid : Cost) (h : Heap) (dags : List (PackedDag × List K × List V))
    (weights : Option (List ℚ)) :
    (∃ e, makeSystem invalid h dags weights = .error e ∧
      RUSure.makeSystem invalid dags weights = .error e) ∨
    ∃ h' r, makeSystem invalid h dags weights = .ok (h', r) ∧
      RUSure.makeSystem invalid dags weights = .ok (h'.dual r) ∧ Frame [] h h' ∧
      Fresh h h' r.data.locs := by
  cases dags with
  | nil => exact Or.inl ⟨_, rfl, rfl⟩
  | cons d ds =>
    unfold makeSystem RUSure.makeSystem
    simp only
    by_cases hc : (ds.any fun d' => decide (d'.2.2 ≠ d.2.2)) = true
    · rw [if_pos hc, if_pos hc]; exact Or.inl ⟨_, rfl, rfl⟩
    · rw [if_neg hc, if_neg hc]
      right
      obtain ⟨b1, b2, b3⟩ := makeSubs_refines invalid (systemKeys (d :: ds)) weights
        (d :: ds).zipIdx (h.newMat (fun _ _ => 0)).1
      have f := newMat_frame h (fun _ _ => 0)
      have hx : (h.newMat (fun _ _ => 0)).2 = h.next := rfl
      have hn : (h.newMat (fun _ _ => 0)).1.next = h.next + 1 := rfl
      refine ⟨_, _, rfl, ?_, f.trans b2, ?_⟩
      · congr 1
        unfold Heap.dual Heap.system
        simp only
        congr 2
        · exact b1.symm
        · rw [b2.mats _ (by rw [hx, hn]; omega) List.not_mem_nil, hx]
          simp [Heap.newMat, Heap.setMat]
      · unfold SystemRef.locs
        simp only
        have hle := b2.next
        refine ⟨List.nodup_cons.2 ⟨fun hm => ?_, b3.1⟩, fun l hl => ?_⟩
        · have := (b3.2 _ hm).1
          rw [hx, hn] at this
          omega
        · rcases List.mem_cons.1 hl with hl | hl
          · rw [hl, hx]
            rw [hn] at hle
            omega
          · have := b3.2 l hl
            rw [hn] at this
            omega

/-! ## One operation -/

theorem greedy_refines {h : Heap} {r : SystemRef} (hs : Sep h r.locs) (dir : Direction) :
    (greedy h r dir = none ∧ (h.system r).greedy dir = none) ∨
      ∃ h' b, greedy h r dir = some (h', b) ∧ (h.system r).greedy dir = some b ∧
        Frame [] h h' := by
  obtain ⟨a1, a2, a3⟩ := cloneData_refines hs.2
  unfold greedy System.greedy
  have e1 : (cloneData h r).2.numKeys = r.numKeys := rfl
  have e2 : (h.system r).numKeys = r.numKeys := rfl
  simp only [e1, e2]
  have k := greedyLoop_refines (cloneData h r).2 (dir.order r.numKeys) (cloneData h r).1
    (fun _ => 0) none a3.sep
  rw [a1] at k
  rcases k with ⟨x, y⟩ | ⟨h', b, x, y, f⟩
  · rw [x, y]; exact Or.inl ⟨rfl, rfl⟩
  · rw [x, y]
    refine Or.inr ⟨h', _, rfl, rfl, a2.next.trans f.next, ?_, ?_, ?_⟩
    · intro l hl hn
      rw [f.mats l (lt_of_lt_of_le hl a2.next) (fun hm => absurd (a3.2 l hm).1 (not_le.2 hl)),
        a2.mats l hl hn]
    · intro l hl hn
      rw [f.rows l (lt_of_lt_of_le hl a2.next) (fun hm => absurd (a3.2 l hm).1 (not_le.2 hl)),
        a2.rows l hl hn]
    · intro l hl hn
      rw [f.tags l (lt_of_lt_of_le hl a2.next) (fun hm => absurd (a3.2 l hm).1 (not_le.2 hl)),
        a2.tags l hl hn]

/-- A refinement of the data is one of the whole system. -/
theorem lift_refines {β : Type} {h : Heap} {r : DualRef K V} {x : Option (Heap × β)}
    {y : Option (System × β)} (k : Refines r.data.locs h (fun h => h.system r.data) x y)
    (g : β → Output) :
    Refines r.data.locs h (fun h => h.dual r) (x.map fun z => (z.1, g z.2))
      (y.map fun z => (({ h.dual r with data := z.1 } : DualSystem K V), g z.2)) := by
  rcases k with ⟨a, b⟩ | ⟨h', b, x', y', f⟩
  · rw [a, b]; exact Or.inl ⟨rfl, rfl⟩
  · rw [x', y']; exact Or.inr ⟨h', g b, rfl, rfl, f⟩

theorem op_refines (op : Op K V) {h : Heap} {r : DualRef K V} (hs : Sep h r.data.locs) :
    Refines r.data.locs h (fun h => h.dual r) (op.inMemory h r) (op.onValue (h.dual r)) := by
  cases op with
  | marginals v => exact lift_refines (systemMarginals_refines hs v) Output.vector
  | average v => exact lift_refines (average_refines hs v) Output.cost
  | sweeps tol late fuel =>
    unfold Op.inMemory Op.onValue
    simp only
    unfold solve System.solve
    rcases solveLoop_refines tol late r.data fuel ⟨h, none, [], [], [], []⟩ hs with
      ⟨e, x, y⟩ | ⟨st, x, y, f⟩
    · have y' : RUSure.solveLoop tol late fuel ⟨(h.dual r).data, none, [], [], [], []⟩ = .error e := y
      rw [x, y']; exact Or.inl ⟨rfl, rfl⟩
    · have y' : RUSure.solveLoop tol late fuel ⟨(h.dual r).data, none, [], [], [], []⟩
        = .ok (st.value r.data) := y
      rw [x, y']; exact Or.inr ⟨st.heap, _, rfl, rfl, f⟩
  | greedy dir =>
    unfold Op.inMemory Op.onValue
    simp only
    rcases greedy_refines hs dir with ⟨x, y⟩ | ⟨h', b, x, y, f⟩
    · have y' : (h.dual r).data.greedy dir = none := y
      rw [x, y']; exact Or.inl ⟨rfl, rfl⟩
    · have y' : (h.dual r).data.greedy dir = some b := y
      rw [x, y']
      refine Or.inr ⟨h', _, rfl, ?_, f.mono (fun _ hl => by cases hl)⟩
      have := system_frame f hs.2 (fun _ _ => List.not_mem_nil)
      simp only [Heap.dual, Option.map_some, this]
  | commit dir q s e => exact lift_refines (partiallyCommit_refines hs dir q s e) Output.status
  | constrain p cs =>
    unfold Op.inMemory Op.onValue
    simp only
    rcases constrain_refines p r cs h hs with ⟨x, y⟩ | ⟨h', x, y, f⟩
    · rw [x, y]; exact Or.inl ⟨rfl, rfl⟩
    · rw [x, y]; exact Or.inr ⟨h', _, rfl, rfl, f⟩
  | noise n =>
    obtain ⟨a, f⟩ := noise_refines r.data n (List.range r.data.numKeys) h hs
    refine Or.inr ⟨breakSymmetry h r.data n, _, rfl, ?_, f⟩
    have : (breakSymmetry h r.data n).system r.data = (h.system r.data).breakSymmetry n := a
    simp only [Op.onValue, Heap.dual, this]

/-! ## Programs -/

/-- The systems a program holds have different arrays. -/
def Apart (h : Heap) (rs : List (DualRef K V)) : Prop := Sep h (rs.flatMap (·.data.locs))

theorem duals_frame {h h' : Heap} (f : Frame [] h h') {rs : List (DualRef K V)} (ha : Apart h rs) :
    rs.map h'.dual = rs.map h.dual := by
  apply List.map_congr_left
  intro r hr
  simp only [Heap.dual]
  rw [system_frame f (fun l hl => ha.2 l (List.mem_flatMap.2 ⟨r, hr, hl⟩))
    (fun _ _ => List.not_mem_nil)]

theorem apart_append {h h' : Heap} (f : Frame [] h h') {rs : List (DualRef K V)} {r : DualRef K V}
    (ha : Apart h rs) (hr : Fresh h h' r.data.locs) : Apart h' (rs ++ [r]) := by
  unfold Apart at *
  rw [List.flatMap_append, List.flatMap_singleton]
  refine ⟨List.nodup_append.2 ⟨ha.1, hr.1, fun l hl m hm => ?_⟩, fun l hl => ?_⟩
  · have := ha.2 l hl
    have := (hr.2 m hm).1
    omega
  · rcases List.mem_append.1 hl with hl | hl
    · exact lt_of_lt_of_le (ha.2 l hl) f.next
    · exact (hr.2 l hl).2

theorem duals_set {h h' : Heap} : ∀ (rs : List (DualRef K V)) (i : Nat) (r : DualRef K V),
    Apart h rs → rs[i]? = some r → Frame r.data.locs h h' →
    rs.map h'.dual = (rs.map h.dual).set i (h'.dual r)
  | [], i, r, _, hi, _ => by simp at hi
  | x :: rs, 0, r, ha, hi, f => by
    simp only [List.getElem?_cons_zero, Option.some.injEq] at hi
    subst hi
    unfold Apart at ha
    rw [List.flatMap_cons] at ha
    have hd := (List.nodup_append.1 ha.1).2.2
    simp only [List.map_cons, List.set_cons_zero]
    congr 1
    apply List.map_congr_left
    intro y hy
    simp only [Heap.dual]
    rw [system_frame f
      (fun l hl => ha.2 l (List.mem_append_right _ (List.mem_flatMap.2 ⟨y, hy, hl⟩)))
      (fun l hl hl' => hd l hl' l (List.mem_flatMap.2 ⟨y, hy, hl⟩) rfl)]
  | x :: rs, i + 1, r, ha, hi, f => by
    simp only [List.getElem?_cons_succ] at hi
    have hm : r ∈ rs := List.mem_of_getElem? hi
    unfold Apart at ha
    rw [List.flatMap_cons] at ha
    have hd := (List.nodup_append.1 ha.1).2.2
    have ha' : Apart h rs :=
      ⟨(List.nodup_append.1 ha.1).2.1, fun l hl => ha.2 l (List.mem_append_right _ hl)⟩
    simp only [List.map_cons, List.set_cons_succ]
    rw [duals_set rs i r ha' hi f]
    congr 1
    simp only [Heap.dual]
    rw [system_frame f (fun l hl => ha.2 l (List.mem_append_left _ hl))
      (fun l hl hl' => hd l hl l (List.mem_flatMap.2 ⟨r, hm, hl'⟩) rfl)]

theorem sep_of_apart {h : Heap} {rs : List (DualRef K V)} {r : DualRef K V} (ha : Apart h rs)
    (hr : r ∈ rs) : Sep h r.data.locs := by
  refine ⟨?_, fun l hl => ha.2 l (List.mem_flatMap.2 ⟨r, hr, hl⟩)⟩
  have := (List.nodup_flatMap.1 ha.1).1 r hr
  exact this

theorem run_refines (invalid : Cost) : ∀ (cs : List (Command K V)) (h : Heap)
    (rs : List (DualRef K V)) (out : List Output), Apart h rs →
    (runMemory invalid cs (h, rs, out) = none ∧
      runValues invalid cs (rs.map h.dual, out) = none) ∨
    ∃ h' rs' out', runMemory invalid cs (h, rs, out) = some (h', rs', out') ∧
      runValues invalid cs (rs.map h.dual, out) = some (rs'.map h'.dual, out') ∧ Apart h' rs'
  | [], h, rs, out, ha => Or.inr ⟨h, rs, out, rfl, rfl, ha⟩
  | .make dags weights :: cs, h, rs, out, ha => by
    simp only [runMemory, runValues]
    rcases makeSystem_refines invalid h dags weights with ⟨e, x, y⟩ | ⟨h', r, x, y, f, fr⟩
    · rw [x, y]; exact Or.inl ⟨rfl, rfl⟩
    · rw [x, y]
      have := run_refines invalid cs h' (rs ++ [r]) out (apart_append f ha fr)
      rw [List.map_append, duals_frame f ha] at this
      exact this
  | .clone i :: cs, h, rs, out, ha => by
    simp only [runMemory, runValues, List.getElem?_map]
    cases hi : rs[i]? with
    | none => exact Or.inl ⟨rfl, rfl⟩
    | some r =>
      have hm : r ∈ rs := List.mem_of_getElem? hi
      obtain ⟨a1, a2, a3⟩ := cloneData_refines (h := h) (r := r.data) (sep_of_apart ha hm).2
      have := run_refines invalid cs (cloneSystem h r).1 (rs ++ [(cloneSystem h r).2]) out
        (apart_append (r := (cloneSystem h r).2) a2 ha a3)
      have e : (cloneSystem h r).1.dual (cloneSystem h r).2 = h.dual r := by
        unfold cloneSystem Heap.dual
        simp only [a1]
      have e' : rs.map (cloneSystem h r).1.dual = rs.map h.dual := duals_frame a2 ha
      rw [List.map_append, e', List.map_singleton, e] at this
      exact this
  | .run i op :: cs, h, rs, out, ha => by
    simp only [runMemory, runValues, List.getElem?_map]
    cases hi : rs[i]? with
    | none => exact Or.inl ⟨rfl, rfl⟩
    | some r =>
      have hm : r ∈ rs := List.mem_of_getElem? hi
      simp only [Option.map_some]
      rcases op_refines op (sep_of_apart ha hm) with ⟨x, y⟩ | ⟨h', o, x, y, f⟩
      · rw [x, y]; exact Or.inl ⟨rfl, rfl⟩
      · rw [x, y]
        have := run_refines invalid cs h' rs (out ++ [o]) ⟨ha.1, (ha.frame f).2⟩
        rw [duals_set rs i r ha hi f] at this
        exact this

theorem runValues_untouched (invalid : Cost) (i : Nat) : ∀ (cs : List (Command K V))
    (Ds : List (DualSystem K V)) (out : List Output) (Ds' : List (DualSystem K V))
    (out' : List Output), i < Ds.length → (∀ c ∈ cs, c.avoids i) →
    runValues invalid cs (Ds, out) = some (Ds', out') → Ds'[i]? = Ds[i]?
  | [], Ds, out, Ds', out', _, _, h => by
    simp only [runValues, Option.some.injEq, Prod.mk.injEq] at h
    rw [h.1]
  | .make dags weights :: cs, Ds, out, Ds', out', hi, hc, h => by
    simp only [runValues] at h
    cases hm : RUSure.makeSystem invalid dags weights with
    | error e => rw [hm] at h; cases h
    | ok D =>
      rw [hm] at h
      rw [runValues_untouched invalid i cs (Ds ++ [D]) out Ds' out' (by simp; omega)
        (fun c hcc => hc c (List.mem_cons_of_mem _ hcc)) h, List.getElem?_append_left hi]
  | .clone j :: cs, Ds, out, Ds', out', hi, hc, h => by
    simp only [runValues] at h
    cases hm : Ds[j]? with
    | none => rw [hm] at h; cases h
    | some D =>
      rw [hm] at h
      rw [runValues_untouched invalid i cs (Ds ++ [D]) out Ds' out' (by simp; omega)
        (fun c hcc => hc c (List.mem_cons_of_mem _ hcc)) h, List.getElem?_append_left hi]
  | .run j op :: cs, Ds, out, Ds', out', hi, hc, h => by
    simp only [runValues] at h
    have hj : j ≠ i := hc (.run j op) (List.mem_cons_self ..)
    cases hm : Ds[j]? with
    | none => rw [hm] at h; cases h
    | some D =>
      rw [hm] at h
      simp only at h
      cases ho : op.onValue D with
      | none => rw [ho] at h; cases h
      | some Do =>
        rw [ho] at h
        rw [runValues_untouched invalid i cs (Ds.set j Do.1) (out ++ [Do.2]) Ds' out'
          (by simpa using hi) (fun c hcc => hc c (List.mem_cons_of_mem _ hcc)) h,
          List.getElem?_set_ne hj]

end

end RUSure.Memory
