import Verif.Lemmas.NodeHeap

/-!
# Bracket matching with linked nodes
-/

namespace RUSure.NodeHeap
variable {T : Type}

/-- An open bracket: the opener, its position, the siblings before it, and the addresses of its nodes. -/
structure OpenL (T : Type) where
  opener : T
  lo : Nat
  before : List LTree
  n : Nat
  l : Nat
  m : Nat

/-- The variable `parent`. -/
def curOf (root : Nat) : List (OpenL T) → Nat
  | [] => root
  | g :: _ => g.m

/-- The addresses of all nodes but those in the current parent. -/
def stackIds (root : Nat) : List (OpenL T) → List Nat
  | [] => [root]
  | g :: gs => g.m :: g.n :: g.l :: (g.before.flatMap LTree.ids ++ stackIds root gs)

/-- The nodes of the open brackets. -/
inductive Chain (h : Heap) (len root : Nat) : List (OpenL T) → List Nat → Prop
  | nil {kids : List Nat} (cell : h.get root = ⟨0, some len, none, .root, kids⟩) : Chain h len root [] kids
  | cons {g : OpenL T} {gs : List (OpenL T)} {kids : List Nat}
      (middle : h.get g.m = ⟨g.lo + 1, none, some g.n, .middle, kids⟩)
      (pair : h.get g.n = ⟨g.lo, none, some (curOf root gs), .paired, [g.l, g.m]⟩)
      (left : h.get g.l = ⟨g.lo, some (g.lo + 1), some g.n, .left, []⟩)
      (before : ∀ c ∈ g.before, Rep h (some (curOf root gs)) c)
      (rest : Chain h len root gs (g.before.map LTree.id ++ [g.n])) : Chain h len root (g :: gs) kids

theorem curOf_mem (root : Nat) (gs : List (OpenL T)) : curOf root gs ∈ stackIds root gs := by
  cases gs <;> exact List.mem_cons_self

theorem Chain.congr {h h' : Heap} {len root : Nat} {gs : List (OpenL T)} {kids : List Nat} (c : Chain h len root gs kids)
    (e : ∀ a ∈ stackIds root gs, h'.get a = h.get a) : Chain h' len root gs kids := by
  induction c with
  | nil cell => exact .nil ((e _ List.mem_cons_self).trans cell)
  | @cons g gs kids middle pair left before rest ih =>
    rw [stackIds] at e
    simp only [List.forall_mem_cons, List.forall_mem_append] at e
    exact .cons (e.1.trans middle) (e.2.1.trans pair) (e.2.2.1.trans left)
      (fun c hc => (before c hc).congr fun a ha => e.2.2.2.1 a (mem_flat hc ha)) (ih e.2.2.2.2)

theorem Chain.kids {h h' : Heap} {len root : Nat} {gs : List (OpenL T)} {kids kids' : List Nat}
    (c : Chain h len root gs kids) (hn : (stackIds root gs).Nodup)
    (e : ∀ a ∈ stackIds root gs, a ≠ curOf root gs → h'.get a = h.get a)
    (e' : h'.get (curOf root gs) = { h.get (curOf root gs) with children := kids' }) :
    Chain h' len root gs kids' := by
  cases c with
  | nil cell =>
    rw [curOf] at e'
    exact .nil (by rw [e', cell])
  | @cons g gs _ middle pair left before rest =>
    rw [curOf] at e'
    rw [stackIds] at e hn
    have hm := (List.nodup_cons.1 hn).1
    have e1 : ∀ a ∈ g.n :: g.l :: (g.before.flatMap LTree.ids ++ stackIds root gs), h'.get a = h.get a :=
      fun a ha => e a (List.mem_cons_of_mem _ ha) fun h => hm (by rw [curOf] at h; exact h ▸ ha)
    simp only [List.forall_mem_cons, List.forall_mem_append] at e1
    exact .cons (by rw [e', middle]) (e1.1.trans pair) (e1.2.1.trans left)
      (fun c hc => (before c hc).congr fun a ha => e1.2.2.1 a (mem_flat hc ha)) (rest.congr e1.2.2.2)

/-- The state of the loop, in terms of trees. -/
structure Inv (h0 : Heap) (len root : Nat) (st : MatchState T) (gs : List (OpenL T)) (cs : List LTree) : Prop where
  chain : Chain st.heap len root gs (cs.map LTree.id)
  rep : ∀ c ∈ cs, Rep st.heap (some (curOf root gs)) c
  nodup : (stackIds root gs ++ cs.flatMap LTree.ids).Nodup
  exist : ∀ a ∈ stackIds root gs ++ cs.flatMap LTree.ids, h0.next ≤ a ∧ a < st.heap.next
  next : h0.next ≤ st.heap.next
  frame : ∀ a < h0.next, st.heap.get a = h0.get a
  stack : st.stack = gs.map OpenL.opener
  parent : st.parent = curOf root gs

/-- The state of the loop on values. -/
def eraseSt (gs : List (OpenL T)) (cs : List LTree) : RUSure.MatchState T :=
  ⟨gs.map fun g => ⟨g.opener, g.lo, g.before.map LTree.erase⟩, cs.map LTree.erase⟩

variable {h0 : Heap} {len root : Nat} {st : MatchState T} {gs : List (OpenL T)} {cs : List LTree}

theorem Inv.cur_lt (I : Inv h0 len root st gs cs) : h0.next ≤ curOf root gs ∧ curOf root gs < st.heap.next :=
  I.exist _ (List.mem_append_left _ (curOf_mem root gs))

theorem Inv.cur_kids (I : Inv h0 len root st gs cs) : (st.heap.get (curOf root gs)).children = cs.map LTree.id := by
  have := I.chain
  cases this with
  | nil cell => rw [curOf, cell]
  | cons middle => rw [curOf, middle]

theorem addLeaf_inv (I : Inv h0 len root st gs cs) (i : Nat) :
    Inv h0 len root (addLeaf i st) gs (cs ++ [.mk st.heap.next i (some (i + 1)) .sibling []]) := by
  have hcur := I.cur_lt
  obtain ⟨n1, n2, n3⟩ := List.nodup_append.1 I.nodup
  have hget : ∀ a, (addLeaf i st).heap.get a = if a = curOf root gs
      then { st.heap.get a with children := cs.map LTree.id ++ [st.heap.next] }
      else if a = st.heap.next then ⟨i, some (i + 1), some (curOf root gs), .sibling, []⟩ else st.heap.get a := by
    intro a
    simp only [addLeaf, appendChild, setChildren, set_get, alloc_get, I.parent, if_neg hcur.2.ne, I.cur_kids]
    by_cases ha : a = curOf root gs
    · rw [if_pos ha, if_pos ha, ha]
    · rw [if_neg ha, if_neg ha]
  have hlt : ∀ a ∈ stackIds root gs ++ cs.flatMap LTree.ids, a ≠ st.heap.next := fun a ha => (I.exist a ha).2.ne
  refine ⟨?_, ?_, ?_, ?_, ?_, ?_, I.stack, I.parent⟩
  · refine I.chain.kids n1 (fun a ha hne => ?_) ?_
    · rw [hget, if_neg hne, if_neg (hlt a (List.mem_append_left _ ha))]
    · rw [hget, if_pos rfl, List.map_append]; rfl
  · intro c hc
    rcases List.mem_append.1 hc with hc | hc
    · refine (I.rep c hc).congr fun a ha => ?_
      have ha' := mem_flat hc ha
      rw [hget, if_neg (fun e => n3 _ (curOf_mem root gs) a ha' e.symm),
        if_neg (hlt a (List.mem_append_right _ ha'))]
    · cases List.mem_singleton.1 hc
      exact .mk (by rw [hget, if_neg hcur.2.ne', if_pos rfl]; rfl) (by simp)
  · rw [List.flatMap_append, ← List.append_assoc, List.nodup_append]
    refine ⟨I.nodup, by simp, fun a ha b hb => ?_⟩
    simp at hb
    rw [hb]
    exact hlt a ha
  · intro a ha
    rw [List.flatMap_append, ← List.append_assoc] at ha
    change _ ∧ a < st.heap.next + 1
    rcases List.mem_append.1 ha with ha | ha
    · have := I.exist a ha; omega
    · have := I.next
      simp at ha; omega
  · exact I.next.trans (Nat.le_succ _)
  · intro a ha
    have := I.next
    rw [hget, if_neg (by omega), if_neg (by omega), I.frame a ha]

theorem openPair_inv (I : Inv h0 len root st gs cs) (i : Nat) (t : T) :
    Inv h0 len root (openPair i t st)
      (⟨t, i, cs, st.heap.next, st.heap.next + 1, st.heap.next + 2⟩ :: gs) [] := by
  have hcur := I.cur_lt
  obtain ⟨n1, n2, n3⟩ := List.nodup_append.1 I.nodup
  have hget : ∀ a, (openPair i t st).heap.get a = if a = curOf root gs
      then { st.heap.get a with children := cs.map LTree.id ++ [st.heap.next] }
      else if a = st.heap.next
      then ⟨i, none, some (curOf root gs), .paired, [st.heap.next + 1, st.heap.next + 2]⟩
      else if a = st.heap.next + 1 then ⟨i, some (i + 1), some st.heap.next, .left, []⟩
      else if a = st.heap.next + 2 then ⟨i + 1, none, some st.heap.next, .middle, []⟩
      else st.heap.get a := by
    intro a
    have e0 : (st.heap.next = curOf root gs) = False := by simp; omega
    have e1 : (st.heap.next + 1 = curOf root gs) = False := by simp; omega
    have e2 : (curOf root gs = st.heap.next) = False := by simp; omega
    have e3 : (curOf root gs = st.heap.next + 1) = False := by simp; omega
    have e4 : (curOf root gs = st.heap.next + 1 + 1) = False := by simp; omega
    have e5 : (st.heap.next = st.heap.next + 1) = False := by simp
    have e6 : (st.heap.next = st.heap.next + 1 + 1) = False := by simp only [eq_iff_iff, iff_false]; omega
    simp only [openPair, appendChild, setChildren, set_get, alloc_get, set_next, alloc_next, I.parent,
      e0, e1, e2, e3, e4, e5, e6, if_false, if_true, List.nil_append, List.cons_append]
    by_cases h1 : a = curOf root gs
    · subst h1
      simp only [e2, e3, e4, if_true, if_false, I.cur_kids]
    · simp only [if_neg h1]
      by_cases h2 : a = st.heap.next
      · simp only [if_pos h2]
      · simp only [if_neg h2]
        by_cases h3 : a = st.heap.next + 1
        · have a2 : ¬ a = st.heap.next + 1 + 1 := by omega
          simp only [if_pos h3, if_neg a2]
        · simp only [if_neg h3]
  have hlt : ∀ a ∈ stackIds root gs ++ cs.flatMap LTree.ids, a < st.heap.next := fun a ha => (I.exist a ha).2
  have hold : ∀ a < st.heap.next, a ≠ curOf root gs → (openPair i t st).heap.get a = st.heap.get a := by
    intro a ha hne
    rw [hget, if_neg hne, if_neg ha.ne, if_neg (by omega), if_neg (by omega)]
  refine ⟨.cons ?_ ?_ ?_ ?_ ?_, by simp, ?_, ?_, ?_, ?_, ?_, rfl⟩
  · rw [hget, if_neg (by simp only; omega), if_neg (by simp only; omega), if_neg (by simp only; omega), if_pos rfl]; rfl
  · rw [hget, if_neg (by simp only; omega), if_pos rfl]
  · rw [hget, if_neg (by simp only; omega), if_neg (by simp only; omega), if_pos rfl]
  · intro c hc
    refine (I.rep c hc).congr fun a ha => ?_
    have ha' := mem_flat hc ha
    exact hold a (hlt a (List.mem_append_right _ ha')) fun e => n3 _ (curOf_mem root gs) a ha' e.symm
  · refine I.chain.kids n1 (fun a ha hne => hold a (hlt a (List.mem_append_left _ ha)) hne) ?_
    rw [hget, if_pos rfl]
  · rw [List.flatMap_nil, List.append_nil, stackIds]
    have hp : (cs.flatMap LTree.ids ++ stackIds root gs).Nodup :=
      (List.perm_append_comm.nodup_iff).1 I.nodup
    have hlt' : ∀ a ∈ cs.flatMap LTree.ids ++ stackIds root gs, a < st.heap.next := fun a ha =>
      hlt a (List.mem_append.2 (List.mem_append.1 ha).symm)
    refine List.nodup_cons.2 ⟨fun hm => ?_, List.nodup_cons.2 ⟨fun hm => ?_, List.nodup_cons.2 ⟨fun hm => ?_, hp⟩⟩⟩
    · rcases List.mem_cons.1 hm with e | hm
      · simp only at e; omega
      · rcases List.mem_cons.1 hm with e | hm
        · simp only at e; omega
        · have := hlt' _ hm; simp only at this; omega
    · rcases List.mem_cons.1 hm with e | hm
      · simp only at e; omega
      · have := hlt' _ hm; simp only at this; omega
    · have := hlt' _ hm; simp only at this; omega
  · intro a ha
    rw [List.flatMap_nil, List.append_nil, stackIds] at ha
    change _ ∧ a < st.heap.next + 1 + 1 + 1
    have := I.next
    simp only [List.mem_cons] at ha
    rcases ha with rfl | rfl | rfl | ha
    · omega
    · omega
    · omega
    · have := I.exist a (List.mem_append.2 (List.mem_append.1 ha).symm)
      omega
  · have := I.next
    change _ ≤ st.heap.next + 1 + 1 + 1
    omega
  · intro a ha
    have := I.next
    rw [hold a (by omega) (by omega), I.frame a ha]
  · change t :: st.stack = _
    rw [I.stack]; rfl

theorem closePair_inv {g : OpenL T} (I : Inv h0 len root st (g :: gs) cs) (i : Nat) :
    ∃ st', closePair i (gs.map OpenL.opener) st = .ok st' ∧ Inv h0 len root st' gs
      (g.before ++ [.mk g.n g.lo (some (i + 1)) .paired [.mk g.l g.lo (some (g.lo + 1)) .left [],
        .mk g.m (g.lo + 1) (some i) .middle cs, .mk st.heap.next i (some (i + 1)) .right []]]) := by
  have hc := I.chain
  cases hc with
  | @cons _ _ _ middle pair left before rest =>
    have hnd := I.nodup
    rw [stackIds] at hnd
    simp only [List.cons_append, List.nodup_cons, List.mem_cons, not_or] at hnd
    obtain ⟨⟨hmn, hml, hmr⟩, ⟨hnl, hnr⟩, hlr, hnd⟩ := hnd
    have hmlt := I.exist g.m (by rw [stackIds]; simp)
    have hnlt := I.exist g.n (by rw [stackIds]; simp)
    have hllt := I.exist g.l (by rw [stackIds]; simp)
    have hrlt : ∀ a ∈ (g.before.flatMap LTree.ids ++ stackIds root gs) ++ cs.flatMap LTree.ids,
        h0.next ≤ a ∧ a < st.heap.next := by
      intro a ha
      apply I.exist a
      rw [stackIds]
      simp only [List.cons_append, List.mem_cons]
      exact .inr (.inr (.inr ha))
    have hpar : st.parent = g.m := I.parent
    let h3 : Heap := ⟨fun a => if a = g.m then { st.heap.get a with hi := some i }
      else if a = g.n then ⟨g.lo, some (i + 1), some (curOf root gs), .paired, [g.l, g.m, st.heap.next]⟩
      else if a = st.heap.next then ⟨i, some (i + 1), some g.n, .right, []⟩ else st.heap.get a, st.heap.next + 1⟩
    have hrun : closePair i (gs.map OpenL.opener) st = .ok ⟨h3, gs.map OpenL.opener, curOf root gs⟩ := by
      have e1 : (g.n = g.m) = False := by simp only [eq_iff_iff, iff_false]; exact fun e => hmn e.symm
      have e2 : (g.n = st.heap.next) = False := by simp only [eq_iff_iff, iff_false]; omega
      simp only [closePair, hpar, middle, pair, appendChild, setChildren, set_get, alloc_get, set_next, e1, e2, if_true,
        if_false, List.cons_append, List.nil_append, Except.ok.injEq, MatchState.mk.injEq, and_true]
      simp only [Heap.set, Heap.alloc, h3]
      congr 1
      funext a
      by_cases a1 : a = g.n
      · have : ¬ a = g.m := fun e => hmn (e.symm.trans a1)
        simp only [if_pos a1, if_neg this]
      · simp only [if_neg a1]
        by_cases a2 : a = g.m
        · subst a2
          have : ¬ g.m = st.heap.next := by omega
          simp only [if_neg this, if_true, middle]
        · simp only [if_neg a2]
    have hold : ∀ a ∈ (g.before.flatMap LTree.ids ++ stackIds root gs) ++ cs.flatMap LTree.ids,
        h3.get a = st.heap.get a := by
      intro a ha
      have hlt := (hrlt a ha).2
      simp only [h3]
      rw [if_neg (fun e : a = g.m => hmr (e ▸ ha)), if_neg (fun e : a = g.n => hnr (e ▸ ha)), if_neg hlt.ne]
    refine ⟨_, hrun, ?_, ?_, ?_, ?_, ?_, ?_, rfl, rfl⟩
    · have : (g.before ++ [LTree.mk g.n g.lo (some (i + 1)) .paired [.mk g.l g.lo (some (g.lo + 1)) .left [],
          .mk g.m (g.lo + 1) (some i) .middle cs, .mk st.heap.next i (some (i + 1)) .right []]]).map LTree.id
          = g.before.map LTree.id ++ [g.n] := by rw [List.map_append]; rfl
      rw [this]
      exact rest.congr fun a ha => hold a (List.mem_append_left _ (List.mem_append_right _ ha))
    · intro c hc
      rcases List.mem_append.1 hc with hc | hc
      · exact (before c hc).congr fun a ha =>
          hold a (List.mem_append_left _ (List.mem_append_left _ (mem_flat hc ha)))
      · cases List.mem_singleton.1 hc
        refine .mk ?_ ?_
        · simp only [h3]
          rw [if_neg (fun e => hmn e.symm), if_pos trivial]; rfl
        · intro d hd
          simp only [List.mem_cons, List.not_mem_nil, or_false] at hd
          rcases hd with rfl | rfl | rfl
          · refine .mk ?_ (by simp)
            simp only [h3]
            rw [if_neg (fun e => hml e.symm), if_neg (fun e => hnl e.symm), if_neg hllt.2.ne, left]; rfl
          · refine .mk ?_ ?_
            · simp only [h3]
              rw [if_pos trivial, middle]
            · intro c hc
              exact (I.rep c hc).congr fun a ha => hold a (List.mem_append_right _ (mem_flat hc ha))
          · refine .mk ?_ (by simp)
            simp only [h3]
            rw [if_neg (by omega), if_neg (by omega), if_pos trivial]; rfl
    · have hp : (stackIds root gs ++ (g.before ++ [LTree.mk g.n g.lo (some (i + 1)) .paired
          [.mk g.l g.lo (some (g.lo + 1)) .left [], .mk g.m (g.lo + 1) (some i) .middle cs,
          .mk st.heap.next i (some (i + 1)) .right []]]).flatMap LTree.ids).Perm
          (st.heap.next :: g.m :: g.n :: g.l :: (g.before.flatMap LTree.ids ++ stackIds root gs ++ cs.flatMap LTree.ids)) := by
        rw [List.flatMap_append]
        simp only [List.flatMap_cons, List.flatMap_nil, List.append_nil, LTree.ids_mk, List.cons_append,
          List.nil_append]
        rw [List.perm_iff_count]
        intro a
        simp only [List.count_append, List.count_cons, List.count_nil]
        omega
      rw [hp.nodup_iff]
      refine List.nodup_cons.2 ⟨?_, ?_⟩
      · simp only [List.mem_cons, not_or]
        exact ⟨by omega, by omega, by omega, fun hm => absurd (hrlt _ hm).2 (by omega)⟩
      · simp only [List.nodup_cons, List.mem_cons, not_or]
        exact ⟨⟨hmn, hml, hmr⟩, ⟨hnl, hnr⟩, hlr, hnd⟩
    · intro a ha
      have hx := I.next
      change _ ∧ a < st.heap.next + 1
      rw [List.flatMap_append] at ha
      simp only [List.flatMap_cons, List.flatMap_nil, List.append_nil, LTree.ids_mk, List.cons_append,
        List.nil_append, List.mem_append, List.mem_cons, List.not_mem_nil, or_false] at ha
      rcases ha with ha | ha | ha | ha | ha | ha | ha
      · have := hrlt a (List.mem_append_left _ (List.mem_append_right _ ha)); omega
      · have := hrlt a (List.mem_append_left _ (List.mem_append_left _ ha)); omega
      · omega
      · omega
      · omega
      · have := hrlt a (List.mem_append_right _ ha); omega
      · omega
    · exact I.next.trans (Nat.le_succ _)
    · intro a ha
      have hx := I.next
      simp only [h3]
      rw [if_neg (by omega), if_neg (by omega), if_neg (by omega), I.frame a ha]

section
variable [DecidableEq T]

/-- One token: the states correspond. -/
theorem matchStep_inv (I : Inv h0 len root st gs cs) (pairs : List (T × T)) (tolerant : Bool) (i : Nat) (t : T) :
    (∀ e, RUSure.matchStep pairs tolerant i t (eraseSt gs cs) = .error e →
      matchStep pairs tolerant i t st = .error (.py e))
    ∧ ∀ s, RUSure.matchStep pairs tolerant i t (eraseSt gs cs) = .ok s →
      ∃ (st' : MatchState T) (gs' : List (OpenL T)) (cs' : List LTree), matchStep pairs tolerant i t st = .ok st'
        ∧ Inv h0 len root st' gs' cs' ∧ eraseSt gs' cs' = s := by
  have hleaf : ∃ (st' : MatchState T) (gs' : List (OpenL T)) (cs' : List LTree), (.ok (addLeaf i st) : Except Fail _) = .ok st'
      ∧ Inv h0 len root st' gs' cs' ∧ eraseSt gs' cs' = ⟨(eraseSt gs cs).stack, (eraseSt gs cs).children ++ [leafNode i]⟩ :=
    ⟨_, _, _, rfl, addLeaf_inv I i, by simp [eraseSt, leafNode]⟩
  unfold RUSure.matchStep matchStep
  by_cases ho : isOpener pairs t = true
  · simp only [if_pos ho]
    refine ⟨fun e h => (by cases h), fun s h => ?_⟩
    cases h
    exact ⟨_, _, _, rfl, openPair_inv I i t, rfl⟩
  · simp only [if_neg ho]
    cases openerOf pairs t with
    | none =>
      refine ⟨fun e h => (by cases h), fun s h => ?_⟩
      cases h
      exact hleaf
    | some o =>
      cases gs with
      | nil =>
        have hs : st.stack = [] := I.stack
        simp only [hs]
        refine ⟨fun e h => (by cases h), fun s h => ?_⟩
        cases h
        exact ⟨st, [], cs, rfl, I, rfl⟩
      | cons g gs =>
        have hs : st.stack = g.opener :: gs.map OpenL.opener := I.stack
        simp only [hs, eraseSt, List.map_cons]
        by_cases hg : g.opener = o
        · simp only [if_pos hg]
          refine ⟨fun e h => (by cases h), fun s h => ?_⟩
          cases h
          obtain ⟨st', e, I'⟩ := closePair_inv I i
          exact ⟨st', gs, _, e, I', by simp [pairedNode]⟩
        · simp only [if_neg hg]
          cases tolerant with
          | true =>
            refine ⟨fun e h => (by cases h), fun s h => ?_⟩
            cases h
            exact hleaf
          | false => exact ⟨fun e h => (by cases h; rfl), fun s h => (by cases h)⟩

theorem matchLoop_inv (pairs : List (T × T)) (tolerant : Bool) : ∀ (ts : List T) (i : Nat) (st : MatchState T)
    (gs : List (OpenL T)) (cs : List LTree), Inv h0 len root st gs cs →
    (∀ e, RUSure.matchLoop pairs tolerant i ts (eraseSt gs cs) = .error e →
      matchLoop pairs tolerant i ts st = .error (.py e))
    ∧ ∀ s, RUSure.matchLoop pairs tolerant i ts (eraseSt gs cs) = .ok s →
      ∃ (st' : MatchState T) (gs' : List (OpenL T)) (cs' : List LTree), matchLoop pairs tolerant i ts st = .ok st'
        ∧ Inv h0 len root st' gs' cs' ∧ eraseSt gs' cs' = s
  | [], i, st, gs, cs, I => ⟨fun e h => (by cases h), fun s h => by
      cases h
      exact ⟨st, gs, cs, rfl, I, rfl⟩⟩
  | t :: ts, i, st, gs, cs, I => by
    obtain ⟨h1, h2⟩ := matchStep_inv I pairs tolerant i t
    rw [RUSure.matchLoop, matchLoop]
    cases hs : RUSure.matchStep pairs tolerant i t (eraseSt gs cs) with
    | error x =>
      rw [h1 x hs]
      exact ⟨fun e h => (by cases h; rfl), fun s h => (by cases h)⟩
    | ok s =>
      obtain ⟨st', gs', cs', e, I', rfl⟩ := h2 s hs
      rw [e]
      exact matchLoop_inv pairs tolerant ts (i + 1) st' gs' cs' I'

end

/-- The tree when the loop ends. -/
def closeL (len root : Nat) : List (OpenL T) → List LTree → LTree
  | [], cs => .mk root 0 (some len) .root cs
  | g :: gs, cs => closeL len root gs (g.before ++ [.mk g.n g.lo none .paired
      [.mk g.l g.lo (some (g.lo + 1)) .left [], .mk g.m (g.lo + 1) none .middle cs]])

theorem closeL_id (gs : List (OpenL T)) (cs : List LTree) : (closeL len root gs cs).id = root := by
  induction gs generalizing cs with
  | nil => rfl
  | cons g gs ih => exact ih _

theorem closeL_erase (gs : List (OpenL T)) (cs : List LTree) :
    (closeL len root gs cs).erase = .mk 0 (some len) .root (closeUp (eraseSt gs cs).stack (eraseSt gs cs).children) := by
  induction gs generalizing cs with
  | nil => rw [closeL, LTree.erase_mk]; rfl
  | cons g gs ih =>
    rw [closeL, ih]
    simp only [eraseSt, List.map_cons, List.map_append, List.map_nil, LTree.erase_mk, closeUp]

theorem closeL_ids (gs : List (OpenL T)) (cs : List LTree) :
    (closeL len root gs cs).ids.Perm (stackIds root gs ++ cs.flatMap LTree.ids) := by
  induction gs generalizing cs with
  | nil => rw [closeL, LTree.ids_mk]; exact .refl _
  | cons g gs ih =>
    rw [closeL]
    refine (ih _).trans ?_
    rw [List.flatMap_append, stackIds]
    simp only [List.flatMap_cons, List.flatMap_nil, List.append_nil, LTree.ids_mk, List.cons_append, List.nil_append]
    rw [List.perm_iff_count]
    intro a
    simp only [List.count_append, List.count_cons, List.count_nil]
    omega

theorem closeL_rep {h : Heap} {gs : List (OpenL T)} {cs : List LTree} (c : Chain h len root gs (cs.map LTree.id))
    (r : ∀ c ∈ cs, Rep h (some (curOf root gs)) c) : Rep h none (closeL len root gs cs) := by
  generalize hk : cs.map LTree.id = kids at c
  induction c generalizing cs with
  | nil cell => exact .mk (by rw [cell, hk]) r
  | @cons g gs kids middle pair left before rest ih =>
    rw [closeL]
    apply ih
    · intro c hc
      rcases List.mem_append.1 hc with hc | hc
      · exact before c hc
      · cases List.mem_singleton.1 hc
        refine .mk (by rw [pair]; rfl) ?_
        intro d hd
        simp only [List.mem_cons, List.not_mem_nil, or_false] at hd
        rcases hd with rfl | rfl
        · exact .mk (by rw [left]; rfl) (by simp)
        · exact .mk (by rw [middle, hk]) r
    · rw [List.map_append]; rfl

theorem bracketMatch_ok [DecidableEq T] (pairs : List (T × T)) (tolerant : Bool) (h : Heap) (tokens : List T) :
    (∀ e, RUSure.bracketMatch pairs tolerant tokens = .error e →
      bracketMatch pairs tolerant h tokens = .error (.py e))
    ∧ ∀ s, RUSure.bracketMatch pairs tolerant tokens = .ok s →
      ∃ (h' : Heap) (t : LTree), bracketMatch pairs tolerant h tokens = .ok (h', t.id) ∧ t.erase = s ∧ Rep h' none t
        ∧ t.ids.Nodup ∧ (∀ a ∈ t.ids, h.next ≤ a ∧ a < h'.next) ∧ h.next ≤ h'.next
        ∧ ∀ a < h.next, h'.get a = h.get a := by
  have I : Inv h tokens.length h.next
      (⟨h.alloc ⟨0, some tokens.length, none, .root, []⟩, [], h.next⟩ : MatchState T) [] [] := by
    refine ⟨.nil ?_, by simp, by simp [stackIds], by simp [stackIds], Nat.le_succ _, ?_, rfl, rfl⟩
    · simp
    · intro a ha
      simp only [alloc_get, if_neg ha.ne]
  obtain ⟨h1, h2⟩ := matchLoop_inv pairs tolerant tokens 0 _ _ _ I
  unfold RUSure.bracketMatch bracketMatch
  change (∀ e, RUSure.matchLoop pairs tolerant 0 tokens ⟨[], []⟩ = .error e → _) at h1
  change (∀ s, RUSure.matchLoop pairs tolerant 0 tokens ⟨[], []⟩ = .ok s → _) at h2
  cases hs : RUSure.matchLoop pairs tolerant 0 tokens (⟨[], []⟩ : RUSure.MatchState T) with
  | error x =>
    simp only [h1 x hs]
    exact ⟨fun e h => (by cases h; rfl), fun s h => (by cases h)⟩
  | ok s =>
    obtain ⟨st', gs', cs', e, I', rfl⟩ := h2 s hs
    simp only [e]
    have hst : (eraseSt gs' cs').stack ≠ [] ↔ st'.stack ≠ [] := by
      rw [I'.stack, eraseSt]
      cases gs' <;> simp
    by_cases hc : st'.stack ≠ [] ∧ tolerant = false
    · rw [if_pos hc, if_pos ⟨hst.2 hc.1, hc.2⟩]
      exact ⟨fun e h => (by cases h; rfl), fun s h => (by cases h)⟩
    · rw [if_neg hc, if_neg fun h => hc ⟨hst.1 h.1, h.2⟩]
      refine ⟨fun e h => (by cases h), fun s hs => ?_⟩
      cases hs
      have hp := closeL_ids (len := tokens.length) (root := h.next) gs' cs'
      exact ⟨_, closeL tokens.length h.next gs' cs', by rw [closeL_id], closeL_erase gs' cs',
        closeL_rep I'.chain I'.rep, hp.nodup_iff.2 I'.nodup, fun a ha => I'.exist a (hp.mem_iff.1 ha), I'.next, I'.frame⟩

end RUSure.NodeHeap
