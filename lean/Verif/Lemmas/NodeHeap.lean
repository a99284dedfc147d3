import Verif.Spec.NodeHeap
import Mathlib.Order.Lattice
import Mathlib.Order.Nat
import Mathlib.Data.List.Basic
import Mathlib.Data.List.Nodup
import Mathlib.Data.List.Forall2

/-!
# Lemmas about linked nodes
-/

namespace RUSure.NodeHeap

/-! ### Trees with addresses -/

theorem LTree.id_mem (t : LTree) : t.id ∈ t.ids := by cases t; rw [ids]; exact List.mem_cons_self

@[simp] theorem LTree.erase_mk (a lo hi ann cs) :
    (LTree.mk a lo hi ann cs).erase = .mk lo hi ann (cs.map erase) := by rw [erase]

@[simp] theorem LTree.ids_mk (a lo hi ann cs) :
    (LTree.mk a lo hi ann cs).ids = a :: cs.flatMap ids := by rw [ids]

@[simp] theorem LTree.erase_lo (t : LTree) : t.erase.lo = t.lo := by cases t; simp [PNode.lo, lo]
@[simp] theorem LTree.erase_hi (t : LTree) : t.erase.hi = t.hi := by cases t; simp [PNode.hi, hi]
@[simp] theorem LTree.erase_ann (t : LTree) : t.erase.ann = t.ann := by cases t; simp [PNode.ann, ann]
@[simp] theorem LTree.erase_children (t : LTree) : t.erase.children = t.children.map erase := by
  cases t; simp [PNode.children, children]

theorem foldr_max_le {l : List Nat} {n : Nat} : l.foldr max 0 ≤ n ↔ ∀ x ∈ l, x ≤ n := by
  induction l with
  | nil => simp
  | cons a l ih => rw [List.foldr_cons, Nat.max_le, ih, List.forall_mem_cons]

theorem LTree.depth_mk (a lo hi ann cs) :
    (LTree.mk a lo hi ann cs).depth = (cs.map depth).foldr max 0 + 1 := by rw [depth]

theorem LTree.depth_pos (t : LTree) : 0 < t.depth := by cases t; rw [depth_mk]; omega

theorem LTree.depth_child {t : LTree} {f : Nat} (h : t.depth ≤ f + 1) : ∀ c ∈ t.children, c.depth ≤ f := by
  cases t with
  | mk a lo hi ann cs =>
    rw [depth_mk] at h
    intro c hc
    exact foldr_max_le.1 (Nat.le_of_succ_le_succ h) _ (List.mem_map_of_mem hc)

/-- The number of levels of a value. -/
def valueDepth : PNode → Nat
  | .mk _ _ _ cs => (cs.map valueDepth).foldr max 0 + 1

theorem depth_erase : ∀ t : LTree, valueDepth t.erase = t.depth
  | .mk a lo hi ann cs => by
    rw [LTree.erase_mk, valueDepth, LTree.depth_mk, List.map_map]
    congr 2
    exact List.map_congr_left fun c _ => depth_erase c

theorem mem_flat {cs : List LTree} {c : LTree} (hc : c ∈ cs) {a : Nat} (ha : a ∈ c.ids) :
    a ∈ cs.flatMap LTree.ids := List.mem_flatMap.2 ⟨c, hc, ha⟩

theorem roots_mem {cs : List LTree} {a : Nat} (ha : a ∈ cs.map LTree.id) : a ∈ cs.flatMap LTree.ids := by
  obtain ⟨c, hc, rfl⟩ := List.mem_map.1 ha
  exact mem_flat hc c.id_mem

/-- In trees without common addresses a root only occurs as a root. -/
theorem root_unique {cs : List LTree} (hn : (cs.flatMap LTree.ids).Nodup) {c d : LTree} (hc : c ∈ cs) (hd : d ∈ cs)
    {a : Nat} (h1 : a ∈ c.ids) (h2 : a ∈ d.ids) : c = d := by
  induction cs with
  | nil => cases hc
  | cons x cs ih =>
    rw [List.flatMap_cons, List.nodup_append] at hn
    rcases List.mem_cons.1 hc with hc' | hc' <;> rcases List.mem_cons.1 hd with hd' | hd'
    · rw [hc', hd']
    · exact absurd rfl (hn.2.2 a (hc' ▸ h1) a (mem_flat hd' h2))
    · exact absurd rfl (hn.2.2 a (hd' ▸ h2) a (mem_flat hc' h1))
    · exact ih hn.2.1 hc' hd'

theorem nodup_child {cs : List LTree} (hn : (cs.flatMap LTree.ids).Nodup) {c : LTree} (hc : c ∈ cs) :
    c.ids.Nodup := (List.nodup_flatMap.1 hn).1 c hc

theorem roots_nodup {cs : List LTree} (hn : (cs.flatMap LTree.ids).Nodup) : (cs.map LTree.id).Nodup := by
  induction cs with
  | nil => exact List.nodup_nil
  | cons x cs ih =>
    rw [List.flatMap_cons, List.nodup_append] at hn
    rw [List.map_cons, List.nodup_cons]
    exact ⟨fun h => hn.2.2 _ x.id_mem _ (roots_mem h) rfl, ih hn.2.1⟩

/-! ### Representation -/

theorem Rep.cell {h : Heap} {par : Option Nat} {t : LTree} (r : Rep h par t) :
    h.get t.id = ⟨t.lo, t.hi, par, t.ann, t.children.map LTree.id⟩ := by
  cases r with
  | mk cell _ => exact cell

theorem Rep.sub {h : Heap} {par : Option Nat} {t : LTree} (r : Rep h par t) :
    ∀ c ∈ t.children, Rep h (some t.id) c := by
  cases r with
  | mk _ below => exact below

theorem Rep.congr {h h' : Heap} {par : Option Nat} {t : LTree} (r : Rep h par t)
    (e : ∀ a ∈ t.ids, h'.get a = h.get a) : Rep h' par t := by
  induction r with
  | mk cell below ih =>
    rw [LTree.ids_mk] at e
    exact .mk ((e _ List.mem_cons_self).trans cell)
      fun c hc => ih c hc fun a ha => e a (List.mem_cons_of_mem _ (mem_flat hc ha))

/-- Only the parent of the root changes. -/
theorem Rep.reparent {h h' : Heap} {par q : Option Nat} {t : LTree} (r : Rep h par t) (hn : t.ids.Nodup)
    (e : ∀ a ∈ t.ids, a ≠ t.id → h'.get a = h.get a) (e' : h'.get t.id = { h.get t.id with parent := q }) :
    Rep h' q t := by
  cases r with
  | @mk _ id lo hi ann cs cell below =>
    rw [LTree.ids_mk] at e hn
    refine .mk (by rw [show (LTree.mk id lo hi ann cs).id = id from rfl] at e'; rw [e', cell]) fun c hc =>
      (below c hc).congr fun a ha => e a (List.mem_cons_of_mem _ (mem_flat hc ha)) ?_
    rintro rfl
    exact (List.nodup_cons.1 hn).1 (mem_flat hc ha)

/-! ### Operations on the heap -/

@[simp] theorem set_get (h : Heap) (a : Nat) (c : Cell) (b : Nat) :
    (h.set a c).get b = if b = a then c else h.get b := rfl
@[simp] theorem set_next (h : Heap) (a : Nat) (c : Cell) : (h.set a c).next = h.next := rfl
@[simp] theorem alloc_get (h : Heap) (c : Cell) (b : Nat) :
    (h.alloc c).get b = if b = h.next then c else h.get b := rfl
@[simp] theorem alloc_next (h : Heap) (c : Cell) : (h.alloc c).next = h.next + 1 := rfl

theorem setParents_next (h : Heap) (n : Nat) (l : List Nat) : (setParents h n l).next = h.next := by
  unfold setParents
  induction l generalizing h with
  | nil => rfl
  | cons a l ih => rw [List.foldl_cons, ih]; rfl

theorem setParents_get (h : Heap) (n : Nat) (l : List Nat) (a : Nat) :
    (setParents h n l).get a = if a ∈ l then { h.get a with parent := some n } else h.get a := by
  unfold setParents
  induction l generalizing h with
  | nil => rfl
  | cons b l ih =>
    rw [List.foldl_cons, ih]
    simp only [setParent, set_get, List.mem_cons]
    by_cases h1 : a ∈ l <;> by_cases h2 : a = b <;> simp [h1, h2]

/-- Setting the parents of the roots of trees. -/
theorem rep_setParents {h : Heap} {n : Nat} {cs : List LTree} (hn : (cs.flatMap LTree.ids).Nodup)
    (r : ∀ c ∈ cs, ∃ par, Rep h par c) : ∀ c ∈ cs, Rep (setParents h n (cs.map LTree.id)) (some n) c := by
  intro c hc
  obtain ⟨par, rc⟩ := r c hc
  refine rc.reparent (nodup_child hn hc) (fun a ha hne => ?_) ?_
  · rw [setParents_get, if_neg]
    intro hm
    obtain ⟨d, hd, rfl⟩ := List.mem_map.1 hm
    exact hne (congrArg LTree.id (root_unique hn hd hc d.id_mem ha))
  · rw [setParents_get, if_pos (List.mem_map_of_mem hc)]

/-! ### Copies -/

/-- A copy of `t` in new objects. -/
structure Copied (h h' : Heap) (par : Option Nat) (t t' : LTree) : Prop where
  rep : Rep h' par t'
  erase : t'.erase = t.erase
  nodup : t'.ids.Nodup
  fresh : ∀ a ∈ t'.ids, h.next ≤ a ∧ a < h'.next

theorem copyList_ok {copy : Heap → Nat → Except Fail (Heap × Nat)} {cs : List LTree} {par : Option Nat} :
    ∀ {h : Heap}, (∀ c ∈ cs, Rep h par c) → (∀ a ∈ cs.flatMap LTree.ids, a < h.next) →
    (∀ c ∈ cs, ∀ h, Rep h par c → (∀ a ∈ c.ids, a < h.next) → ∃ h' c', copy h c.id = .ok (h', c'.id)
      ∧ h.next ≤ h'.next ∧ (∀ a < h.next, h'.get a = h.get a) ∧ Copied h h' par c c') →
    ∃ (h' : Heap) (cs' : List LTree), copyList copy (cs.map LTree.id) h = .ok (h', cs'.map LTree.id)
      ∧ h.next ≤ h'.next ∧ (∀ a < h.next, h'.get a = h.get a)
      ∧ (∀ c ∈ cs', Rep h' par c) ∧ cs'.map LTree.erase = cs.map LTree.erase ∧ (cs'.flatMap LTree.ids).Nodup
      ∧ ∀ a ∈ cs'.flatMap LTree.ids, h.next ≤ a ∧ a < h'.next := by
  induction cs with
  | nil => exact fun _ _ _ => ⟨_, [], rfl, le_rfl, fun _ _ => rfl, by simp, rfl, by simp, by simp⟩
  | cons c cs ih =>
    intro h hr he ok
    rw [List.flatMap_cons] at he
    obtain ⟨h1, c', e1, n1, f1, k1⟩ := ok c List.mem_cons_self h (hr c List.mem_cons_self)
      (fun a ha => he a (List.mem_append_left _ ha))
    have he' : ∀ a ∈ cs.flatMap LTree.ids, a < h.next := fun a ha => he a (List.mem_append_right _ ha)
    obtain ⟨h2, cs', e2, n2, f2, r2, s2, d2, g2⟩ := ih (h := h1)
      (fun d hd => (hr d (List.mem_cons_of_mem _ hd)).congr fun a ha => f1 a (he' a (mem_flat hd ha)))
      (fun a ha => lt_of_lt_of_le (he' a ha) n1) (fun d hd => ok d (List.mem_cons_of_mem _ hd))
    refine ⟨h2, c' :: cs', ?_, n1.trans n2, fun a ha => (f2 a (lt_of_lt_of_le ha n1)).trans (f1 a ha), ?_, ?_, ?_, ?_⟩
    · rw [List.map_cons, copyList, e1]
      simp only [e2, List.map_cons]
    · intro d hd
      rcases List.mem_cons.1 hd with rfl | hd
      · exact k1.rep.congr fun a ha => f2 a (k1.fresh a ha).2
      · exact r2 d hd
    · rw [List.map_cons, List.map_cons, s2, k1.erase]
    · rw [List.flatMap_cons, List.nodup_append]
      refine ⟨k1.nodup, d2, fun a ha b hb e => ?_⟩
      have := (k1.fresh a ha).2
      have := (g2 b hb).1
      omega
    · intro a ha
      rw [List.flatMap_cons] at ha
      rcases List.mem_append.1 ha with ha | ha
      · exact ⟨(k1.fresh a ha).1, lt_of_lt_of_le (k1.fresh a ha).2 n2⟩
      · exact ⟨n1.trans (g2 a ha).1, (g2 a ha).2⟩

theorem copyNode_ok : ∀ {fuel : Nat} {t : LTree} {h : Heap} {par : Option Nat}, t.depth ≤ fuel → Rep h par t →
    (∀ a ∈ t.ids, a < h.next) → ∃ h' t', copyNode fuel h t.id = .ok (h', t'.id) ∧ h.next ≤ h'.next
      ∧ (∀ a < h.next, h'.get a = h.get a) ∧ Copied h h' par t t'
  | 0, t, _, _, hd, _, _ => by have := t.depth_pos; omega
  | fuel + 1, .mk id lo hi ann cs, h, par, hd, r, he => by
    have hb := r.sub
    have hcell := r.cell
    simp only [LTree.id, LTree.lo, LTree.hi, LTree.ann, LTree.children] at hb hcell
    have hdc := LTree.depth_child hd
    simp only [LTree.children] at hdc
    rw [LTree.ids_mk] at he
    have he' : ∀ a ∈ cs.flatMap LTree.ids, a < h.next := fun a ha => he a (List.mem_cons_of_mem _ ha)
    obtain ⟨h2, cs', e2, n2, f2, r2, s2, d2, g2⟩ := copyList_ok (copy := copyNode fuel) (cs := cs) (par := some id)
      (h := h.alloc ⟨lo, hi, par, ann, []⟩)
      (fun c hc => (hb c hc).congr fun a ha => by
        rw [alloc_get, if_neg (he' a (mem_flat hc ha)).ne])
      (fun a ha => Nat.lt_succ_of_lt (he' a ha)) (fun c hc h r he => copyNode_ok (hdc c hc) r he)
    rw [alloc_next] at n2 f2 g2
    have hnew : h.next ∉ cs'.flatMap LTree.ids := fun hm => by have := (g2 _ hm).1; omega
    have hroot : h.next ∉ cs'.map LTree.id := fun hm => hnew (roots_mem hm)
    refine ⟨setParents (setChildren h2 h.next (cs'.map LTree.id)) h.next (cs'.map LTree.id),
      .mk h.next lo hi ann cs', ?_, ?_, ?_, ⟨.mk ?_ ?_, ?_, ?_, ?_⟩⟩
    · rw [LTree.id, copyNode]
      simp only [hcell, e2]
      rfl
    · rw [setParents_next]
      change h.next ≤ h2.next
      omega
    · intro a ha
      rw [setParents_get, if_neg, setChildren, set_get, if_neg ha.ne, f2 a (Nat.lt_succ_of_lt ha), alloc_get,
        if_neg ha.ne]
      exact fun hm => absurd (g2 a (roots_mem hm)).1 (by omega)
    · rw [setParents_get, if_neg hroot, setChildren, set_get, if_pos rfl, f2 _ (Nat.lt_succ_self _), alloc_get,
        if_pos rfl]
    · exact rep_setParents d2 fun c hc => ⟨_, (r2 c hc).congr fun a ha => by
        rw [setChildren, set_get, if_neg]
        rintro rfl
        exact hnew (mem_flat hc ha)⟩
    · rw [LTree.erase_mk, LTree.erase_mk, s2]
    · rw [LTree.ids_mk]
      exact List.nodup_cons.2 ⟨hnew, d2⟩
    · intro a ha
      rw [setParents_next]
      change _ ∧ a < h2.next
      rw [LTree.ids_mk] at ha
      rcases List.mem_cons.1 ha with rfl | ha
      · exact ⟨le_rfl, by omega⟩
      · have := g2 a ha
        omega

end RUSure.NodeHeap
