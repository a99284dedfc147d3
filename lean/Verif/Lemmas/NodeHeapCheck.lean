import Verif.Lemmas.NodeHeap

/-!
# The check of linked nodes
-/

namespace RUSure.NodeHeap

theorem nodeEq_self (fuel : Nat) (h : Heap) (a : Nat) : nodeEq fuel h a a = .ok true := by
  cases fuel <;> simp [nodeEq]

/-- Nodes that are equal have the same ranges and annotations. -/
theorem nodeEq_true {fuel : Nat} {h : Heap} {a b : Nat} (e : nodeEq fuel h a b = .ok true) :
    (h.get a).lo = (h.get b).lo ∧ (h.get a).hi = (h.get b).hi ∧ (h.get a).ann = (h.get b).ann := by
  by_cases hab : a = b
  · subst hab; exact ⟨rfl, rfl, rfl⟩
  · cases fuel with
    | zero => rw [nodeEq, if_neg hab] at e; cases e
    | succ fuel =>
      rw [nodeEq] at e
      simp only [if_neg hab] at e
      by_cases hr : (h.get a).lo ≠ (h.get b).lo ∨ (h.get a).hi ≠ (h.get b).hi
      · rw [if_pos hr] at e; cases e
      · rw [if_neg hr] at e
        have h1 : (h.get a).lo = (h.get b).lo := Classical.byContradiction fun h => hr (.inl h)
        have h2 : (h.get a).hi = (h.get b).hi := Classical.byContradiction fun h => hr (.inr h)
        refine ⟨h1, h2, ?_⟩
        by_cases ha : (h.get a).ann = (h.get b).ann
        · exact ha
        · exfalso
          simp only [ha, false_and, if_false] at e
          split at e
          · cases e
          · split at e
            · cases e
            · rename_i hne
              exact hne e
          · cases e

theorem checkList_ok {eqFuel : Nat} {chk : Nat → Except Fail Bool} {h : Heap} {a : Nat} : ∀ {cs : List LTree},
    (∀ c ∈ cs, Rep h (some a) c) → (∀ c ∈ cs, chk c.id = .ok c.erase.check) →
    checkList eqFuel chk h a (cs.map LTree.id) = .ok (PNode.checkList (cs.map LTree.erase))
  | [], _, _ => rfl
  | c :: cs, hr, hc => by
    have hcell := (hr c List.mem_cons_self).cell
    rw [List.map_cons, List.map_cons, checkList, PNode.checkList]
    simp only [hcell, nodeEq_self, hc c List.mem_cons_self]
    cases c.erase.check with
    | true =>
      rw [Bool.true_and]
      exact checkList_ok (fun d hd => hr d (List.mem_cons_of_mem _ hd)) fun d hd => hc d (List.mem_cons_of_mem _ hd)
    | false => rfl

theorem check_ok (eqFuel : Nat) (h : Heap) : ∀ (fuel : Nat) (t : LTree) (par : Option Nat), t.depth ≤ fuel →
    Rep h par t → check eqFuel h fuel t.id = .ok t.erase.check
  | 0, t, _, hd, _ => by have := t.depth_pos; omega
  | fuel + 1, .mk id lo hi ann cs, par, hd, r => by
    have hb := r.sub
    have hcell := r.cell
    simp only [LTree.id, LTree.lo, LTree.hi, LTree.ann, LTree.children] at hb hcell
    have hdc := LTree.depth_child hd
    simp only [LTree.children] at hdc
    rw [LTree.erase_mk, LTree.id, check]
    cases cs with
    | nil =>
      simp only [hcell, List.map_nil]
      rw [PNode.check]
    | cons c cs =>
      have hl := checkList_ok (eqFuel := eqFuel) hb fun d hd => check_ok eqFuel h fuel d _ (hdc d hd) (hb d hd)
      have hlo : ∀ d ∈ c :: cs, (h.get d.id).lo = d.erase.lo := fun d hd => by rw [(hb d hd).cell, LTree.erase_lo]
      have hhi : ∀ d ∈ c :: cs, (h.get d.id).hi = d.erase.hi := fun d hd => by rw [(hb d hd).cell, LTree.erase_hi]
      have e1 : (h.get c.id).lo = c.erase.lo := hlo c List.mem_cons_self
      have e2 : ((c.id :: cs.map LTree.id).getLast?.map fun d => (h.get d).hi)
          = (c.erase :: cs.map LTree.erase).getLast?.map PNode.hi := by
        have e3 : c.id :: cs.map LTree.id = (c :: cs).map LTree.id := rfl
        have e4 : c.erase :: cs.map LTree.erase = (c :: cs).map LTree.erase := rfl
        rw [e3, e4, List.getLast?_map, List.getLast?_map]
        cases hd : (c :: cs).getLast? with
        | none => rfl
        | some d => exact congrArg some (hhi d (List.mem_of_getLast? hd))
      have e5 : ((cs.map LTree.id).map fun d => some (h.get d).lo) = (cs.map LTree.erase).map fun n => some n.lo := by
        rw [List.map_map, List.map_map]
        exact List.map_congr_left fun d hd => congrArg some (hlo d (List.mem_cons_of_mem _ hd))
      have e6 : ((c.id :: cs.map LTree.id).dropLast.map fun d => (h.get d).hi)
          = (c.erase :: cs.map LTree.erase).dropLast.map PNode.hi := by
        have e3 : c.id :: cs.map LTree.id = (c :: cs).map LTree.id := rfl
        have e4 : c.erase :: cs.map LTree.erase = (c :: cs).map LTree.erase := rfl
        rw [e3, e4, ← List.map_dropLast, ← List.map_dropLast, List.map_map, List.map_map]
        exact List.map_congr_left fun d hd => hhi d (List.dropLast_subset _ hd)
      simp only [hcell, List.map_cons, e1, e2, e5, e6]
      rw [List.map_cons] at hl
      rw [hl, PNode.check]
      rw [List.map_cons]
      by_cases c1 : lo = c.erase.lo
      · rw [if_neg (not_not.2 c1), beq_iff_eq.2 c1, Bool.true_and]
        by_cases c2 : some hi = (c.erase :: cs.map LTree.erase).getLast?.map PNode.hi
        · rw [if_neg (not_not.2 c2), beq_iff_eq.2 c2, Bool.true_and]
          cases hi with
          | none => rfl
          | some hi =>
            rw [if_neg (by simp), Option.isSome_some, Bool.true_and]
            by_cases c3 : ((cs.map LTree.erase).map fun n => some n.lo)
                = (c.erase :: cs.map LTree.erase).dropLast.map PNode.hi
            · rw [if_neg (not_not.2 c3), beq_iff_eq.2 c3, Bool.true_and]
            · rw [if_pos c3, beq_eq_false_iff_ne.2 c3, Bool.false_and]
        · rw [if_pos c2, beq_eq_false_iff_ne.2 c2, Bool.false_and, Bool.false_and, Bool.false_and]
      · rw [if_pos c1, beq_eq_false_iff_ne.2 c1, Bool.false_and, Bool.false_and, Bool.false_and, Bool.false_and]

theorem validParseRanges_ok {fuel : Nat} {h : Heap} {t : LTree} {par : Option Nat} (hd : t.depth ≤ fuel)
    (r : Rep h par t) (n : Nat) : validParseRanges fuel h t.id n = .ok (RUSure.validParseRanges t.erase n) := by
  unfold validParseRanges RUSure.validParseRanges
  rw [check_ok fuel h fuel t par hd r, r.cell]
  simp only [LTree.erase_lo, LTree.erase_hi]
  by_cases c : t.lo = 0 ∧ t.hi = some n
  · rw [if_pos c, beq_iff_eq.2 c.1, beq_iff_eq.2 c.2]; rfl
  · rw [if_neg c]
    congr 1
    symm
    rw [Bool.and_eq_false_iff, Bool.and_eq_false_iff, beq_eq_false_iff_ne, beq_eq_false_iff_ne]
    by_cases c1 : t.lo = 0
    · exact .inl (.inr fun c2 => c ⟨c1, c2⟩)
    · exact .inl (.inl c1)

theorem checkList_mem {eqFuel : Nat} {chk : Nat → Except Fail Bool} {h : Heap} {a : Nat} : ∀ {l : List Nat},
    checkList eqFuel chk h a l = .ok true → ∀ c ∈ l, (∃ p, (h.get c).parent = some p ∧ nodeEq eqFuel h p a = .ok true)
      ∧ chk c = .ok true
  | [], _, _, hc => by cases hc
  | d :: l, e, c, hc => by
    rw [checkList] at e
    cases hp : (h.get d).parent with
    | none => rw [hp] at e; cases e
    | some p =>
      rw [hp] at e
      simp only at e
      cases he : nodeEq eqFuel h p a with
      | error x => rw [he] at e; cases e
      | ok b =>
        rw [he] at e
        cases b with
        | false => cases e
        | true =>
          simp only at e
          cases hk : chk d with
          | error x => rw [hk] at e; cases e
          | ok b =>
            rw [hk] at e
            cases b with
            | false => cases e
            | true =>
              simp only at e
              rcases List.mem_cons.1 hc with rfl | hc
              · exact ⟨⟨p, hp, he⟩, hk⟩
              · exact checkList_mem e c hc

theorem check_below {eqFuel : Nat} {h : Heap} {fuel root : Nat} (e : check eqFuel h fuel root = .ok true) {a : Nat}
    (b : Below h root a) : ∃ fuel', check eqFuel h fuel' a = .ok true := by
  induction b with
  | root => exact ⟨fuel, e⟩
  | @child a c _ hc ih =>
    obtain ⟨f, e⟩ := ih
    cases f with
    | zero => cases e
    | succ f =>
      rw [check] at e
      cases hk : (h.get a).children with
      | nil => rw [hk] at hc; cases hc
      | cons d l =>
        rw [hk] at e hc
        simp only at e
        split at e
        · cases e
        split at e
        · cases e
        split at e
        · cases e
        split at e
        · cases e
        exact ⟨f, (checkList_mem e c hc).2⟩

theorem check_parents {eqFuel : Nat} {h : Heap} {fuel a : Nat} (e : check eqFuel h fuel a = .ok true) :
    ∀ c ∈ (h.get a).children, ∃ p, (h.get c).parent = some p ∧ nodeEq eqFuel h p a = .ok true := by
  intro c hc
  cases fuel with
  | zero => cases e
  | succ f =>
    rw [check] at e
    cases hk : (h.get a).children with
    | nil => rw [hk] at hc; cases hc
    | cons d l =>
      rw [hk] at e hc
      simp only at e
      split at e
      · cases e
      split at e
      · cases e
      split at e
      · cases e
      split at e
      · cases e
      exact (checkList_mem e c hc).1

end RUSure.NodeHeap
