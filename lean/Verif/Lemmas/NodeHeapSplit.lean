import Verif.Lemmas.NodeHeap

/-!
# Splitting linked nodes
-/

namespace RUSure.NodeHeap

/-! ### The functions on values -/

section
variable {T : Type} [DecidableEq T]

theorem splitWith_mk (tokens splitters : List T) (unsplit : List (T × T)) (lo : Nat) (hi : Option Nat) (ann : PAnn)
    (cs : List PNode) :
    (PNode.mk lo hi ann cs).splitWith tokens splitters unsplit =
      match if ann = .paired then unsplittable tokens unsplit cs else .ok false with
      | .error e => .error e
      | .ok true => .ok (.mk lo hi ann cs)
      | .ok false =>
        match cs.mapM (isSplitter tokens splitters) with
        | .error e => .error e
        | .ok marks =>
          match PNode.splitList tokens splitters unsplit cs with
          | .error e => .error e
          | .ok cs' => .ok (.mk lo hi ann (regroup ann marks cs')) := by
  rw [PNode.splitWith]
  by_cases hp : ann = .paired
  · simp only [if_pos hp]
    cases unsplittable tokens unsplit cs with
    | error e => rfl
    | ok b =>
      cases b
      · cases cs.mapM (isSplitter tokens splitters) with
        | error e => rfl
        | ok marks => cases PNode.splitList tokens splitters unsplit cs <;> rfl
      · rfl
  · simp only [if_neg hp]
    cases cs.mapM (isSplitter tokens splitters) with
    | error e => rfl
    | ok marks => cases PNode.splitList tokens splitters unsplit cs <;> rfl

theorem splitList_cons (tokens splitters : List T) (unsplit : List (T × T)) (c : PNode) (cs : List PNode) :
    PNode.splitList tokens splitters unsplit (c :: cs) =
      match c.len with
      | .error e => .error e
      | .ok n =>
        match if 1 < n then c.splitWith tokens splitters unsplit else .ok c with
        | .error e => .error e
        | .ok c' =>
          match PNode.splitList tokens splitters unsplit cs with
          | .error e => .error e
          | .ok cs' => .ok (c' :: cs') := by
  rw [PNode.splitList]
  cases c.len with
  | error e => rfl
  | ok n =>
    by_cases hn : 1 < n
    · simp only [if_pos hn]
      change Except.bind (Except.ok n) _ = _
      simp only [Except.bind, if_pos hn]
      cases c.splitWith tokens splitters unsplit with
      | error e => rfl
      | ok c' => cases PNode.splitList tokens splitters unsplit cs <;> rfl
    · simp only [if_neg hn]
      change Except.bind (Except.ok n) _ = _
      simp only [Except.bind, if_neg hn]
      cases PNode.splitList tokens splitters unsplit cs <;> rfl

theorem groupChildren_eq (acc : List PNode) (l : List (PNode × Bool)) :
    groupChildren acc l = (pyGroups acc l).filter fun g => !g.isEmpty := by
  induction l generalizing acc with
  | nil => cases acc <;> rfl
  | cons x l ih =>
    obtain ⟨c, b⟩ := x
    cases b
    · rw [groupChildren, pyGroups, ih]
    · rw [groupChildren, pyGroups, ih, List.filter_cons_of_pos (by cases acc <;> rfl)]

end

theorem pyGroups_map {α β : Type} (f : α → β) (acc : List α) (l : List (α × Bool)) :
    pyGroups (acc.map f) (l.map fun x => (f x.1, x.2)) = (pyGroups acc l).map (List.map f) := by
  induction l generalizing acc with
  | nil => rfl
  | cons x l ih =>
    obtain ⟨c, b⟩ := x
    cases b
    · rw [List.map_cons, pyGroups, pyGroups, ← ih, List.map_append]; rfl
    · rw [List.map_cons, pyGroups, pyGroups, List.map_cons, ← ih, List.map_append]; rfl

theorem pyGroups_zip_map {α β : Type} (f : α → β) (l : List α) (marks : List Bool) :
    pyGroups [] ((l.map f).zip marks) = (pyGroups [] (l.zip marks)).map (List.map f) := by
  rw [← pyGroups_map f [], List.zip_map_left]
  rfl

theorem pyGroups_flatten {α : Type} (acc : List α) (l : List (α × Bool)) :
    (pyGroups acc l).flatten = acc ++ l.map Prod.fst := by
  induction l generalizing acc with
  | nil => simp [pyGroups]
  | cons x l ih =>
    obtain ⟨c, b⟩ := x
    cases b
    · rw [pyGroups, ih]; simp
    · rw [pyGroups, List.flatten_cons, ih]; simp

theorem pyGroups_pos {α : Type} (acc : List α) (l : List (α × Bool)) : 0 < (pyGroups acc l).length := by
  induction l generalizing acc with
  | nil => exact Nat.one_pos
  | cons x l ih =>
    obtain ⟨c, b⟩ := x
    cases b
    · exact ih _
    · exact Nat.succ_pos _

theorem pyGroups_length {α : Type} (acc : List α) (l : List (α × Bool)) :
    1 < (pyGroups acc l).length ↔ true ∈ l.map Prod.snd := by
  induction l generalizing acc with
  | nil => simp [pyGroups]
  | cons x l ih =>
    obtain ⟨c, b⟩ := x
    cases b
    · rw [pyGroups, ih]; simp
    · rw [pyGroups, List.length_cons]
      have := pyGroups_pos [] l
      exact ⟨fun _ => by simp, fun _ => by omega⟩

/-! ### Groups -/

/-- What `makeGroups` does: new objects for the groups that are not empty. -/
theorem makeGroups_ok (node : Nat) : ∀ (gs : List (List Nat)) (h : Heap), gs.flatten.Nodup →
    (∀ a ∈ gs.flatten, a < h.next) → ∃ (h' : Heap) (L : List (Nat × List Nat)),
      makeGroups node gs h = (h', L.map Prod.fst) ∧ L.map Prod.snd = gs.filter (fun g => !g.isEmpty)
      ∧ h.next ≤ h'.next ∧ (L.map Prod.fst).Nodup ∧ (∀ x ∈ L, h.next ≤ x.1 ∧ x.1 < h'.next)
      ∧ (∀ x ∈ L, h'.get x.1 = ⟨x.2.head?.elim 0 fun a => (h.get a).lo, x.2.getLast?.elim none fun a => (h.get a).hi,
          some node, .split, x.2⟩)
      ∧ (∀ x ∈ L, ∀ a ∈ x.2, h'.get a = { h.get a with parent := some x.1 })
      ∧ ∀ a < h.next, a ∉ gs.flatten → h'.get a = h.get a
  | [], h, _, _ => ⟨h, [], rfl, rfl, le_rfl, List.nodup_nil, by simp, by simp, by simp, fun _ _ _ => rfl⟩
  | [] :: gs, h, hn, he => by
    obtain ⟨h', L, e, r⟩ := makeGroups_ok node gs h hn he
    exact ⟨h', L, e, r⟩
  | (x :: g) :: gs, h, hn, he => by
    rw [List.flatten_cons, List.nodup_append] at hn
    rw [List.flatten_cons] at he
    have heg : ∀ a ∈ x :: g, a < h.next := fun a ha => he a (List.mem_append_left _ ha)
    have hegs : ∀ a ∈ gs.flatten, a < h.next := fun a ha => he a (List.mem_append_right _ ha)
    set c : Cell := ⟨(h.get x).lo, (h.get ((x :: g).getLast?.getD x)).hi, some node, .split, x :: g⟩ with hc
    set h1 := setParents (h.alloc c) h.next (x :: g) with hh1
    have hx1 : h1.next = h.next + 1 := by rw [hh1, setParents_next]; rfl
    have hg1 : ∀ a, h1.get a = if a ∈ x :: g then { h.get a with parent := some h.next }
        else if a = h.next then c else h.get a := by
      intro a
      rw [hh1, setParents_get, alloc_get]
      by_cases ha : a ∈ x :: g
      · rw [if_pos ha, if_pos ha, if_neg (heg a ha).ne]
      · rw [if_neg ha, if_neg ha]
    obtain ⟨h', L, e, k, n, nd, rg, cell, par, frame⟩ := makeGroups_ok node gs h1 hn.2.1
      (fun a ha => by rw [hx1]; exact Nat.lt_succ_of_lt (hegs a ha))
    rw [hx1] at n rg frame
    have hsub : ∀ y ∈ L, ∀ a ∈ y.2, a ∈ gs.flatten := by
      intro y hy a ha
      have : y.2 ∈ gs.filter (fun g => !g.isEmpty) := k ▸ List.mem_map_of_mem hy
      exact List.mem_flatten.2 ⟨y.2, (List.mem_filter.1 this).1, ha⟩
    have hsame : ∀ a ∈ gs.flatten, h1.get a = h.get a := by
      intro a ha
      rw [hg1, if_neg, if_neg (hegs a ha).ne]
      exact fun hm => hn.2.2 a hm a ha rfl
    have hnext : h.next ∉ gs.flatten := fun hm => absurd (hegs _ hm) (by omega)
    have hnext' : h.next ∉ x :: g := fun hm => absurd (heg _ hm) (by omega)
    refine ⟨h', (h.next, x :: g) :: L, ?_, ?_, by omega, ?_, ?_, ?_, ?_, ?_⟩
    · rw [makeGroups]
      simp only [← hc, ← hh1, e, List.map_cons]
    · rw [List.map_cons, k]; rfl
    · rw [List.map_cons, List.nodup_cons]
      refine ⟨fun hm => ?_, nd⟩
      obtain ⟨y, hy, e⟩ := List.mem_map.1 hm
      have := (rg y hy).1
      omega
    · intro y hy
      rcases List.mem_cons.1 hy with rfl | hy
      · exact ⟨le_rfl, n⟩
      · have := rg y hy
        omega
    · intro y hy
      rcases List.mem_cons.1 hy with rfl | hy
      · rw [frame _ (Nat.lt_succ_self _) hnext, hg1, if_neg hnext', if_pos rfl, hc]
        simp only [List.getLast?_cons, Option.getD_some, Option.elim, List.head?_cons]
      · rw [cell y hy]
        have hs := hsub y hy
        congr 1
        · cases hd : y.2.head? with
          | none => rfl
          | some a => simp only [Option.elim]; rw [hsame a (hs a (List.mem_of_mem_head? (by rw [hd]; rfl)))]
        · cases hd : y.2.getLast? with
          | none => rfl
          | some a => simp only [Option.elim]; rw [hsame a (hs a (List.mem_of_getLast? hd))]
    · intro y hy a ha
      rcases List.mem_cons.1 hy with rfl | hy
      · have ha' : a ∈ x :: g := ha
        rw [frame a (Nat.lt_succ_of_lt (heg a ha')) (fun hm => hn.2.2 a ha' a hm rfl), hg1, if_pos ha']
      · rw [par y hy a ha, hsame a (hsub y hy a ha)]
    · intro a ha hm
      rw [List.flatten_cons] at hm
      rw [frame a (by omega) (fun h => hm (List.mem_append_right _ h)), hg1,
        if_neg (fun h => hm (List.mem_append_left _ h)), if_neg ha.ne]

/-! ### What splitting reads -/

theorem shallow_rep {h : Heap} {par : Option Nat} {t : LTree} (r : Rep h par t) :
    shallow h t.id = .mk t.lo t.hi t.ann [] := by rw [shallow, r.cell]

theorem len_erase (t : LTree) : t.erase.len = (PNode.mk t.lo t.hi t.ann []).len := by
  cases t; rw [LTree.erase_mk]; rfl

section
variable {T : Type} [DecidableEq T]

theorem isSplitter_erase (tokens splitters : List T) (t : LTree) :
    isSplitter tokens splitters t.erase = isSplitter tokens splitters (PNode.mk t.lo t.hi t.ann []) := by
  cases t; rw [LTree.erase_mk]; rfl

theorem unsplittable_erase (tokens : List T) (unsplit : List (T × T)) (cs : List LTree) :
    unsplittable tokens unsplit (cs.map fun t => PNode.mk t.lo t.hi t.ann [])
      = unsplittable tokens unsplit (cs.map LTree.erase) := by
  match cs with
  | [] => rfl
  | [_] => rfl
  | [_, _] => rfl
  | [a, b, c] =>
    simp only [List.map_cons, List.map_nil, unsplittable, LTree.erase_lo, LTree.erase_hi]
    rfl
  | _ :: _ :: _ :: _ :: _ => rfl

theorem pairTokens_erase (tokens : List T) (cs : List LTree) :
    pairTokens tokens (cs.map fun t => PNode.mk t.lo t.hi t.ann []) = pairTokens tokens (cs.map LTree.erase) := by
  match cs with
  | [] => rfl
  | [_] => rfl
  | [_, _] => rfl
  | [a, b, c] =>
    simp only [List.map_cons, List.map_nil, pairTokens, LTree.erase_lo, LTree.erase_hi]
    rfl
  | _ :: _ :: _ :: _ :: _ => rfl

theorem mapM_congr {α ε β : Type} {f g : α → Except ε β} {l : List α} (e : ∀ a ∈ l, f a = g a) :
    l.mapM f = l.mapM g := by
  induction l with
  | nil => rfl
  | cons a l ih =>
    rw [List.mapM_cons, List.mapM_cons, e a List.mem_cons_self, ih fun b hb => e b (List.mem_cons_of_mem _ hb)]

theorem mapM_map {α β γ ε : Type} (f : α → β) (g : β → Except ε γ) (l : List α) :
    (l.map f).mapM g = l.mapM fun a => g (f a) := by
  induction l with
  | nil => rfl
  | cons a l ih => rw [List.map_cons, List.mapM_cons, List.mapM_cons, ih]

theorem mapM_length {α ε β : Type} {f : α → Except ε β} {l : List α} {r : List β} (e : l.mapM f = .ok r) :
    r.length = l.length := by
  induction l generalizing r with
  | nil => cases e; rfl
  | cons a l ih =>
    rw [List.mapM_cons] at e
    cases ha : f a with
    | error x => rw [ha] at e; cases e
    | ok b =>
      rw [ha] at e
      cases hl : l.mapM f with
      | error x => rw [hl] at e; cases e
      | ok bs => rw [hl] at e; cases e; rw [List.length_cons, List.length_cons, ih hl]

/-! ### Splitting -/

/-- `t` has become `t'`: the root is the same object, further nodes are nodes of `t` or new. -/
structure Kept (h h' : Heap) (t t' : LTree) : Prop where
  id : t'.id = t.id
  lo : t'.lo = t.lo
  hi : t'.hi = t.hi
  nodup : t'.ids.Nodup
  ids : ∀ a ∈ t'.ids, a ∈ t.ids ∨ h.next ≤ a ∧ a < h'.next

/-- The function `spl` on objects does with `t` what `f` does with values. -/
def SplitsTo (spl : Heap → Nat → Except Fail Heap) (f : PNode → Except ParseFail PNode) (t : LTree) : Prop :=
  ∀ (h : Heap) (par : Option Nat), Rep h par t → t.ids.Nodup → (∀ a ∈ t.ids, a < h.next) →
    (∀ e, f t.erase = .error e → spl h t.id = .error (.py e))
    ∧ ∀ s, f t.erase = .ok s → ∃ (h' : Heap) (t' : LTree), spl h t.id = .ok h' ∧ t'.erase = s ∧ Rep h' par t'
      ∧ h.next ≤ h'.next ∧ (∀ a < h.next, a ∉ t.ids → h'.get a = h.get a) ∧ Kept h h' t t'

theorem splitChildren_ok (tokens splitters : List T) (unsplit : List (T × T))
    {spl : Heap → Nat → Except Fail Heap} {cs : List LTree} :
    ∀ {h : Heap} {P : Nat → Option Nat}, (∀ c ∈ cs, SplitsTo spl (PNode.splitWith tokens splitters unsplit) c) →
      (∀ c ∈ cs, Rep h (P c.id) c) → (cs.flatMap LTree.ids).Nodup → (∀ a ∈ cs.flatMap LTree.ids, a < h.next) →
      (∀ e, PNode.splitList tokens splitters unsplit (cs.map LTree.erase) = .error e →
        splitChildren spl (cs.map LTree.id) h = .error (.py e))
      ∧ ∀ ss, PNode.splitList tokens splitters unsplit (cs.map LTree.erase) = .ok ss →
        ∃ (h' : Heap) (cs' : List LTree), splitChildren spl (cs.map LTree.id) h = .ok h' ∧ cs'.map LTree.erase = ss
          ∧ (∀ c ∈ cs', Rep h' (P c.id) c) ∧ h.next ≤ h'.next
          ∧ (∀ a < h.next, a ∉ cs.flatMap LTree.ids → h'.get a = h.get a)
          ∧ cs'.map (fun c => (c.id, c.lo, c.hi)) = cs.map (fun c => (c.id, c.lo, c.hi))
          ∧ (cs'.flatMap LTree.ids).Nodup
          ∧ ∀ a ∈ cs'.flatMap LTree.ids, a ∈ cs.flatMap LTree.ids ∨ h.next ≤ a ∧ a < h'.next := by
  induction cs with
  | nil =>
    intro h P _ _ _ _
    exact ⟨fun e he => (by cases he), fun ss hs => by
      cases hs
      exact ⟨h, [], rfl, rfl, by simp, le_rfl, fun _ _ _ => rfl, rfl, by simp, by simp⟩⟩
  | cons c cs ih =>
    intro h P hs hr hn he
    rw [List.flatMap_cons, List.nodup_append] at hn
    rw [List.flatMap_cons] at he
    have hrc := hr c List.mem_cons_self
    have hec : ∀ a ∈ c.ids, a < h.next := fun a ha => he a (List.mem_append_left _ ha)
    have hecs : ∀ a ∈ cs.flatMap LTree.ids, a < h.next := fun a ha => he a (List.mem_append_right _ ha)
    have hsc := hs c List.mem_cons_self h _ hrc hn.1 hec
    rw [List.map_cons, List.map_cons, splitList_cons, splitChildren, shallow_rep hrc, ← len_erase]
    cases c.erase.len with
    | error x => exact ⟨fun e h => by cases h; rfl, fun _ h => by cases h⟩
    | ok n =>
      simp only
      -- the first child
      have key : (∀ e, (if 1 < n then c.erase.splitWith tokens splitters unsplit else .ok c.erase) = .error e →
            (if 1 < n then spl h c.id else .ok h) = .error (.py e))
          ∧ ∀ s, (if 1 < n then c.erase.splitWith tokens splitters unsplit else .ok c.erase) = .ok s →
            ∃ (h' : Heap) (t' : LTree), (if 1 < n then spl h c.id else .ok h) = .ok h' ∧ t'.erase = s
              ∧ Rep h' (P c.id) t' ∧ h.next ≤ h'.next ∧ (∀ a < h.next, a ∉ c.ids → h'.get a = h.get a)
              ∧ Kept h h' c t' := by
        by_cases h1 : 1 < n
        · simp only [if_pos h1]
          exact hsc
        · simp only [if_neg h1]
          exact ⟨fun e h => (by cases h), fun s hs => by
            cases hs
            exact ⟨h, c, rfl, rfl, hrc, le_rfl, fun _ _ _ => rfl, rfl, rfl, rfl, hn.1, fun _ => .inl⟩⟩
      generalize (if 1 < n then c.erase.splitWith tokens splitters unsplit else .ok c.erase) = x at key ⊢
      generalize (if 1 < n then spl h c.id else .ok h) = y at key ⊢
      cases x with
      | error x =>
        rw [key.1 x rfl]
        exact ⟨fun e h => by cases h; rfl, fun _ h => by cases h⟩
      | ok s =>
        obtain ⟨h1, c', e1, s1, r1, n1, f1, k1⟩ := key.2 s rfl
        subst e1
        simp only
        have hr1 : ∀ d ∈ cs, Rep h1 (P d.id) d := fun d hd => (hr d (List.mem_cons_of_mem _ hd)).congr
          fun a ha => f1 a (hecs a (mem_flat hd ha)) fun hm => hn.2.2 a hm a (mem_flat hd ha) rfl
        obtain ⟨ihe, iho⟩ := ih (h := h1) (P := P) (fun d hd => hs d (List.mem_cons_of_mem _ hd)) hr1 hn.2.1
          (fun a ha => lt_of_lt_of_le (hecs a ha) n1)
        cases hss : PNode.splitList tokens splitters unsplit (cs.map LTree.erase) with
        | error x =>
          rw [ihe x hss]
          exact ⟨fun e h => by cases h; rfl, fun _ h => by cases h⟩
        | ok ss =>
          obtain ⟨h2, cs', e2, s2, r2, n2, f2, k2, d2, g2⟩ := iho ss hss
          refine ⟨fun e h => (by cases h), fun ss' hs' => ?_⟩
          cases hs'
          have hout : ∀ a ∈ c'.ids, a < h1.next ∧ a ∉ cs.flatMap LTree.ids := by
            intro a ha
            rcases k1.ids a ha with ha | ha
            · exact ⟨lt_of_lt_of_le (hec a ha) n1, fun hm => hn.2.2 a ha a hm rfl⟩
            · exact ⟨ha.2, fun hm => absurd (hecs a hm) (by omega)⟩
          refine ⟨h2, c' :: cs', e2, by rw [List.map_cons, s1, s2], ?_, n1.trans n2, ?_, ?_, ?_, ?_⟩
          · intro d hd
            rcases List.mem_cons.1 hd with rfl | hd
            · rw [k1.id]
              exact r1.congr fun a ha => f2 a (hout a ha).1 (hout a ha).2
            · exact r2 d hd
          · intro a ha hm
            rw [List.flatMap_cons] at hm
            rw [f2 a (lt_of_lt_of_le ha n1) fun h => hm (List.mem_append_right _ h),
              f1 a ha fun h => hm (List.mem_append_left _ h)]
          · rw [List.map_cons, List.map_cons, k2, k1.id, k1.lo, k1.hi]
          · rw [List.flatMap_cons, List.nodup_append]
            refine ⟨k1.nodup, d2, fun a ha b hb hab => ?_⟩
            subst hab
            rcases g2 a hb with hb | hb
            · exact (hout a ha).2 hb
            · exact absurd (hout a ha).1 (by omega)
          · intro a ha
            rw [List.flatMap_cons] at ha ⊢
            rcases List.mem_append.1 ha with ha | ha
            · rcases k1.ids a ha with ha | ha
              · exact .inl (List.mem_append_left _ ha)
              · exact .inr ⟨ha.1, lt_of_lt_of_le ha.2 n2⟩
            · rcases g2 a ha with ha | ha
              · exact .inl (List.mem_append_right _ ha)
              · exact .inr ⟨n1.trans ha.1, ha.2⟩

omit [DecidableEq T] in
theorem zip_of_map {α β : Type} {l r : List (α × β)} (h1 : l.map Prod.fst = r.map Prod.fst)
    (h2 : l.map Prod.snd = r.map Prod.snd) : l = r := by
  induction l generalizing r with
  | nil => cases r with
    | nil => rfl
    | cons => cases h1
  | cons x l ih => cases r with
    | nil => cases h1
    | cons y r =>
      rw [List.map_cons, List.map_cons, List.cons.injEq] at h1 h2
      rw [ih h1.2 h2.2, Prod.ext h1.1 h2.1]

omit [DecidableEq T] in
theorem nodup_groups (L : List (Nat × List LTree)) (h1 : (L.map Prod.fst).Nodup)
    (h2 : ((L.map Prod.snd).flatten.flatMap LTree.ids).Nodup)
    (h3 : ∀ a ∈ L.map Prod.fst, a ∉ (L.map Prod.snd).flatten.flatMap LTree.ids) :
    (L.flatMap fun x => x.1 :: x.2.flatMap LTree.ids).Nodup := by
  have hmem : ∀ (L : List (Nat × List LTree)) a, a ∈ L.flatMap (fun x => x.1 :: x.2.flatMap LTree.ids) →
      a ∈ L.map Prod.fst ∨ a ∈ (L.map Prod.snd).flatten.flatMap LTree.ids := by
    intro L a ha
    obtain ⟨x, hx, ha⟩ := List.mem_flatMap.1 ha
    rcases List.mem_cons.1 ha with rfl | ha
    · exact .inl (List.mem_map_of_mem hx)
    · obtain ⟨d, hd, ha⟩ := List.mem_flatMap.1 ha
      exact .inr (mem_flat (List.mem_flatten.2 ⟨_, List.mem_map_of_mem hx, hd⟩) ha)
  induction L with
  | nil => exact List.nodup_nil
  | cons x L ih =>
    rw [List.map_cons, List.nodup_cons] at h1
    rw [List.map_cons, List.flatten_cons, List.flatMap_append, List.nodup_append] at h2
    simp only [List.map_cons, List.flatten_cons, List.flatMap_append, List.mem_cons, List.mem_append, not_or] at h3
    rw [List.flatMap_cons, List.nodup_append]
    refine ⟨List.nodup_cons.2 ⟨(h3 x.1 (.inl rfl)).1, h2.1⟩, ih h1.2 h2.2.1 fun a ha => (h3 a (.inr ha)).2, ?_⟩
    intro a ha b hb hab
    subst hab
    rcases List.mem_cons.1 ha with rfl | ha
    · exact (hmem L _ hb).elim h1.1 (h3 x.1 (.inl rfl)).2
    · exact (hmem L _ hb).elim (fun h => (h3 a (.inr h)).1 ha) fun h => h2.2.2 a ha a h rfl

theorem splitNode_ok (tokens splitters : List T) (unsplit : List (T × T)) : ∀ (fuel : Nat) (t : LTree),
    t.depth ≤ fuel →
      SplitsTo (splitNode tokens splitters unsplit fuel) (PNode.splitWith tokens splitters unsplit) t
  | 0, t, hd => by have := t.depth_pos; omega
  | fuel + 1, .mk id lo hi ann cs, hd => by
    intro h par r hn he
    have hb := r.sub
    have hcell := r.cell
    simp only [LTree.id, LTree.lo, LTree.hi, LTree.ann, LTree.children] at hb hcell
    have hdc := LTree.depth_child hd
    simp only [LTree.children] at hdc
    rw [LTree.ids_mk] at he hn
    obtain ⟨hid, hncs⟩ := List.nodup_cons.1 hn
    have hecs : ∀ a ∈ cs.flatMap LTree.ids, a < h.next := fun a ha => he a (List.mem_cons_of_mem _ ha)
    have hsh : (cs.map LTree.id).map (shallow h) = cs.map fun t => PNode.mk t.lo t.hi t.ann [] := by
      rw [List.map_map]
      exact List.map_congr_left fun c hc => shallow_rep (hb c hc)
    have hmarks : ((cs.map LTree.id).mapM fun c => isSplitter tokens splitters (shallow h c))
        = (cs.map LTree.erase).mapM (isSplitter tokens splitters) := by
      rw [mapM_map, mapM_map]
      exact mapM_congr fun c hc => by rw [shallow_rep (hb c hc), isSplitter_erase]
    rw [LTree.erase_mk, splitWith_mk, LTree.id, splitNode]
    simp only [hcell, hsh, unsplittable_erase, hmarks]
    generalize (if ann = .paired then unsplittable tokens unsplit (cs.map LTree.erase) else .ok false) = x
    match x with
    | .error x => exact ⟨fun e h => (by cases h; rfl), fun _ h => (by cases h)⟩
    | .ok true =>
      refine ⟨fun e h => (by cases h), fun s hs => ?_⟩
      cases hs
      exact ⟨h, .mk id lo hi ann cs, rfl, LTree.erase_mk .., r, le_rfl, fun _ _ _ => rfl, rfl, rfl, rfl,
        by rwa [LTree.ids_mk], fun _ => .inl⟩
    | .ok false =>
      simp only
      cases hm : (cs.map LTree.erase).mapM (isSplitter tokens splitters) with
      | error x => exact ⟨fun e h => (by cases h; rfl), fun _ h => (by cases h)⟩
      | ok marks =>
        simp only
        have hlen : marks.length = cs.length := by rw [mapM_length hm, List.length_map]
        have hspl : ∀ c ∈ cs, SplitsTo (splitNode tokens splitters unsplit fuel)
            (PNode.splitWith tokens splitters unsplit) c :=
          fun c hc => splitNode_ok tokens splitters unsplit fuel c (hdc c hc)
        have hlong : 1 < (pyGroups [] ((cs.map LTree.id).zip marks)).length ↔ marks.contains true = true := by
          rw [pyGroups_length, List.map_snd_zip (by rw [List.length_map]; omega), List.contains_iff_mem]
        simp only [hlong]
        by_cases hg : marks.contains true = true ∧ ann ≠ .paired
        · rw [if_pos hg]
          -- grouping
          have hflat : (pyGroups [] ((cs.map LTree.id).zip marks)).flatten = cs.map LTree.id := by
            rw [pyGroups_flatten, List.nil_append, List.map_fst_zip (by rw [List.length_map]; omega)]
          obtain ⟨h1, L, e1, kL, n1, dL, rL, cL, pL, f1⟩ := makeGroups_ok id
            (pyGroups [] ((cs.map LTree.id).zip marks)) h (by rw [hflat]; exact roots_nodup hncs)
            (by rw [hflat]; exact fun a ha => hecs a (roots_mem ha))
          rw [hflat] at f1
          simp only [e1]
          have hidr : id ∉ cs.map LTree.id := fun hm => hid (roots_mem hm)
          have hid1 : h1.get id = ⟨lo, hi, par, ann, cs.map LTree.id⟩ := by
            rw [f1 id (he id List.mem_cons_self) hidr, hcell]
          have hLne : ∀ x ∈ L, x.1 ≠ id := fun x hx e => by
            have := (rL x hx).1
            have := he id List.mem_cons_self
            omega
          -- the group of a root
          have hin : ∀ c ∈ cs, ∃ x ∈ L, c.id ∈ x.2 := by
            intro c hc
            have : c.id ∈ (pyGroups [] ((cs.map LTree.id).zip marks)).flatten := by
              rw [hflat]; exact List.mem_map_of_mem hc
            obtain ⟨g, hgm, hcg⟩ := List.mem_flatten.1 this
            have : g ∈ L.map Prod.snd := by
              rw [kL, List.mem_filter]
              exact ⟨hgm, by cases g with
                | nil => cases hcg
                | cons => rfl⟩
            obtain ⟨x, hx, rfl⟩ := List.mem_map.1 this
            exact ⟨x, hx, hcg⟩
          have hr2 : ∀ c ∈ cs, Rep (setChildren h1 id (L.map Prod.fst))
              ((setChildren h1 id (L.map Prod.fst)).get c.id).parent c := by
            intro c hc
            have hne : ∀ a ∈ c.ids, a ≠ id := fun a ha e => hid (e ▸ mem_flat hc ha)
            obtain ⟨x, hx, hcx⟩ := hin c hc
            refine (hb c hc).reparent (nodup_child hncs hc) (fun a ha hac => ?_) ?_
            · rw [setChildren, set_get, if_neg (hne a ha), f1 a (hecs a (mem_flat hc ha))]
              intro hm
              obtain ⟨d, hd, rfl⟩ := List.mem_map.1 hm
              exact hac (congrArg LTree.id (root_unique hncs hd hc d.id_mem ha))
            · rw [setChildren, set_get, if_neg (hne _ c.id_mem), pL x hx _ hcx]
          obtain ⟨oe, oo⟩ := splitChildren_ok tokens splitters unsplit hspl
            (P := fun a => ((setChildren h1 id (L.map Prod.fst)).get a).parent) hr2 hncs
            (fun a ha => lt_of_lt_of_le (hecs a ha) n1)
          cases hss : PNode.splitList tokens splitters unsplit (cs.map LTree.erase) with
          | error x =>
            rw [oe x hss]
            exact ⟨fun e h => (by cases h; rfl), fun _ h => (by cases h)⟩
          | ok ss =>
            obtain ⟨h2, cs', e2, s2, r2, n2, f2, k2, d2, g2⟩ := oo ss hss
            change h1.next ≤ h2.next at n2
            change ∀ a < h1.next, _ at f2
            refine ⟨fun e h => (by cases h), fun s hs => ?_⟩
            cases hs
            have hkid : cs'.map LTree.id = cs.map LTree.id := by
              have := congrArg (List.map Prod.fst) k2
              rwa [List.map_map, List.map_map] at this
            have hklen : cs'.length = cs.length := by
              have := congrArg List.length hkid
              rwa [List.length_map, List.length_map] at this
            set gs := (pyGroups [] (cs'.zip marks)).filter fun g => !g.isEmpty with hgs
            have hgsid : gs.map (List.map LTree.id) = L.map Prod.snd := by
              rw [kL, ← hkid, pyGroups_zip_map, hgs, List.filter_map]
              congr 1
              exact List.filter_congr fun g _ => by cases g <;> rfl
            have hgsflat : gs.flatten = cs' := by
              rw [hgs, List.flatten_filter_not_isEmpty, pyGroups_flatten, List.nil_append,
                List.map_fst_zip (by omega)]
            -- the groups with their new addresses
            set L' := (L.map Prod.fst).zip gs with hL'
            have hlenL : L.length = gs.length := by
              have := congrArg List.length hgsid
              rw [List.length_map, List.length_map] at this
              exact this.symm
            have hL'1 : L'.map Prod.fst = L.map Prod.fst := by
              rw [hL', List.map_fst_zip (by rw [List.length_map]; omega)]
            have hL'2 : L'.map Prod.snd = gs := by
              rw [hL', List.map_snd_zip (by rw [List.length_map]; omega)]
            have hmem : ∀ x ∈ L', (x.1, x.2.map LTree.id) ∈ L := by
              have : L'.map (fun x => (x.1, x.2.map LTree.id)) = L := by
                apply zip_of_map
                · rw [List.map_map]; exact hL'1
                · rw [List.map_map, ← hgsid, ← hL'2, List.map_map]; rfl
              intro x hx
              rw [← this]
              exact List.mem_map_of_mem hx
            have hgsub : ∀ x ∈ L', ∀ c ∈ x.2, c ∈ cs' := by
              intro x hx c hc
              rw [← hgsflat]
              exact List.mem_flatten.2 ⟨x.2, hL'2 ▸ List.mem_map_of_mem hx, hc⟩
            have hfresh : ∀ x ∈ L', h.next ≤ x.1 ∧ x.1 < h1.next := fun x hx => rL _ (hmem x hx)
            have hnew : ∀ x ∈ L', x.1 ∉ cs.flatMap LTree.ids := fun x hx hm => by
              have := hecs _ hm
              have := (hfresh x hx).1
              omega
            have hlohi : ∀ c ∈ cs', (h.get c.id).lo = c.lo ∧ (h.get c.id).hi = c.hi := by
              intro c hc
              have : (c.id, c.lo, c.hi) ∈ cs.map fun c => (c.id, c.lo, c.hi) := k2 ▸ List.mem_map_of_mem hc
              obtain ⟨d, hd, e⟩ := List.mem_map.1 this
              have hi := congrArg Prod.fst e
              have hl := congrArg (fun x => x.2.1) e
              have hh := congrArg (fun x => x.2.2) e
              simp only at hi hl hh
              rw [← hi, (hb d hd).cell]
              exact ⟨hl, hh⟩
            refine ⟨h2, .mk id lo hi ann (L'.map fun x => .mk x.1 (x.2.head?.elim 0 LTree.lo)
              (x.2.getLast?.elim none LTree.hi) .split x.2), e2, ?_, ?_, n1.trans n2, ?_, ?_⟩
            · rw [LTree.erase_mk, regroup, if_pos hg, groupChildren_eq, ← s2, pyGroups_zip_map, List.filter_map]
              have : (pyGroups [] (cs'.zip marks)).filter ((fun g => !g.isEmpty) ∘ List.map LTree.erase) = gs :=
                List.filter_congr fun g _ => by cases g <;> rfl
              rw [this, ← hL'2, List.map_map, List.map_map, List.map_map]
              congr 1
              refine List.map_congr_left fun x _ => ?_
              simp only [Function.comp, LTree.erase_mk, RUSure.splitNode]
              congr 1
              · rw [List.head?_map]
                cases x.2.head? <;> simp
              · rw [List.getLast?_map]
                cases x.2.getLast? <;> simp
            · refine .mk ?_ ?_
              · rw [f2 id (lt_of_lt_of_le (he id List.mem_cons_self) n1) hid, setChildren, set_get, if_pos rfl, hid1,
                  List.map_map, ← hL'1]
                rfl
              · intro c hc
                obtain ⟨x, hx, rfl⟩ := List.mem_map.1 hc
                have hxL := hmem x hx
                refine .mk ?_ ?_
                · rw [f2 _ (hfresh x hx).2 (hnew x hx), setChildren, set_get, if_neg (hLne _ hxL), cL _ hxL]
                  simp only
                  congr 1
                  · rw [List.head?_map]
                    cases hd : x.2.head? with
                    | none => rfl
                    | some c => exact (hlohi c (hgsub x hx c (List.mem_of_mem_head? (by rw [hd]; rfl)))).1
                  · rw [List.getLast?_map]
                    cases hd : x.2.getLast? with
                    | none => rfl
                    | some c => exact (hlohi c (hgsub x hx c (List.mem_of_getLast? hd))).2
                · intro c hc
                  have hrc := r2 c (hgsub x hx c hc)
                  have hcid : c.id ≠ id := by
                    intro e
                    apply hidr
                    rw [← hkid, ← e]
                    exact List.mem_map_of_mem (hgsub x hx c hc)
                  simp only [setChildren, set_get, if_neg hcid] at hrc
                  rwa [pL _ hxL c.id (List.mem_map_of_mem hc)] at hrc
            · intro a ha hm
              rw [LTree.ids_mk] at hm
              have hne : a ≠ id := fun e => hm (e ▸ List.mem_cons_self)
              have hncs : a ∉ cs.flatMap LTree.ids := fun h => hm (List.mem_cons_of_mem _ h)
              rw [f2 a (lt_of_lt_of_le ha n1) hncs, setChildren, set_get, if_neg hne,
                f1 a ha fun h => hncs (roots_mem h)]
            · have hids : ∀ a, a ∈ (L'.map fun x => LTree.mk x.1 (x.2.head?.elim 0 LTree.lo)
                  (x.2.getLast?.elim none LTree.hi) .split x.2).flatMap LTree.ids →
                  a ∈ L.map Prod.fst ∨ a ∈ cs'.flatMap LTree.ids := by
                intro a ha
                obtain ⟨c, hc, ha⟩ := List.mem_flatMap.1 ha
                obtain ⟨x, hx, rfl⟩ := List.mem_map.1 hc
                rw [LTree.ids_mk] at ha
                rcases List.mem_cons.1 ha with rfl | ha
                · exact .inl (hL'1 ▸ List.mem_map_of_mem hx)
                · obtain ⟨d, hd, ha⟩ := List.mem_flatMap.1 ha
                  exact .inr (mem_flat (hgsub x hx d hd) ha)
              have hLr : ∀ a ∈ L.map Prod.fst, h.next ≤ a ∧ a < h1.next := by
                intro a ha
                obtain ⟨x, hx, rfl⟩ := List.mem_map.1 ha
                exact rL x hx
              refine ⟨rfl, rfl, rfl, ?_, ?_⟩
              · rw [LTree.ids_mk, List.nodup_cons]
                constructor
                · intro hm
                  rcases hids _ hm with hm | hm
                  · have := hLr _ hm
                    have := he id List.mem_cons_self
                    omega
                  · rcases g2 _ hm with hm | hm
                    · exact hid hm
                    · change h1.next ≤ id ∧ _ at hm
                      have := he id List.mem_cons_self
                      omega
                · rw [List.flatMap_map]
                  simp only [LTree.ids_mk]
                  refine nodup_groups L' (hL'1 ▸ dL) ?_ ?_
                  · rw [hL'2, hgsflat]
                    exact d2
                  · rw [hL'1, hL'2, hgsflat]
                    intro a ha hm
                    have h1a := hLr a ha
                    rcases g2 a hm with hm | hm
                    · have := hecs a hm
                      omega
                    · change h1.next ≤ a ∧ _ at hm
                      omega
              · intro a ha
                rw [LTree.ids_mk] at ha ⊢
                rcases List.mem_cons.1 ha with rfl | ha
                · exact .inl List.mem_cons_self
                · rcases hids a ha with ha | ha
                  · have := hLr a ha
                    exact .inr ⟨this.1, lt_of_lt_of_le this.2 n2⟩
                  · rcases g2 a ha with ha | ha
                    · exact .inl (List.mem_cons_of_mem _ ha)
                    · exact .inr ⟨n1.trans ha.1, ha.2⟩
        · rw [if_neg hg]
          obtain ⟨oe, oo⟩ := splitChildren_ok tokens splitters unsplit hspl (P := fun _ => some id) hb hncs hecs
          cases hss : PNode.splitList tokens splitters unsplit (cs.map LTree.erase) with
          | error x =>
            rw [oe x hss]
            exact ⟨fun e h => (by cases h; rfl), fun _ h => (by cases h)⟩
          | ok ss =>
            obtain ⟨h2, cs', e2, s2, r2, n2, f2, k2, d2, g2⟩ := oo ss hss
            refine ⟨fun e h => (by cases h), fun s hs => ?_⟩
            cases hs
            have hkid : cs'.map LTree.id = cs.map LTree.id := by
              have := congrArg (List.map Prod.fst) k2
              rwa [List.map_map, List.map_map] at this
            have hid' : id < h.next := he id List.mem_cons_self
            refine ⟨h2, .mk id lo hi ann cs', e2, ?_, .mk ?_ r2, n2, ?_, rfl, rfl, rfl, ?_, ?_⟩
            · rw [LTree.erase_mk, regroup, if_neg hg, s2]
            · rw [f2 id hid' hid, hcell, hkid]
            · intro a ha hm
              rw [LTree.ids_mk] at hm
              exact f2 a ha fun h => hm (List.mem_cons_of_mem _ h)
            · rw [LTree.ids_mk, List.nodup_cons]
              refine ⟨fun hm => ?_, d2⟩
              rcases g2 _ hm with hm | hm
              · exact hid hm
              · omega
            · intro a ha
              rw [LTree.ids_mk] at ha ⊢
              rcases List.mem_cons.1 ha with rfl | ha
              · exact .inl List.mem_cons_self
              · exact (g2 a ha).imp (List.mem_cons_of_mem _) _root_.id

end

end RUSure.NodeHeap
