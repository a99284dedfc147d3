import Verif.Lemmas.NodeMoves
import Verif.Lemmas.NodeHeapCheck
import Mathlib.Data.List.Perm.Basic

/-!
# `_sub_match_transplant` on linked nodes
-/

namespace RUSure.NodeHeap

/-! ### `list.remove`, `list.index` -/

theorem nodeEq_lo {fuel : Nat} (hf : 0 < fuel) {h : Heap} {a b : Nat} (e : (h.get a).lo ≠ (h.get b).lo) :
    nodeEq fuel h a b = .ok false := by
  cases fuel with
  | zero => omega
  | succ fuel =>
    rw [nodeEq]
    rw [if_neg (fun hab => e (by rw [hab])), if_pos (.inl e)]

theorem removeFirst_ok {fuel : Nat} (hf : 0 < fuel) {h : Heap} {x : Nat} : ∀ {l : List Nat}, l.Nodup →
    (∀ a ∈ l, a ≠ x → (h.get a).lo ≠ (h.get x).lo) → x ∈ l →
    removeFirst fuel h x l = .ok (l.filter fun a => a != x)
  | [], _, _, hx => by cases hx
  | a :: l, hn, hl, hx => by
    rw [List.nodup_cons] at hn
    rw [removeFirst]
    by_cases hax : a = x
    · subst hax
      rw [nodeEq_self, List.filter_cons_of_neg (by simp), List.filter_eq_self.2]
      intro b hb
      simp only [bne_iff_ne, ne_eq]
      rintro rfl
      exact hn.1 hb
    · rw [nodeEq_lo hf (hl a List.mem_cons_self hax), List.filter_cons_of_pos (by simpa using hax),
        removeFirst_ok hf hn.2 (fun b hb => hl b (List.mem_cons_of_mem _ hb)) ((List.mem_cons.1 hx).resolve_left (Ne.symm hax))]

theorem removeFirst_not {fuel : Nat} (hf : 0 < fuel) {h : Heap} {x : Nat} : ∀ {l : List Nat},
    (∀ a ∈ l, (h.get a).lo ≠ (h.get x).lo) → removeFirst fuel h x l = .error (.py .value)
  | [], _ => rfl
  | a :: l, hl => by
    rw [removeFirst, nodeEq_lo hf (hl a List.mem_cons_self),
      removeFirst_not hf fun b hb => hl b (List.mem_cons_of_mem _ hb)]

/-! ### The objects after a move -/

/-- The objects before the node is removed. -/
def half (h : Heap) (c p : Nat) : Heap :=
  setChildren (setChildren (setParents (h.alloc ⟨(h.get p).lo, (h.get p).hi, some p, .split, []⟩) h.next
    (h.get p).children) h.next (h.get p).children) p [h.next, c]

theorem half_get {h : Heap} {c p : Nat} (hp : p ≠ h.next) (hpo : p ∉ (h.get p).children)
    (hno : h.next ∉ (h.get p).children) (a : Nat) : (half h c p).get a =
      if a = p then { h.get p with children := [h.next, c] }
      else if a = h.next then ⟨(h.get p).lo, (h.get p).hi, some p, .split, (h.get p).children⟩
      else if a ∈ (h.get p).children then { h.get a with parent := some h.next } else h.get a := by
  unfold half setChildren
  simp only [set_get, setParents_get, alloc_get, if_neg hp, if_neg hpo, if_neg hno, if_true]
  by_cases h1 : a = p
  · rw [if_pos h1, if_pos h1]
  · rw [if_neg h1, if_neg h1]
    by_cases h2 : a = h.next
    · rw [if_pos h2, if_pos h2]
    · simp only [if_neg h2]

theorem half_lo {h : Heap} {c p : Nat} (hp : p ≠ h.next) (hpo : p ∉ (h.get p).children)
    (hno : h.next ∉ (h.get p).children) {a : Nat} (ha : a ≠ h.next) : ((half h c p).get a).lo = (h.get a).lo := by
  rw [half_get hp hpo hno]
  by_cases h1 : a = p
  · rw [if_pos h1, h1]
  · rw [if_neg h1, if_neg ha]
    split <;> rfl

theorem transplant_eq (fuel : Nat) (h : Heap) (c p : Nat) : transplant fuel h c p =
    match ((half h c p).get p).parent with
    | none => .error (.py .type)
    | some g =>
      match removeFirst fuel (half h c p) c ((half h c p).get g).children with
      | .error e => .error e
      | .ok l =>
        let h5 := setParent (setChildren (half h c p) g l) p c
        .ok (h5.set p { h5.get p with hi := (h5.get c).hi }) := rfl

theorem setParents_next' (h : Heap) (c p : Nat) : (half h c p).next = h.next + 1 := by
  unfold half setChildren
  rw [set_next, set_next, setParents_next]
  rfl

/-- The place of a list of children. -/
theorem Lev.rep {h : Heap} {t : LTree} {K : List LTree} (hK : Lev t K) : ∀ {par : Option Nat}, Rep h par t → t.ids.Nodup →
    ∃ q x, Rep h q x ∧ x.children = K ∧ x.ids.Nodup ∧ ∀ a ∈ x.ids, a ∈ t.ids := by
  induction hK with
  | self => intro par r hn; exact ⟨par, _, r, rfl, hn, fun _ ha => ha⟩
  | @child id lo hi ann cs x K hx _ ih =>
    intro par r hn
    have hcs := children_nodup hn
    obtain ⟨q, y, h1, h2, h3, h4⟩ := ih (r.sub x hx) (nodup_child hcs hx)
    exact ⟨q, y, h1, h2, h3, fun a ha => children_ids (mem_flat hx (h4 a ha))⟩

/-- What a move needs to know about the objects. -/
structure Here (h : Heap) (m : Move) (g : Nat) : Prop where
  n : m.n = h.next
  gn : g ≠ h.next
  pn : m.p ≠ h.next
  cn : m.c ≠ h.next
  on : h.next ∉ (h.get m.p).children
  pc : m.p ≠ m.c
  pg : m.p ≠ g
  cg : m.c ≠ g
  po : m.p ∉ (h.get m.p).children
  co : m.c ∉ (h.get m.p).children
  go : g ∉ (h.get m.p).children
  pp : (h.get m.p).parent = some g
  cp : (h.get m.c).parent = some g
  op : ∀ a ∈ (h.get m.p).children, (h.get a).parent = some m.p
  pk : m.p ∈ (h.get g).children
  ck : m.c ∈ (h.get g).children

/-- The objects after the move. -/
structure Moved (h h' : Heap) (m : Move) (g : Nat) : Prop where
  next : h'.next = h.next + 1
  p : h'.get m.p = { h.get m.p with hi := (h.get m.c).hi, children := [m.n, m.c] }
  c : h'.get m.c = { h.get m.c with parent := some m.p }
  top : h'.get g = { h.get g with children := (h.get g).children.filter fun a => a != m.c }
  n : h'.get m.n = ⟨(h.get m.p).lo, (h.get m.p).hi, some m.p, .split, (h.get m.p).children⟩
  old : ∀ a ∈ (h.get m.p).children, h'.get a = { h.get a with parent := some m.n }
  rest : ∀ a, a ≠ m.p → a ≠ m.c → a ≠ g → a ≠ m.n → a ∉ (h.get m.p).children → h'.get a = h.get a

theorem transplant_moved {fuel : Nat} (hf : 0 < fuel) {h : Heap} {m : Move} {g : Nat} (H : Here h m g)
    (hk : (h.get g).children.Nodup) (hkn : h.next ∉ (h.get g).children)
    (hlo : ∀ a ∈ (h.get g).children, a ≠ m.c → (h.get a).lo ≠ (h.get m.c).lo) :
    ∃ h', transplant fuel h m.c m.p = .ok h' ∧ Moved h h' m g := by
  have hg := half_get (c := m.c) H.pn H.po H.on
  have hl := fun {a : Nat} (ha : a ≠ h.next) => half_lo (c := m.c) H.pn H.po H.on ha
  have hgg : (half h m.c m.p).get g = h.get g := by
    rw [hg, if_neg (Ne.symm H.pg), if_neg H.gn, if_neg H.go]
  have hgp : (half h m.c m.p).get m.p = { h.get m.p with children := [h.next, m.c] } := by rw [hg, if_pos rfl]
  have hgc : (half h m.c m.p).get m.c = h.get m.c := by
    rw [hg, if_neg (Ne.symm H.pc), if_neg H.cn, if_neg H.co]
  rw [transplant_eq, hgp]
  simp only [H.pp]
  rw [hgg, removeFirst_ok hf hk (fun a ha hne => by
    rw [hl (fun e => hkn (e ▸ ha)), hl H.cn]; exact hlo a ha hne) H.ck]
  refine ⟨_, rfl, ?_⟩
  simp only [setParent, setChildren]
  constructor
  · simp only [set_next]; exact setParents_next' h m.c m.p
  · simp only [set_get, if_true, if_neg H.pc, if_neg H.pg, if_neg H.cg, hgp, hgc, H.n]
  · simp only [set_get, if_true, if_neg (Ne.symm H.pc), if_neg H.pc, if_neg H.pg, if_neg H.cg, hgc]
  · simp only [set_get, if_true, if_neg (Ne.symm H.pg), if_neg (Ne.symm H.cg), hgg]
  · have e1 : h.next ≠ m.p := Ne.symm H.pn
    have e2 : h.next ≠ m.c := Ne.symm H.cn
    have e3 : h.next ≠ g := Ne.symm H.gn
    rw [H.n]
    simp only [set_get, if_neg e1, if_neg e2, if_neg e3]
    rw [hg, if_neg e1, if_pos rfl]
  · intro a ha
    have e1 : a ≠ m.p := fun e => H.po (e ▸ ha)
    have e2 : a ≠ m.c := fun e => H.co (e ▸ ha)
    have e3 : a ≠ g := fun e => H.go (e ▸ ha)
    have e4 : a ≠ h.next := fun e => H.on (e ▸ ha)
    simp only [set_get, if_neg e1, if_neg e2, if_neg e3]
    rw [hg, if_neg e1, if_neg e4, if_pos ha, H.n]
  · intro a e1 e2 e3 e4 e5
    rw [H.n] at e4
    simp only [set_get, if_neg e1, if_neg e2, if_neg e3]
    rw [hg, if_neg e1, if_neg e4, if_neg e5]

/-- The tree after the move. -/
theorem rep_moveT {h h' : Heap} {m : Move} {g : Nat} (H : Here h m g) (M : Moved h h' m g) :
    ∀ {t : LTree} {par : Option Nat}, Rep h par t → t.ids.Nodup → (∀ a ∈ t.ids, a < h.next) →
    t.id ≠ m.p → t.id ≠ m.c → t.id ∉ (h.get m.p).children → Rep h' par (moveT m t)
  | .mk id lo hi ann cs, par, r, hn, he, hp, hc, ho => by
    have hcell := r.cell
    have hsub := r.sub
    have hcs := children_nodup hn
    have hroot := children_not_root hn
    simp only [LTree.id, LTree.lo, LTree.hi, LTree.ann, LTree.children] at hcell hsub hcs hp hc ho hroot
    have hlt : ∀ a ∈ cs.flatMap LTree.ids, a ≠ m.n := fun a ha e => by
      have := he a (children_ids (t := .mk id lo hi ann cs) ha)
      rw [e, H.n] at this
      omega
    rw [moveT_mk]
    by_cases ok : OkL m cs
    · rw [if_pos ok]
      obtain ⟨C, hC, eC, _, ep⟩ := placeL_ok ok
      obtain ⟨P, hP, eP⟩ := List.mem_map.1 ok.2.1
      have hgid : g = id := by
        have := H.pp
        rw [← eP, (hsub P hP).cell] at this
        exact (Option.some.inj this).symm
      subst hgid
      have hCi : m.c ∈ C.ids := eC ▸ C.id_mem
      have hPi : m.p ∈ P.ids := eP ▸ P.id_mem
      have hPk : (h.get m.p).children = P.children.map LTree.id := by rw [← eP, (hsub P hP).cell]
      have hold : ∀ a ∈ (h.get m.p).children, a ∈ P.children.flatMap LTree.ids := fun a ha =>
        roots_mem (hPk ▸ ha)
      have hCP : C ≠ P := fun e => H.pc (by rw [← eP, ← eC, e])
      have hgn : ∀ a ∈ cs.flatMap LTree.ids, a ≠ g := fun a ha e => hroot (e ▸ ha)
      refine .mk ?_ ?_
      · have e : (cs.map LTree.id).filter (fun a => a != m.c) = (placeL m cs).map LTree.id := by
          rw [ep, List.map_map, List.filter_map]
          exact (List.map_congr_left fun x _ => by
            simp only [Function.comp]
            split <;> simp).symm
        rw [M.top, hcell, ← e]
      · intro y hy
        rw [ep] at hy
        obtain ⟨x, hx, rfl⟩ := List.mem_map.1 hy
        obtain ⟨hx, hxc⟩ := List.mem_filter.1 hx
        have hxc : x.id ≠ m.c := by simpa using hxc
        by_cases hxp : x.id = m.p
        · simp only [if_pos hxp]
          have hxP : x = P := List.inj_on_of_nodup_map (roots_nodup hcs) hx hP (hxp.trans eP.symm)
          subst hxP
          have rx := hsub x hx
          have hnx := nodup_child hcs hx
          cases x with
          | mk pid plo phi pann old =>
            have hcp := rx.cell
            have hsp := rx.sub
            have hso := children_nodup hnx
            have hrp := children_not_root hnx
            simp only [LTree.id, LTree.lo, LTree.hi, LTree.ann, LTree.children] at hcp hsp hso hrp hxp hold hPk
            subst hxp
            rw [joinT]
            refine .mk ?_ ?_
            · rw [M.p, hcp, ← eC, (hsub C hC).cell]
              rfl
            · intro z hz
              simp only [List.mem_cons, List.not_mem_nil, or_false] at hz
              rcases hz with rfl | rfl
              · refine .mk ?_ ?_
                · rw [M.n, hcp]
                · intro o ho'
                  have hoi : o.id ∈ (h.get m.p).children := hPk ▸ List.mem_map_of_mem ho'
                  refine (hsp o ho').reparent (nodup_child hso ho') (fun a ha hne => ?_) (M.old _ hoi)
                  have haf := mem_flat ho' ha
                  have hax := mem_flat hx (children_ids (t := .mk m.p plo phi pann old) haf)
                  refine M.rest a (fun e => hrp (e ▸ haf)) (fun e => ?_) (hgn a hax) (hlt a hax) fun hk => ?_
                  · exact hCP (root_unique hcs hC hx hCi (e ▸ children_ids (t := .mk m.p plo phi pann old) haf))
                  · rw [hPk] at hk
                    obtain ⟨o', ho'', rfl⟩ := List.mem_map.1 hk
                    exact hne (by rw [root_unique hso ho'' ho' o'.id_mem ha])
              · refine (hsub _ hC).reparent (nodup_child hcs hC) (fun a ha hne => ?_) (by rw [eC]; exact M.c)
                have haf := mem_flat hC ha
                refine M.rest a (fun e => ?_) (fun e => hne (e.trans eC.symm)) (hgn a haf) (hlt a haf) fun hk => ?_
                · exact hCP (root_unique hcs hC hx ha (e ▸ hPi))
                · exact hCP (root_unique hcs hC hx ha (children_ids (t := .mk m.p plo phi pann old) (hold a hk)))
        · simp only [if_neg hxp]
          refine (hsub x hx).congr fun a ha => ?_
          have haf := mem_flat hx ha
          refine M.rest a (fun e => ?_) (fun e => ?_) (hgn a haf) (hlt a haf) fun hk => ?_
          · exact hxp (by rw [root_unique hcs hx hP ha (e ▸ hPi), eP])
          · exact hxc (by rw [root_unique hcs hx hC ha (e ▸ hCi), eC])
          · exact hxp (by rw [root_unique hcs hx hP ha (children_ids (hold a hk)), eP])
    · rw [if_neg ok]
      have hidg : id ≠ g := by
        rintro rfl
        have hck := H.ck
        have hpk := H.pk
        rw [hcell] at hck hpk
        exact ok ⟨hck, hpk, H.pc⟩
      have hidn : id ≠ m.n := fun e => by
        have := he id (by rw [LTree.ids_mk]; exact List.mem_cons_self)
        rw [e, H.n] at this
        omega
      refine .mk ?_ ?_
      · rw [M.rest id hp hc hidg hidn ho, hcell, map_moveT_id]
      · intro y hy
        obtain ⟨x, hx, rfl⟩ := List.mem_map.1 hy
        have hxcell := (hsub x hx).cell
        refine rep_moveT H M (hsub x hx) (nodup_child hcs hx)
          (fun a ha => he a (children_ids (t := .mk id lo hi ann cs) (mem_flat hx ha))) (fun e => ?_) (fun e => ?_) fun e => ?_
        · have := H.pp
          rw [← e, hxcell] at this
          exact hidg (Option.some.inj this)
        · have := H.cp
          rw [← e, hxcell] at this
          exact hidg (Option.some.inj this)
        · have := H.op _ e
          rw [hxcell] at this
          exact hp (Option.some.inj this)

/-- The siblings of a node. -/
theorem here_of {h : Heap} {m : Move} {x C P : LTree} {q : Option Nat} (r : Rep h q x) (hn : x.ids.Nodup)
    (he : ∀ a ∈ x.ids, a < h.next) (hC : C ∈ x.children) (hP : P ∈ x.children) (eC : C.id = m.c) (eP : P.id = m.p)
    (hpc : m.p ≠ m.c) (hmn : m.n = h.next) : Here h m x.id := by
  have hcs := children_nodup hn
  have hroot := children_not_root hn
  have hPk : (h.get m.p).children = P.children.map LTree.id := by rw [← eP, (r.sub P hP).cell]
  have hold : ∀ a ∈ (h.get m.p).children, a ∈ P.children.flatMap LTree.ids := fun a ha => roots_mem (hPk ▸ ha)
  have hold' : ∀ a ∈ (h.get m.p).children, a ∈ x.children.flatMap LTree.ids := fun a ha =>
    mem_flat hP (children_ids (hold a ha))
  have hCf := mem_flat hC C.id_mem
  have hPf := mem_flat hP P.id_mem
  rw [eC] at hCf
  rw [eP] at hPf
  have hne : ∀ a ∈ x.ids, a ≠ h.next := fun a ha => Nat.ne_of_lt (he a ha)
  have hCP : C ≠ P := fun e => hpc (by rw [← eP, ← eC, e])
  exact {
    n := hmn
    gn := hne _ x.id_mem
    pn := hne _ (children_ids hPf)
    cn := hne _ (children_ids hCf)
    on := fun hk => hne _ (children_ids (hold' _ hk)) rfl
    pc := hpc
    pg := fun e => hroot (e ▸ hPf)
    cg := fun e => hroot (e ▸ hCf)
    po := fun hk => children_not_root (nodup_child hcs hP) (eP ▸ hold _ hk)
    co := fun hk => hCP (root_unique hcs hC hP (eC ▸ C.id_mem) (children_ids (hold _ hk)))
    go := fun hk => hroot (hold' _ hk)
    pp := by rw [← eP, (r.sub P hP).cell]
    cp := by rw [← eC, (r.sub C hC).cell]
    op := fun a ha => by
      rw [hPk] at ha
      obtain ⟨o, ho, rfl⟩ := List.mem_map.1 ha
      rw [((r.sub P hP).sub o ho).cell, eP]
    pk := by rw [r.cell, ← eP]; exact List.mem_map_of_mem hP
    ck := by rw [r.cell, ← eC]; exact List.mem_map_of_mem hC }

theorem moved_frame {h h' : Heap} {m : Move} {x C P : LTree} {q : Option Nat} (r : Rep h q x) (M : Moved h h' m x.id)
    (hmn : m.n = h.next) (hC : C ∈ x.children) (hP : P ∈ x.children) (eC : C.id = m.c) (eP : P.id = m.p) :
    ∀ a < h.next, a ∉ x.ids → h'.get a = h.get a := by
  intro a ha hax
  refine M.rest a (fun e => ?_) (fun e => ?_) (fun e => hax (e ▸ x.id_mem)) (fun e => by omega) fun hk => ?_
  · exact hax (children_ids (mem_flat hP (by rw [e, ← eP]; exact P.id_mem)))
  · exact hax (children_ids (mem_flat hC (by rw [e, ← eC]; exact C.id_mem)))
  · rw [← eP, (r.sub P hP).cell] at hk
    exact hax (children_ids (mem_flat hP (children_ids (roots_mem hk))))

/-- A move between siblings. -/
theorem transplant_ok {fuel : Nat} (hf : 0 < fuel) {h : Heap} {T : LTree} {K : List LTree} {m : Move} (r : Rep h none T)
    (hn : T.ids.Nodup) (he : ∀ a ∈ T.ids, a < h.next) (hmn : m.n = h.next) (hK : Lev T K) (ok : OkL m K)
    (hlo : ∀ x ∈ K, ∀ y ∈ K, y.id = m.c → x.id ≠ m.c → x.lo ≠ y.lo) :
    ∃ h', transplant fuel h m.c m.p = .ok h' ∧ h'.next = h.next + 1 ∧ Rep h' none (moveT m T)
      ∧ ∀ a < h.next, a ∉ T.ids → h'.get a = h.get a := by
  obtain ⟨q, x, rx, rfl, hnx, hsub⟩ := hK.rep r hn
  obtain ⟨C, hC, eC⟩ := List.mem_map.1 ok.1
  obtain ⟨P, hP, eP⟩ := List.mem_map.1 ok.2.1
  have H := here_of rx hnx (fun a ha => he a (hsub a ha)) hC hP eC eP ok.2.2 hmn
  have hcell := rx.cell
  have hk : (h.get x.id).children = x.children.map LTree.id := by rw [hcell]
  have hcs := children_nodup hnx
  obtain ⟨h', e, M⟩ := transplant_moved hf H (by rw [hk]; exact roots_nodup hcs) (fun hm => by
      rw [hk] at hm
      exact absurd (he _ (hsub _ (children_ids (roots_mem hm)))) (by omega)) (fun a ha hne => by
      rw [hk] at ha
      obtain ⟨y, hy, rfl⟩ := List.mem_map.1 ha
      rw [(rx.sub y hy).cell, ← eC, (rx.sub C hC).cell]
      exact hlo y hy C hC eC hne)
  have hroot := r.cell
  refine ⟨h', e, M.next, rep_moveT H M r hn he (fun e => ?_) (fun e => ?_) fun e => ?_, fun a ha hT =>
    moved_frame rx M hmn hC hP eC eP a ha fun hax => hT (hsub a hax)⟩
  · have := H.pp
    rw [← e, hroot] at this
    cases this
  · have := H.cp
    rw [← e, hroot] at this
    cases this
  · have := H.op _ e
    rw [hroot] at this
    cases this

/-- A node that is not among the siblings cannot be moved. -/
theorem transplant_not {fuel : Nat} (hf : 0 < fuel) {h : Heap} {T : LTree} {K : List LTree} {c p clo : Nat} (r : Rep h none T)
    (hn : T.ids.Nodup) (he : ∀ a ∈ T.ids, a < h.next) (hK : Lev T K) (hp : p ∈ K.map LTree.id) (hc : c < h.next)
    (hclo : (h.get c).lo = clo) (hlo : ∀ x ∈ K, x.lo ≠ clo) : transplant fuel h c p = .error (.py .value) := by
  obtain ⟨q, x, rx, rfl, hnx, hsub⟩ := hK.rep r hn
  obtain ⟨P, hP, rfl⟩ := List.mem_map.1 hp
  have hcs := children_nodup hnx
  have hroot := children_not_root hnx
  have hPk : (h.get P.id).children = P.children.map LTree.id := by rw [(rx.sub P hP).cell]
  have hold : ∀ a ∈ (h.get P.id).children, a ∈ P.children.flatMap LTree.ids := fun a ha => roots_mem (hPk ▸ ha)
  have hne : ∀ a ∈ x.ids, a ≠ h.next := fun a ha => Nat.ne_of_lt (he a (hsub a ha))
  have hPf := mem_flat hP P.id_mem
  have pn := hne _ (children_ids hPf)
  have po : P.id ∉ (h.get P.id).children := fun hk => children_not_root (nodup_child hcs hP) (hold _ hk)
  have on : h.next ∉ (h.get P.id).children := fun hk =>
    hne _ (children_ids (mem_flat hP (children_ids (hold _ hk)))) rfl
  have hg := half_get (c := c) pn po on
  have hl := fun {a : Nat} (ha : a ≠ h.next) => half_lo (c := c) pn po on ha
  have hgg : (half h c P.id).get x.id = h.get x.id := by
    rw [hg, if_neg fun (e : x.id = P.id) => hroot (e ▸ hPf), if_neg (hne _ x.id_mem), if_neg fun hk =>
      hroot (mem_flat hP (children_ids (hold _ hk)))]
  rw [transplant_eq, hg P.id, if_pos rfl]
  have hpp : (h.get P.id).parent = some x.id := by rw [(rx.sub P hP).cell]
  simp only [hpp]
  rw [hgg, removeFirst_not hf]
  intro a ha
  rw [rx.cell] at ha
  obtain ⟨y, hy, rfl⟩ := List.mem_map.1 ha
  rw [hl (hne _ (children_ids (mem_flat hy y.id_mem))), hl (Nat.ne_of_lt hc), (rx.sub y hy).cell, hclo]
  exact hlo y hy

/-! ### Addresses after a move -/

theorem perm_root {l : List LTree} (hn : (l.map LTree.id).Nodup) {x : LTree} (hx : x ∈ l) :
    l.Perm (x :: l.filter fun y => y.id != x.id) := by
  induction l with
  | nil => cases hx
  | cons a l ih =>
    rw [List.map_cons, List.nodup_cons] at hn
    by_cases hax : a.id = x.id
    · have : a = x := by
        rcases List.mem_cons.1 hx with h | h
        · exact h.symm
        · exact absurd (hax ▸ List.mem_map_of_mem h) hn.1
      subst this
      rw [List.filter_cons_of_neg (by simp), List.filter_eq_self.2]
      intro b hb
      simp only [bne_iff_ne, ne_eq]
      exact fun e => hn.1 (e ▸ List.mem_map_of_mem hb)
    · rw [List.filter_cons_of_pos (by simpa using hax)]
      have hx' : x ∈ l := (List.mem_cons.1 hx).resolve_left fun e => hax (by rw [e])
      exact ((ih hn.2 hx').cons a).trans (List.Perm.swap _ _ _)

theorem placeL_perm {m : Move} {l : List LTree} (hn : (l.map LTree.id).Nodup) (ok : OkL m l) :
    ((placeL m l).flatMap LTree.ids).Perm (m.n :: l.flatMap LTree.ids) := by
  obtain ⟨C, hC, eC, _, ep⟩ := placeL_ok ok
  obtain ⟨P, hP, eP⟩ := List.mem_map.1 ok.2.1
  rw [ep]
  have h1 := perm_root hn hC
  rw [eC] at h1
  have hP' : P ∈ l.filter fun y => y.id != m.c := List.mem_filter.2 ⟨hP, by simpa [eP] using ok.2.2⟩
  have hn' : ((l.filter fun y => y.id != m.c).map LTree.id).Nodup := (List.filter_sublist.map _).nodup hn
  have h2 := perm_root hn' hP'
  have h3 := h2.map fun x => if x.id = m.p then joinT m C x else x
  rw [List.map_cons, if_pos eP] at h3
  have h4 : (((l.filter fun y => y.id != m.c).filter fun y => y.id != P.id).map fun x => if x.id = m.p then joinT m C x else x)
      = (l.filter fun y => y.id != m.c).filter fun y => y.id != P.id := by
    rw [List.map_congr_left (g := fun x => x) fun x hx => ?_, List.map_id']
    have := (List.mem_filter.1 hx).2
    rw [if_neg]
    simpa [eP] using this
  rw [h4] at h3
  refine (h3.flatMap_right _).trans ?_
  refine .trans ?_ (((h1.trans (h2.cons C)).flatMap_right LTree.ids).cons m.n).symm
  cases P with
  | mk pid plo phi pann old =>
    simp only [joinT, List.flatMap_cons, LTree.ids_mk, List.flatMap_nil, List.append_nil]
    rw [List.perm_iff_count]
    intro a
    simp only [List.count_append, List.count_cons]
    omega

theorem map_moveT_out {m : Move} {l : List LTree} (h : m.c ∉ l.flatMap LTree.ids) : l.map (moveT m) = l := by
  rw [List.map_congr_left (g := fun x => x) fun x hx => moveT_not_mem fun hm => h (mem_flat hx hm), List.map_id']

theorem moveT_perm {m : Move} {t : LTree} {K : List LTree} (hK : Lev t K) (hn : t.ids.Nodup) (ok : OkL m K) :
    (moveT m t).ids.Perm (m.n :: t.ids) := by
  induction hK with
  | @self id lo hi ann cs =>
    have hcs := children_nodup hn
    rw [moveT_mk, if_pos ok, LTree.ids_mk, LTree.ids_mk]
    exact ((placeL_perm (roots_nodup hcs) ok).cons id).trans (List.Perm.swap _ _ _)
  | @child id lo hi ann cs x K hx hL ih =>
    have hcs := children_nodup hn
    simp only [LTree.children] at hcs
    have hdeep := hL.sub (roots_mem ok.1)
    have hout := deep_not_root hcs hx hdeep
    have ih' := ih (nodup_child hcs hx) ok
    rw [moveT_mk, if_neg fun ok => hout ok.1, LTree.ids_mk, LTree.ids_mk]
    refine .trans (List.Perm.cons id ?_) (List.Perm.swap _ _ _)
    obtain ⟨l1, l2, rfl⟩ := List.append_of_mem hx
    rw [List.flatMap_append, List.flatMap_cons, List.nodup_append, List.nodup_append] at hcs
    obtain ⟨_, ⟨_, _, d2⟩, d1⟩ := hcs
    have hxi := children_ids hdeep
    rw [List.map_append, List.map_cons, map_moveT_out fun hm => d1 _ hm _ (List.mem_append_left _ hxi) rfl,
      map_moveT_out fun hm => d2 _ hxi _ hm rfl]
    rw [List.flatMap_append, List.flatMap_cons, List.flatMap_append, List.flatMap_cons]
    refine ((ih'.append_right _).append_left _).trans ?_
    rw [List.cons_append]
    exact List.perm_middle

end RUSure.NodeHeap
