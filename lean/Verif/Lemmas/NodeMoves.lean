import Verif.Lemmas.NodeHeap

/-!
# Moves of groups in trees with addresses

`buildT D t` makes the moves `D` bottom up, as in Model/StackParser; `moveT` makes one move wherever its
nodes are. Making the moves one after the other gives the same tree.
-/

namespace RUSure.NodeHeap

/-- A move of the node `c` under its sibling `p`; `n` is the address of the new first child. -/
structure Move where
  c : Nat
  p : Nat
  n : Nat

/-- Both nodes are there. -/
def OkL (m : Move) (l : List LTree) : Prop := m.c ∈ l.map LTree.id ∧ m.p ∈ l.map LTree.id ∧ m.p ≠ m.c

instance (m : Move) (l : List LTree) : Decidable (OkL m l) := inferInstanceAs (Decidable (_ ∧ _ ∧ _))

/-- The new parent. -/
def joinT (m : Move) (c : LTree) : LTree → LTree
  | .mk id lo hi ann old => .mk id lo c.hi ann [.mk m.n lo hi .split old, c]

/-- The node with the given address. -/
def findT (a : Nat) (l : List LTree) : Option LTree := l.find? fun x => x.id == a

/-- One move among siblings. -/
def placeL (m : Move) (l : List LTree) : List LTree :=
  if OkL m l then
    match findT m.c l with
    | none => l
    | some c => (l.filter fun x => x.id != m.c).map fun x => if x.id = m.p then joinT m c x else x
  else l

/-- Moves among siblings. -/
def placeAll (D : List Move) (l : List LTree) : List LTree := D.foldl (fun l m => placeL m l) l

/-- One move, anywhere in the tree. -/
def moveT (m : Move) : LTree → LTree
  | .mk id lo hi ann cs => .mk id lo hi ann (if OkL m cs then placeL m cs else cs.map (moveT m))

/-- The moves `D` with their nodes among the siblings `cs`. -/
def atLevel (D : List Move) (cs : List LTree) : List Move := D.filter fun m => m.c ∈ cs.map LTree.id

/-- The moves `D`, bottom up. -/
def buildT (D : List Move) : LTree → LTree
  | .mk id lo hi ann cs => .mk id lo hi ann (placeAll (atLevel D cs) (cs.map (buildT D)))

/-- The lists of children in a tree. -/
inductive Lev : LTree → List LTree → Prop
  | self {id lo hi ann cs} : Lev (.mk id lo hi ann cs) cs
  | child {id lo hi ann cs x K} : x ∈ cs → Lev x K → Lev (.mk id lo hi ann cs) K

/-! ### Roots -/

theorem moveT_mk (m : Move) (id lo hi ann cs) : moveT m (.mk id lo hi ann cs)
    = .mk id lo hi ann (if OkL m cs then placeL m cs else cs.map (moveT m)) := by rw [moveT]

theorem buildT_mk (D : List Move) (id lo hi ann cs) : buildT D (.mk id lo hi ann cs)
    = .mk id lo hi ann (placeAll (atLevel D cs) (cs.map (buildT D))) := by rw [buildT]

@[simp] theorem moveT_id (m : Move) (t : LTree) : (moveT m t).id = t.id := by cases t; rw [moveT_mk]; rfl
@[simp] theorem moveT_lo (m : Move) (t : LTree) : (moveT m t).lo = t.lo := by cases t; rw [moveT_mk]; rfl
@[simp] theorem moveT_hi (m : Move) (t : LTree) : (moveT m t).hi = t.hi := by cases t; rw [moveT_mk]; rfl
@[simp] theorem buildT_id (D : List Move) (t : LTree) : (buildT D t).id = t.id := by cases t; rw [buildT_mk]; rfl
@[simp] theorem buildT_lo (D : List Move) (t : LTree) : (buildT D t).lo = t.lo := by cases t; rw [buildT_mk]; rfl
@[simp] theorem buildT_hi (D : List Move) (t : LTree) : (buildT D t).hi = t.hi := by cases t; rw [buildT_mk]; rfl
@[simp] theorem buildT_ann (D : List Move) (t : LTree) : (buildT D t).ann = t.ann := by cases t; rw [buildT_mk]; rfl
@[simp] theorem joinT_id (m : Move) (c t : LTree) : (joinT m c t).id = t.id := by cases t; rfl
@[simp] theorem joinT_lo (m : Move) (c t : LTree) : (joinT m c t).lo = t.lo := by cases t; rfl

@[simp] theorem map_moveT_id (m : Move) (l : List LTree) : (l.map (moveT m)).map LTree.id = l.map LTree.id := by
  rw [List.map_map]
  exact List.map_congr_left fun x _ => moveT_id m x

@[simp] theorem map_buildT_id (D : List Move) (l : List LTree) : (l.map (buildT D)).map LTree.id = l.map LTree.id := by
  rw [List.map_map]
  exact List.map_congr_left fun x _ => buildT_id D x

theorem findT_some {a : Nat} {l : List LTree} {c : LTree} (h : findT a l = some c) : c ∈ l ∧ c.id = a :=
  ⟨List.mem_of_find?_eq_some h, by simpa using List.find?_some h⟩

theorem findT_mem {a : Nat} {l : List LTree} (h : a ∈ l.map LTree.id) : ∃ c, findT a l = some c := by
  obtain ⟨x, hx, rfl⟩ := List.mem_map.1 h
  cases hf : findT x.id l with
  | some c => exact ⟨c, rfl⟩
  | none => exact absurd (List.find?_eq_none.1 hf x hx) (by simp)

theorem placeL_ok {m : Move} {l : List LTree} (h : OkL m l) : ∃ c ∈ l, c.id = m.c ∧ findT m.c l = some c
    ∧ placeL m l = (l.filter fun x => x.id != m.c).map fun x => if x.id = m.p then joinT m c x else x := by
  obtain ⟨c, hc⟩ := findT_mem h.1
  refine ⟨c, (findT_some hc).1, (findT_some hc).2, hc, ?_⟩
  rw [placeL, if_pos h, hc]

theorem placeL_not {m : Move} {l : List LTree} (h : ¬ OkL m l) : placeL m l = l := by rw [placeL, if_neg h]

/-- The elements afterwards. -/
theorem mem_placeL {m : Move} {l : List LTree} {y : LTree} (hy : y ∈ placeL m l) :
    y ∈ l ∨ ∃ c ∈ l, ∃ x ∈ l, c.id = m.c ∧ x.id = m.p ∧ y = joinT m c x := by
  by_cases h : OkL m l
  · obtain ⟨c, hc, e, _, ep⟩ := placeL_ok h
    rw [ep] at hy
    obtain ⟨x, hx, rfl⟩ := List.mem_map.1 hy
    have hx' := (List.mem_filter.1 hx).1
    by_cases hp : x.id = m.p
    · rw [if_pos hp]; exact .inr ⟨c, hc, x, hx', e, hp, rfl⟩
    · rw [if_neg hp]; exact .inl hx'
  · rw [placeL_not h] at hy
    exact .inl hy

theorem placeL_roots {m : Move} {l : List LTree} {y : LTree} (hy : y ∈ placeL m l) :
    ∃ x ∈ l, x.id = y.id ∧ x.lo = y.lo := by
  rcases mem_placeL hy with h | ⟨_, _, x, hx, _, _, rfl⟩
  · exact ⟨y, h, rfl, rfl⟩
  · exact ⟨x, hx, (joinT_id ..).symm, (joinT_lo ..).symm⟩

theorem placeAll_roots {D : List Move} {l : List LTree} {y : LTree} (hy : y ∈ placeAll D l) :
    ∃ x ∈ l, x.id = y.id ∧ x.lo = y.lo := by
  induction D generalizing l with
  | nil => exact ⟨y, hy, rfl, rfl⟩
  | cons d D ih =>
    obtain ⟨x, hx, e1, e2⟩ := ih (l := placeL d l) hy
    obtain ⟨z, hz, e3, e4⟩ := placeL_roots hx
    exact ⟨z, hz, e3.trans e1, e4.trans e2⟩

theorem placeAll_ids {D : List Move} {l : List LTree} {a : Nat} (h : a ∈ (placeAll D l).map LTree.id) :
    a ∈ l.map LTree.id := by
  obtain ⟨y, hy, rfl⟩ := List.mem_map.1 h
  obtain ⟨x, hx, e, _⟩ := placeAll_roots hy
  exact e ▸ List.mem_map_of_mem hx

theorem placeL_ids {m : Move} {l : List LTree} {a : Nat} (h : a ∈ (placeL m l).map LTree.id) : a ∈ l.map LTree.id :=
  placeAll_ids (D := [m]) h

/-! ### Moves elsewhere -/

theorem findT_map {f : LTree → LTree} (hf : ∀ x, (f x).id = x.id) (a : Nat) (l : List LTree) :
    findT a (l.map f) = (findT a l).map f := by
  rw [findT, findT, List.find?_map]
  congr 1
  congr 1
  funext x
  simp only [Function.comp, hf]

theorem okL_map {f : LTree → LTree} (hf : ∀ x, (f x).id = x.id) (m : Move) (l : List LTree) :
    OkL m (l.map f) ↔ OkL m l := by
  have : (l.map f).map LTree.id = l.map LTree.id := by
    rw [List.map_map]
    exact List.map_congr_left fun x _ => hf x
  rw [OkL, OkL, this]

theorem moveT_join {m d : Move} {c x : LTree} (h1 : m.c ≠ d.n) (h2 : m.c ≠ c.id) :
    moveT m (joinT d c x) = joinT d (moveT m c) (moveT m x) := by
  cases x with
  | mk id lo hi ann old =>
    have hno : ¬ OkL m [.mk d.n lo hi .split old, c] := by
      rintro ⟨h, _⟩
      simp only [List.map_cons, List.map_nil, List.mem_cons, List.not_mem_nil, or_false] at h
      exact h.elim h1 h2
    rw [joinT, moveT_mk, if_neg hno, moveT_mk, joinT]
    simp only [List.map_cons, List.map_nil, moveT_hi, moveT_mk]

theorem map_placeL {m d : Move} {l : List LTree} (h1 : m.c ∉ l.map LTree.id) (h2 : m.c ≠ d.n) :
    (placeL d l).map (moveT m) = placeL d (l.map (moveT m)) := by
  by_cases h : OkL d l
  · have h' : OkL d (l.map (moveT m)) := (okL_map (moveT_id m) d l).2 h
    obtain ⟨c, hc, e, ef, ep⟩ := placeL_ok h
    obtain ⟨c', _, _, ef', ep'⟩ := placeL_ok h'
    rw [findT_map (moveT_id m), ef] at ef'
    cases ef'
    rw [ep, ep', List.filter_map, List.map_map, List.map_map]
    have hfil : (l.filter ((fun x => x.id != d.c) ∘ moveT m)) = l.filter fun x => x.id != d.c :=
      List.filter_congr fun x _ => by simp only [Function.comp, moveT_id]
    rw [hfil]
    refine List.map_congr_left fun x _ => ?_
    simp only [Function.comp, moveT_id]
    by_cases hp : x.id = d.p
    · rw [if_pos hp, if_pos hp, moveT_join h2]
      intro hmc
      exact h1 (hmc ▸ List.mem_map_of_mem hc)
    · rw [if_neg hp, if_neg hp]
  · rw [placeL_not h, placeL_not (fun h' => h ((okL_map (moveT_id m) d l).1 h'))]

theorem map_placeAll {m : Move} {D : List Move} {l : List LTree} (h1 : m.c ∉ l.map LTree.id)
    (h2 : ∀ d ∈ D, m.c ≠ d.n) : (placeAll D l).map (moveT m) = placeAll D (l.map (moveT m)) := by
  induction D generalizing l with
  | nil => rfl
  | cons d D ih =>
    change (placeAll D (placeL d l)).map (moveT m) = placeAll D (placeL d (l.map (moveT m)))
    rw [← map_placeL h1 (h2 d List.mem_cons_self)]
    exact ih (fun h => h1 (placeL_ids h)) fun e he => h2 e (List.mem_cons_of_mem _ he)

theorem moveT_not_mem {m : Move} : ∀ {t : LTree}, m.c ∉ t.ids → moveT m t = t
  | .mk id lo hi ann cs, h => by
    rw [LTree.ids_mk] at h
    have h' : m.c ∉ cs.flatMap LTree.ids := fun hm => h (List.mem_cons_of_mem _ hm)
    rw [moveT_mk, if_neg fun ok => h' (roots_mem ok.1)]
    congr 1
    have : cs.map (moveT m) = cs.map fun x => x :=
      List.map_congr_left fun x hx => moveT_not_mem fun hm => h' (mem_flat hx hm)
    rw [this, List.map_id']

theorem placeAll_flat {D : List Move} {l : List LTree} {a : Nat} (h : a ∈ (placeAll D l).flatMap LTree.ids) :
    a ∈ l.flatMap LTree.ids ∨ a ∈ D.map Move.n := by
  induction D generalizing l with
  | nil => exact .inl h
  | cons d D ih =>
    rcases ih (l := placeL d l) h with h | h
    · obtain ⟨y, hy, ha⟩ := List.mem_flatMap.1 h
      rcases mem_placeL hy with hy | ⟨c, hc, x, hx, _, _, rfl⟩
      · exact .inl (mem_flat hy ha)
      · cases x with
        | mk id lo hi ann old =>
          rw [joinT, LTree.ids_mk] at ha
          simp only [List.flatMap_cons, List.flatMap_nil, List.append_nil, LTree.ids_mk, List.mem_cons,
            List.cons_append, List.mem_append] at ha
          rcases ha with rfl | rfl | ha | ha
          · exact .inl (mem_flat hx (LTree.id_mem _))
          · exact .inr List.mem_cons_self
          · exact .inl (mem_flat hx (by rw [LTree.ids_mk]; exact List.mem_cons_of_mem _ ha))
          · exact .inl (mem_flat hc ha)
    · exact .inr (List.mem_cons_of_mem _ h)

theorem buildT_ids {D : List Move} : ∀ {t : LTree} {a : Nat}, a ∈ (buildT D t).ids → a ∈ t.ids ∨ a ∈ D.map Move.n
  | .mk id lo hi ann cs, a, h => by
    rw [buildT_mk, LTree.ids_mk] at h
    rw [LTree.ids_mk]
    rcases List.mem_cons.1 h with rfl | h
    · exact .inl List.mem_cons_self
    · rcases placeAll_flat h with h | h
      · obtain ⟨y, hy, ha⟩ := List.mem_flatMap.1 h
        obtain ⟨x, hx, rfl⟩ := List.mem_map.1 hy
        rcases buildT_ids ha with h | h
        · exact .inl (List.mem_cons_of_mem _ (mem_flat hx h))
        · exact .inr h
      · obtain ⟨d, hd, rfl⟩ := List.mem_map.1 h
        exact .inr (List.mem_map_of_mem (List.mem_filter.1 hd).1)

/-! ### One more move -/

theorem atLevel_append_out {D : List Move} {m : Move} {cs : List LTree} (h : m.c ∉ cs.map LTree.id) :
    atLevel (D ++ [m]) cs = atLevel D cs := by
  rw [atLevel, atLevel, List.filter_append, List.filter_cons_of_neg (by simpa using h), List.filter_nil, List.append_nil]

theorem atLevel_append_in {D : List Move} {m : Move} {cs : List LTree} (h : m.c ∈ cs.map LTree.id) :
    atLevel (D ++ [m]) cs = atLevel D cs ++ [m] := by
  rw [atLevel, atLevel, List.filter_append, List.filter_cons_of_pos (by simpa using h), List.filter_nil]

theorem placeAll_append (D : List Move) (m : Move) (l : List LTree) :
    placeAll (D ++ [m]) l = placeL m (placeAll D l) := by rw [placeAll, List.foldl_append]; rfl

theorem buildT_out {D : List Move} {m : Move} : ∀ {t : LTree}, m.c ∉ t.children.flatMap LTree.ids →
    buildT (D ++ [m]) t = buildT D t
  | .mk id lo hi ann cs, h => by
    simp only [LTree.children] at h
    rw [buildT_mk, buildT_mk, atLevel_append_out fun hm => h (roots_mem hm)]
    congr 2
    refine List.map_congr_left fun x hx => buildT_out fun hm => h ?_
    refine mem_flat hx ?_
    cases x with
    | mk => rw [LTree.ids_mk]; exact List.mem_cons_of_mem _ hm

theorem Lev.sub {t : LTree} {K : List LTree} (h : Lev t K) : ∀ {a : Nat}, a ∈ K.flatMap LTree.ids →
    a ∈ t.children.flatMap LTree.ids := by
  induction h with
  | self => exact id
  | @child i lo hi ann cs x K hx _ ih =>
    intro a ha
    have := ih ha
    refine mem_flat hx ?_
    cases x with
    | mk => rw [LTree.ids_mk]; exact List.mem_cons_of_mem _ this

theorem children_not_root {t : LTree} (hn : t.ids.Nodup) : t.id ∉ t.children.flatMap LTree.ids := by
  cases t with
  | mk => rw [LTree.ids_mk] at hn; exact (List.nodup_cons.1 hn).1

theorem children_nodup {t : LTree} (hn : t.ids.Nodup) : (t.children.flatMap LTree.ids).Nodup := by
  cases t with
  | mk => rw [LTree.ids_mk] at hn; exact (List.nodup_cons.1 hn).2

theorem children_ids {t : LTree} {a : Nat} (h : a ∈ t.children.flatMap LTree.ids) : a ∈ t.ids := by
  cases t with
  | mk => rw [LTree.ids_mk]; exact List.mem_cons_of_mem _ h

/-- Nodes further down are no children. -/
theorem deep_not_root {cs : List LTree} (hn : (cs.flatMap LTree.ids).Nodup) {x : LTree} (hx : x ∈ cs) {a : Nat}
    (ha : a ∈ x.children.flatMap LTree.ids) : a ∉ cs.map LTree.id := by
  intro hm
  obtain ⟨y, hy, rfl⟩ := List.mem_map.1 hm
  cases root_unique hn hy hx y.id_mem (children_ids ha)
  exact children_not_root (nodup_child hn hy) ha

theorem moveT_buildT {t : LTree} {K : List LTree} (hK : Lev t K) {D : List Move} {m : Move} (hn : t.ids.Nodup)
    (hD : m.c ∉ D.map Move.n) (hc : m.c ∈ K.map LTree.id)
    (ok : OkL m (placeAll (atLevel D K) (K.map (buildT D)))) : moveT m (buildT D t) = buildT (D ++ [m]) t := by
  induction hK with
  | @self id lo hi ann cs =>
    have hcs := children_nodup hn
    simp only [LTree.children] at hcs
    rw [buildT_mk, moveT_mk, if_pos ok, buildT_mk, atLevel_append_in hc, placeAll_append]
    congr 3
    refine List.map_congr_left fun x hx => (buildT_out fun hm => ?_).symm
    exact deep_not_root hcs hx hm hc
  | @child id lo hi ann cs x K hx hL ih =>
    have hcs := children_nodup hn
    simp only [LTree.children] at hcs
    have hdeep := hL.sub (roots_mem hc)
    have hout := deep_not_root hcs hx hdeep
    have ih' := ih (nodup_child hcs hx) hc ok
    rw [buildT_mk, moveT_mk, if_neg (fun ok => hout ?_), buildT_mk, atLevel_append_out hout]
    · congr 1
      rw [map_placeAll]
      · congr 1
        rw [List.map_map]
        refine List.map_congr_left fun y hy => ?_
        simp only [Function.comp]
        by_cases hxy : m.c ∈ y.ids
        · cases root_unique hcs hx hy (children_ids hdeep) hxy
          exact ih'
        · rw [buildT_out fun hm => hxy (children_ids hm), moveT_not_mem]
          intro hm
          exact (buildT_ids hm).elim hxy hD
      · rw [map_buildT_id]; exact hout
      · intro d hd e
        exact hD (e ▸ List.mem_map_of_mem (List.mem_filter.1 hd).1)
    · have := placeAll_ids ok.1
      rwa [map_buildT_id] at this

/-! ### Lists of children after moves -/

theorem lev_joinT_left {d : Move} {c x : LTree} {K : List LTree} (h : Lev x K) : Lev (joinT d c x) K := by
  cases h with
  | self => exact .child List.mem_cons_self .self
  | child hx h => exact .child List.mem_cons_self (.child hx h)

theorem lev_joinT_right {d : Move} {c x : LTree} {K : List LTree} (h : Lev c K) : Lev (joinT d c x) K := by
  cases x with
  | mk => exact .child (List.mem_cons_of_mem _ List.mem_cons_self) h

theorem placeL_lev {d : Move} {l : List LTree} (hn : (l.map LTree.id).Nodup) {x : LTree} (hx : x ∈ l) {K : List LTree}
    (h : Lev x K) : ∃ y ∈ placeL d l, Lev y K := by
  by_cases ok : OkL d l
  · obtain ⟨c, hc, e, _, ep⟩ := placeL_ok ok
    rw [ep]
    have hmem : ∀ z ∈ l, z.id ≠ d.c → (if z.id = d.p then joinT d c z else z)
        ∈ (l.filter fun x => x.id != d.c).map fun x => if x.id = d.p then joinT d c x else x := fun z hz hne =>
      List.mem_map_of_mem (f := fun x => if x.id = d.p then joinT d c x else x)
        (List.mem_filter.2 ⟨hz, by simpa using hne⟩)
    by_cases hxc : x.id = d.c
    · have hxc' : x = c := List.inj_on_of_nodup_map hn hx hc (hxc.trans e.symm)
      subst hxc'
      obtain ⟨z, hz, ez⟩ := List.mem_map.1 ok.2.1
      refine ⟨_, hmem z hz (ez ▸ ok.2.2), ?_⟩
      rw [if_pos ez]
      exact lev_joinT_right h
    · refine ⟨_, hmem x hx hxc, ?_⟩
      by_cases hp : x.id = d.p
      · rw [if_pos hp]; exact lev_joinT_left h
      · rw [if_neg hp]; exact h
  · rw [placeL_not ok]
    exact ⟨x, hx, h⟩

theorem placeL_ids_nodup {d : Move} {l : List LTree} (hn : (l.map LTree.id).Nodup) :
    ((placeL d l).map LTree.id).Nodup := by
  by_cases ok : OkL d l
  · obtain ⟨c, hc, e, _, ep⟩ := placeL_ok ok
    rw [ep, List.map_map]
    have : (l.filter fun x => x.id != d.c).map (LTree.id ∘ fun x => if x.id = d.p then joinT d c x else x)
        = (l.filter fun x => x.id != d.c).map LTree.id := List.map_congr_left fun x _ => by
      simp only [Function.comp]
      split <;> simp
    rw [this]
    exact (List.filter_sublist.map _).nodup hn
  · rwa [placeL_not ok]

theorem placeAll_ids_nodup {D : List Move} {l : List LTree} (hn : (l.map LTree.id).Nodup) :
    ((placeAll D l).map LTree.id).Nodup := by
  induction D generalizing l with
  | nil => exact hn
  | cons d D ih => exact ih (l := placeL d l) (placeL_ids_nodup hn)

theorem placeAll_lev {D : List Move} {l : List LTree} (hn : (l.map LTree.id).Nodup) {x : LTree} (hx : x ∈ l)
    {K : List LTree} (h : Lev x K) : ∃ y ∈ placeAll D l, Lev y K := by
  induction D generalizing l x with
  | nil => exact ⟨x, hx, h⟩
  | cons d D ih =>
    obtain ⟨y, hy, h'⟩ := placeL_lev (d := d) hn hx h
    exact ih (l := placeL d l) (placeL_ids_nodup hn) hy h'

theorem buildT_lev {D : List Move} {t : LTree} {K : List LTree} (hK : Lev t K) (hn : t.ids.Nodup) :
    Lev (buildT D t) (placeAll (atLevel D K) (K.map (buildT D))) := by
  induction hK with
  | self => rw [buildT_mk]; exact .self
  | @child id lo hi ann cs x K hx hL ih =>
    have hcs := children_nodup hn
    simp only [LTree.children] at hcs
    rw [buildT_mk]
    obtain ⟨y, hy, h⟩ := placeAll_lev (D := atLevel D cs) (l := cs.map (buildT D))
      (by rw [map_buildT_id]; exact roots_nodup hcs) (List.mem_map_of_mem hx) (ih (nodup_child hcs hx))
    exact .child hy h

/-- Siblings that are no longer there have become children of siblings that started before them. -/
theorem placeAll_gone {D : List Move} {l : List LTree} (hn : (l.map LTree.id).Nodup)
    (hlo : ∀ d ∈ D, ∀ c ∈ l, ∀ p ∈ l, c.id = d.c → p.id = d.p → p.lo < c.lo) {x : LTree} (hx : x ∈ l)
    (h : x.id ∉ (placeAll D l).map LTree.id) :
    ∃ y ∈ placeAll D l, ∃ a b : LTree, Lev y [a, b] ∧ b.id = x.id ∧ b.lo = x.lo ∧ a.lo < x.lo
      ∧ (a.id ∈ D.map Move.n) := by
  induction D generalizing l x with
  | nil => exact absurd (List.mem_map_of_mem hx) h
  | cons d D ih =>
    change x.id ∉ (placeAll D (placeL d l)).map LTree.id at h
    by_cases hx1 : x.id ∈ (placeL d l).map LTree.id
    · obtain ⟨x', hx', e⟩ := List.mem_map.1 hx1
      obtain ⟨z, hz, e1, e2⟩ := placeL_roots hx'
      have hzx : z = x := List.inj_on_of_nodup_map hn hz hx (e1.trans e)
      subst hzx
      obtain ⟨y, hy, a, b, h1, h2, h3, h4, h5⟩ := ih (l := placeL d l) (placeL_ids_nodup hn) (fun d' hd' c hc p hp ec ep => by
        obtain ⟨c0, hc0, ec1, ec2⟩ := placeL_roots hc
        obtain ⟨p0, hp0, ep1, ep2⟩ := placeL_roots hp
        rw [← ec2, ← ep2]
        exact hlo d' (List.mem_cons_of_mem _ hd') c0 hc0 p0 hp0 (ec1.trans ec) (ep1.trans ep)) hx' (e ▸ h)
      exact ⟨y, hy, a, b, h1, h2.trans e, by rw [h3, e2], by rw [e2]; exact h4, List.mem_cons_of_mem _ h5⟩
    · by_cases ok : OkL d l
      · obtain ⟨c, hc, e, _, ep⟩ := placeL_ok ok
        have hxc : x.id = d.c := by
          by_contra hne
          apply hx1
          rw [ep, List.map_map]
          refine List.mem_map.2 ⟨x, List.mem_filter.2 ⟨hx, by simpa using hne⟩, ?_⟩
          simp only [Function.comp]
          split <;> simp
        have hxc' : x = c := List.inj_on_of_nodup_map hn hx hc (hxc.trans e.symm)
        subst hxc'
        obtain ⟨z, hz, ez⟩ := List.mem_map.1 ok.2.1
        have hlt := hlo d List.mem_cons_self x hx z hz hxc ez
        have hzm : joinT d x z ∈ placeL d l := by
          rw [ep]
          refine List.mem_map.2 ⟨z, List.mem_filter.2 ⟨hz, ?_⟩, if_pos ez⟩
          simpa [ez] using ok.2.2
        have hlev : ∃ a b : LTree, Lev (joinT d x z) [a, b] ∧ b = x ∧ a.lo = z.lo ∧ a.id = d.n := by
          cases z with
          | mk => exact ⟨_, _, .self, rfl, rfl, rfl⟩
        obtain ⟨a, b, hl, rfl, ea, en⟩ := hlev
        obtain ⟨y, hy, hly⟩ := placeAll_lev (D := D) (placeL_ids_nodup (d := d) hn) hzm hl
        exact ⟨y, hy, a, b, hly, rfl, rfl, ea ▸ hlt, en ▸ List.mem_cons_self⟩
      · rw [placeL_not ok] at hx1
        exact absurd (List.mem_map_of_mem hx) hx1

end RUSure.NodeHeap
