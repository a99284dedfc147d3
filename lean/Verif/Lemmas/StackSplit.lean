import Verif.Lemmas.StackTree

/-!
# Splitting parse trees
-/

namespace RUSure.Lemmas
open RUSure RUSure.Spec
variable {T : Type} [DecidableEq T]

/-! ### Monadic helpers -/

theorem except_bind_ok {ε α β : Type} {x : Except ε α} {f : α → Except ε β} {b : β}
    (h : (x >>= f) = .ok b) : ∃ a, x = .ok a ∧ f a = .ok b := by
  cases x with
  | error e => cases h
  | ok a => exact ⟨a, rfl, h⟩

theorem mapM_ok {ε α β : Type} {f : α → Except ε β} : ∀ {l : List α} {r : List β},
    l.mapM f = .ok r → List.Forall₂ (fun a b => f a = .ok b) l r
  | [], r, h => by
    simp only [List.mapM_nil] at h
    cases h
    exact .nil
  | a :: l, r, h => by
    rw [List.mapM_cons] at h
    obtain ⟨b, h1, h⟩ := except_bind_ok h
    obtain ⟨bs, h2, h⟩ := except_bind_ok h
    cases h
    exact .cons h1 (mapM_ok h2)

theorem mapM_of {ε α β : Type} {f : α → Except ε β} : ∀ {l : List α},
    (∀ a ∈ l, ∃ b, f a = .ok b) → ∃ r, l.mapM f = .ok r
  | [], _ => ⟨[], rfl⟩
  | a :: l, h => by
    rw [List.forall_mem_cons] at h
    obtain ⟨b, hb⟩ := h.1
    obtain ⟨r, hr⟩ := mapM_of h.2
    refine ⟨b :: r, ?_⟩
    rw [List.mapM_cons, hb, hr]
    rfl

/-! ### Groups -/

theorem groupChildren_flatten : ∀ (cs : List (PNode × Bool)) (acc : List PNode),
    (groupChildren acc cs).flatten = acc ++ cs.map Prod.fst
  | [], acc => by
    unfold groupChildren
    cases acc <;> simp
  | (c, false) :: cs, acc => by
    rw [groupChildren, groupChildren_flatten cs]
    simp
  | (c, true) :: cs, acc => by
    rw [groupChildren, List.flatten_cons, groupChildren_flatten cs]
    simp

theorem groupChildren_ne : ∀ (cs : List (PNode × Bool)) (acc : List PNode),
    ∀ g ∈ groupChildren acc cs, g ≠ []
  | [], acc => by
    unfold groupChildren
    cases acc <;> simp
  | (c, false) :: cs, acc => by
    rw [groupChildren]
    exact groupChildren_ne cs _
  | (c, true) :: cs, acc => by
    rw [groupChildren, List.forall_mem_cons]
    exact ⟨by simp, groupChildren_ne cs _⟩

theorem zip_map_fst {α β : Type} : ∀ {l : List α} {r : List β}, l.length = r.length →
    (l.zip r).map Prod.fst = l
  | [], [], _ => rfl
  | a :: l, b :: r, h => by simp [zip_map_fst (Nat.succ.inj h)]

theorem leafRanges_inner {lo hi ann} {cs : List PNode} (h : cs ≠ []) :
    leafRanges (.mk lo hi ann cs) = leafRangesList cs := by
  cases cs with
  | nil => exact absurd rfl h
  | cons c cs => rw [leafRanges]

theorem leafRanges_same {lo hi ann ann'} {cs cs' : List PNode}
    (h : cs = [] ↔ cs' = []) (hl : leafRangesList cs = leafRangesList cs') :
    leafRanges (.mk lo hi ann cs) = leafRanges (.mk lo hi ann' cs') := by
  cases cs with
  | nil => rw [h.mp rfl]; simp [leafRanges]
  | cons c cs =>
    rw [leafRanges_inner (by simp), leafRanges_inner (fun h' => by simpa using h.mpr h'), hl]

theorem leaves_groups {gs : List (List PNode)} (h : ∀ g ∈ gs, g ≠ []) :
    leafRangesList (gs.map splitNode) = leafRangesList gs.flatten := by
  induction gs with
  | nil => rfl
  | cons g gs ih =>
    rw [List.forall_mem_cons] at h
    rw [List.map_cons, leafRangesList, ih h.2, List.flatten_cons, leafRangesList_append, splitNode,
      leafRanges_inner h.1]

theorem unsplitNodes_append (ns ms : List PNode) :
    unsplitNodes (ns ++ ms) = unsplitNodes ns ++ unsplitNodes ms := by
  induction ns with
  | nil => simp [unsplitNodes]
  | cons n ns ih => simp [unsplitNodes, ih]

theorem unsplit_groups (gs : List (List PNode)) :
    unsplitNodes (gs.map splitNode) = unsplitNodes gs.flatten := by
  induction gs with
  | nil => rfl
  | cons g gs ih =>
    rw [List.map_cons, unsplitNodes, ih, List.flatten_cons, unsplitNodes_append, splitNode,
      unsplitNode]

theorem tile_append_inv {a c : Nat} {ns ms : List PNode} (h : RangesTile a c (ns ++ ms)) :
    ∃ b, RangesTile a b ns ∧ RangesTile b c ms := by
  induction ns generalizing a with
  | nil => exact ⟨a, .nil _, h⟩
  | cons n ns ih =>
    cases h with
    | cons h1 h2 =>
      obtain ⟨b, h3, h4⟩ := ih h2
      exact ⟨b, .cons h1 h3, h4⟩

theorem tile_splitNode {a b : Nat} {g : List PNode} (hg : g ≠ []) (h : RangesTile a b g) :
    splitNode g = .mk a (some b) .split g ∧ RangeOk (.mk a (some b) .split g) := by
  cases g with
  | nil => exact absurd rfl hg
  | cons n g =>
    obtain ⟨h1, h2, -⟩ := tile_shape g n h
    refine ⟨?_, .inner hg h⟩
    unfold splitNode
    simp only [List.head?_cons, Option.elim_some, h1]
    cases hl : (n :: g).getLast? with
    | none => rw [hl] at h2; cases h2
    | some l =>
      rw [hl] at h2
      simp only [Option.map_some, Option.some.injEq] at h2
      simp [h2]

theorem tile_groups {a b : Nat} {gs : List (List PNode)} (hg : ∀ g ∈ gs, g ≠ [])
    (h : RangesTile a b gs.flatten) : RangesTile a b (gs.map splitNode) := by
  induction gs generalizing a with
  | nil => exact h
  | cons g gs ih =>
    rw [List.forall_mem_cons] at hg
    rw [List.flatten_cons] at h
    obtain ⟨c, h1, h2⟩ := tile_append_inv h
    obtain ⟨h3, h4⟩ := tile_splitNode hg.1 h1
    rw [List.map_cons, h3]
    exact .cons h4 (ih hg.2 h2)

/-- What splitting keeps. -/
structure SameList (cs cs' : List PNode) : Prop where
  empty : cs = [] ↔ cs' = []
  leaves : leafRangesList cs' = leafRangesList cs
  unsplit : unsplitNodes cs' = unsplitNodes cs
  tile : ∀ {a b}, RangesTile a b cs → RangesTile a b cs'

theorem SameList.refl (cs : List PNode) : SameList cs cs := ⟨Iff.rfl, rfl, rfl, id⟩

theorem SameList.trans {a b c : List PNode} (h : SameList a b) (h' : SameList b c) : SameList a c :=
  ⟨h.empty.trans h'.empty, h'.leaves.trans h.leaves, h'.unsplit.trans h.unsplit,
    fun t => h'.tile (h.tile t)⟩

/-- What splitting keeps of a node. -/
structure SameNode (n n' : PNode) : Prop where
  lo : n'.lo = n.lo
  hi : n'.hi = n.hi
  ann : n'.ann = n.ann
  leaves : leafRanges n' = leafRanges n
  unsplit : unsplitNode n' = unsplitNode n
  range : RangeOk n → RangeOk n'

theorem SameNode.refl (n : PNode) : SameNode n n := ⟨rfl, rfl, rfl, rfl, rfl, id⟩

theorem SameNode.trans {a b c : PNode} (h : SameNode a b) (h' : SameNode b c) : SameNode a c :=
  ⟨h'.lo.trans h.lo, h'.hi.trans h.hi, h'.ann.trans h.ann, h'.leaves.trans h.leaves,
    h'.unsplit.trans h.unsplit, fun t => h'.range (h.range t)⟩

theorem SameList.node {cs cs' : List PNode} (h : SameList cs cs') (lo hi ann) :
    SameNode (.mk lo hi ann cs) (.mk lo hi ann cs') where
  lo := rfl
  hi := rfl
  ann := rfl
  leaves := (leafRanges_same h.empty h.leaves.symm).symm
  unsplit := by
    unfold unsplitNode
    rw [h.unsplit]
  range := by
    intro hr
    cases hr with
    | leaf hle => rw [h.empty.mp rfl]; exact .leaf hle
    | inner hne ht => exact .inner (fun h' => hne (h.empty.mpr h')) (h.tile ht)

theorem SameNode.cons {n n' : PNode} {cs cs' : List PNode} (h : SameNode n n') (h' : SameList cs cs') :
    SameList (n :: cs) (n' :: cs') where
  empty := by simp
  leaves := by rw [leafRangesList, leafRangesList, h.leaves, h'.leaves]
  unsplit := by rw [unsplitNodes, unsplitNodes, h.unsplit, h'.unsplit]
  tile := by
    intro a b ht
    obtain ⟨lo, hi, ann, k⟩ := n
    obtain ⟨lo', hi', ann', k'⟩ := n'
    obtain rfl : lo' = lo := h.lo
    obtain rfl : hi' = hi := h.hi
    cases ht with
    | cons h1 h2 => exact .cons (h.range h1) (h'.tile h2)

theorem regroup_same (ann : PAnn) {marks : List Bool} {cs : List PNode}
    (hl : cs.length = marks.length) : SameList cs (regroup ann marks cs) := by
  unfold regroup
  split
  · have hf : (groupChildren [] (cs.zip marks)).flatten = cs := by
      rw [groupChildren_flatten, List.nil_append, zip_map_fst hl]
    have hn := groupChildren_ne (cs.zip marks) []
    refine ⟨?_, ?_, ?_, ?_⟩
    · rw [List.map_eq_nil_iff]
      constructor
      · rintro rfl; rfl
      · intro h; rw [h] at hf; exact hf.symm
    · rw [leaves_groups hn, hf]
    · rw [unsplit_groups, hf]
    · intro a b ht
      exact tile_groups hn (by rw [hf]; exact ht)
  · exact .refl _

section
variable (tokens splitters : List T) (un : List (T × T))

mutual
theorem splitWith_same : ∀ (n n' : PNode), n.splitWith tokens splitters un = .ok n' → SameNode n n'
  | .mk lo hi ann cs, n', h => by
    have ih := splitList_same cs
    have main : ∀ marks cs', cs.mapM (isSplitter tokens splitters) = .ok marks →
        PNode.splitList tokens splitters un cs = .ok cs' →
        SameNode (.mk lo hi ann cs) (.mk lo hi ann (regroup ann marks cs')) := by
      intro marks cs' h1 h2
      obtain ⟨h3, h4⟩ := ih cs' h2
      have h5 := (mapM_ok h1).length_eq
      exact (h3.trans (regroup_same ann (by omega))).node lo hi ann
    unfold PNode.splitWith at h
    split at h
    · obtain ⟨b, -, h⟩ := except_bind_ok h
      cases b with
      | true => cases h; exact .refl _
      | false =>
        obtain ⟨marks, h1, h⟩ := except_bind_ok h
        obtain ⟨cs', h2, h⟩ := except_bind_ok h
        cases h
        exact main _ _ h1 h2
    · obtain ⟨marks, h1, h⟩ := except_bind_ok h
      obtain ⟨cs', h2, h⟩ := except_bind_ok h
      cases h
      exact main _ _ h1 h2

theorem splitList_same : ∀ (cs cs' : List PNode), PNode.splitList tokens splitters un cs = .ok cs' →
    SameList cs cs' ∧ cs'.length = cs.length
  | [], cs', h => by
    unfold PNode.splitList at h
    cases h
    exact ⟨.refl _, rfl⟩
  | c :: cs, cs', h => by
    have ih := splitWith_same c
    have ih' := splitList_same cs
    unfold PNode.splitList at h
    obtain ⟨k, -, h⟩ := except_bind_ok h
    dsimp only at h
    split at h
    · obtain ⟨c', h1, h⟩ := except_bind_ok h
      obtain ⟨cs2, h2, h⟩ := except_bind_ok h
      cases h
      obtain ⟨h3, h4⟩ := ih' cs2 h2
      exact ⟨(ih c' h1).cons h3, by simp [h4]⟩
    · obtain ⟨c', h1, h⟩ := except_bind_ok h
      obtain ⟨cs2, h2, h⟩ := except_bind_ok h
      cases h
      cases h1
      obtain ⟨h3, h4⟩ := ih' cs2 h2
      exact ⟨(SameNode.refl c).cons h3, by simp [h4]⟩
end

end

/-! ### Nodes of a tree -/

theorem inTree_mk {x : PNode} {lo hi ann cs} :
    InTree x (.mk lo hi ann cs) ↔ x = .mk lo hi ann cs ∨ InTrees x cs := by
  constructor
  · intro h
    cases h with
    | self => exact .inl rfl
    | child h => exact .inr h
  · rintro (rfl | h)
    · exact .self
    · exact .child h

theorem inTrees_cons {x c : PNode} {cs : List PNode} :
    InTrees x (c :: cs) ↔ InTree x c ∨ InTrees x cs := by
  constructor
  · intro h
    cases h with
    | here h => exact .inl h
    | there h => exact .inr h
  · rintro (h | h)
    · exact .here h
    · exact .there h

theorem inTrees_iff {x : PNode} {cs : List PNode} : InTrees x cs ↔ ∃ c ∈ cs, InTree x c := by
  induction cs with
  | nil => exact ⟨fun h => (by cases h), fun ⟨c, h, _⟩ => (by cases h)⟩
  | cons c cs ih => rw [inTrees_cons, ih]; simp

theorem inTrees_flatten {x : PNode} {gs : List (List PNode)} :
    InTrees x gs.flatten ↔ ∃ g ∈ gs, InTrees x g := by
  induction gs with
  | nil => exact ⟨fun h => (by cases h), fun ⟨c, h, _⟩ => (by cases h)⟩
  | cons g gs ih => rw [List.flatten_cons, inTrees_append, ih]; simp

/-- What looking up the brackets needs. -/
def LookupOk (n : Nat) (x : PNode) : Prop :=
  x.ann = .paired → ∃ a m b h, x.children = [a, m, b] ∧ a.lo < n ∧ b.hi = some (h + 1) ∧ h < n
    ∧ ∃ e, x.hi = some e ∧ x.lo < e

def LookupsOk (n : Nat) (cs : List PNode) : Prop := ∀ x, InTrees x cs → LookupOk n x

theorem range_shape {x : PNode} (h : RangeOk x) : ∃ hi, x.hi = some hi ∧ x.lo ≤ hi := by
  cases h with
  | leaf hle => exact ⟨_, rfl, hle⟩
  | inner _ ht => exact ⟨_, rfl, ranges_le _ ht⟩

mutual
theorem range_inTree : ∀ (n : PNode), RangeOk n → ∀ x, InTree x n → RangeOk x
  | .mk lo hi ann cs, h, x, hx => by
    have ih := fun a b => range_inTrees cs a b
    rcases inTree_mk.mp hx with rfl | hx'
    · exact h
    · cases h with
      | leaf _ => cases hx'
      | inner _ ht => exact ih _ _ ht x hx'

theorem range_inTrees : ∀ (cs : List PNode) (a b : Nat), RangesTile a b cs →
    ∀ x, InTrees x cs → RangeOk x
  | [], _, _, _, x, hx => by cases hx
  | c :: cs, a, b, h, x, hx => by
    have ih := range_inTree c
    have ih' := range_inTrees cs
    cases h with
    | cons h1 h2 =>
      rcases inTrees_cons.mp hx with h | h
      · exact ih h1 x h
      · exact ih' _ _ h2 x h
end

omit [DecidableEq T] in
theorem isBracket_pairOk {pairs : List (T × T)} {tokens : List T} {x : PNode}
    (h : x.ann = .paired → IsBracket pairs tokens x) (hr : RangeOk x) : LookupOk tokens.length x := by
  intro hx
  obtain ⟨lo, hi, o, c, inner, rfl, h1, h2, -⟩ := h hx
  have h3 : lo < tokens.length := (List.getElem?_eq_some_iff.mp h1).1
  have h4 : hi < tokens.length := (List.getElem?_eq_some_iff.mp h2).1
  refine ⟨_, _, _, hi, rfl, h3, rfl, h4, _, rfl, ?_⟩
  cases hr with
  | inner _ ht =>
    cases ht with
    | cons _ ht =>
      cases ht with
      | cons h5 ht =>
        obtain ⟨e, h6, h7⟩ := range_shape h5
        cases h6
        simp only [PNode.lo] at h7 ⊢
        omega

theorem LookupsOk.cons {n : Nat} {c : PNode} {cs : List PNode} :
    LookupsOk n (c :: cs) ↔ (∀ x, InTree x c → LookupOk n x) ∧ LookupsOk n cs := by
  constructor
  · intro h
    exact ⟨fun x hx => h x (.here hx), fun x hx => h x (.there hx)⟩
  · rintro ⟨h1, h2⟩ x hx
    rcases inTrees_cons.mp hx with h | h
    · exact h1 x h
    · exact h2 x h

theorem LookupsOk.regroup {n : Nat} {ann : PAnn} {marks : List Bool} {cs : List PNode}
    (hl : cs.length = marks.length) (h : LookupsOk n cs) : LookupsOk n (regroup ann marks cs) := by
  unfold RUSure.regroup
  split
  · have hf : (groupChildren [] (cs.zip marks)).flatten = cs := by
      rw [groupChildren_flatten, List.nil_append, zip_map_fst hl]
    intro x hx
    obtain ⟨c, hc, hx⟩ := inTrees_iff.mp hx
    obtain ⟨g, hg, rfl⟩ := List.mem_map.mp hc
    unfold splitNode at hx
    rcases inTree_mk.mp hx with rfl | hx
    · intro h'; cases h'
    · exact h x (by rw [← hf]; exact inTrees_flatten.mpr ⟨g, hg, hx⟩)
  · exact h

section
variable (tokens splitters : List T) (un : List (T × T))

theorem splitList_shape : ∀ (cs cs' : List PNode), PNode.splitList tokens splitters un cs = .ok cs' →
    List.Forall₂ SameNode cs cs'
  | [], cs', h => by
    unfold PNode.splitList at h
    cases h
    exact .nil
  | c :: cs, cs', h => by
    unfold PNode.splitList at h
    obtain ⟨k, -, h⟩ := except_bind_ok h
    dsimp only at h
    split at h
    · obtain ⟨c', h1, h⟩ := except_bind_ok h
      obtain ⟨cs2, h2, h⟩ := except_bind_ok h
      cases h
      exact .cons (splitWith_same _ _ _ _ _ h1) (splitList_shape cs _ h2)
    · obtain ⟨c', h1, h⟩ := except_bind_ok h
      obtain ⟨cs2, h2, h⟩ := except_bind_ok h
      cases h
      cases h1
      exact .cons (SameNode.refl c) (splitList_shape cs _ h2)

mutual
theorem splitWith_pairs (N : Nat) : ∀ (n n' : PNode), n.splitWith tokens splitters un = .ok n' →
    (∀ x, InTree x n → LookupOk N x) → ∀ x, InTree x n' → LookupOk N x
  | .mk lo hi ann cs, n', h, hp => by
    have ih := splitList_pairs N cs
    have main : ∀ marks cs', cs.mapM (isSplitter tokens splitters) = .ok marks →
        PNode.splitList tokens splitters un cs = .ok cs' →
        ∀ x, InTree x (.mk lo hi ann (regroup ann marks cs')) → LookupOk N x := by
      intro marks cs' h1 h2 x hx
      have h3 := (splitList_same _ _ _ _ _ h2).2
      have h5 := (mapM_ok h1).length_eq
      rcases inTree_mk.mp hx with rfl | hx
      · intro ha
        obtain ⟨a, m, b, q, e1, e2, e3, e4, e5⟩ := hp _ .self ha
        cases ha
        obtain rfl : cs = [a, m, b] := e1
        have hs := splitList_shape tokens splitters un _ _ h2
        cases hs with
        | @cons _ a' _ _ ha hs =>
        cases hs with
        | @cons _ m' _ _ hm hs =>
        cases hs with
        | @cons _ b' _ _ hb hs =>
        cases hs
        refine ⟨a', m', b', q, ?_, by rw [ha.lo]; exact e2, by rw [hb.hi]; exact e3, e4, e5⟩
        simp [RUSure.regroup, PNode.children]
      · exact LookupsOk.regroup (by omega) (ih cs' h2 (fun y hy => hp y (.child hy))) x hx
    unfold PNode.splitWith at h
    split at h
    · obtain ⟨b, -, h⟩ := except_bind_ok h
      cases b with
      | true => cases h; exact hp
      | false =>
        obtain ⟨marks, h1, h⟩ := except_bind_ok h
        obtain ⟨cs', h2, h⟩ := except_bind_ok h
        cases h
        exact main _ _ h1 h2
    · obtain ⟨marks, h1, h⟩ := except_bind_ok h
      obtain ⟨cs', h2, h⟩ := except_bind_ok h
      cases h
      exact main _ _ h1 h2

theorem splitList_pairs (N : Nat) : ∀ (cs cs' : List PNode),
    PNode.splitList tokens splitters un cs = .ok cs' → LookupsOk N cs → LookupsOk N cs'
  | [], cs', h, hp => by
    unfold PNode.splitList at h
    cases h
    exact hp
  | c :: cs, cs', h, hp => by
    have ih := splitWith_pairs N c
    have ih' := splitList_pairs N cs
    rw [LookupsOk.cons] at hp
    unfold PNode.splitList at h
    obtain ⟨k, -, h⟩ := except_bind_ok h
    dsimp only at h
    split at h
    · obtain ⟨c', h1, h⟩ := except_bind_ok h
      obtain ⟨cs2, h2, h⟩ := except_bind_ok h
      cases h
      exact LookupsOk.cons.mpr ⟨ih c' h1 hp.1, ih' cs2 h2 hp.2⟩
    · obtain ⟨c', h1, h⟩ := except_bind_ok h
      obtain ⟨cs2, h2, h⟩ := except_bind_ok h
      cases h
      cases h1
      exact LookupsOk.cons.mpr ⟨hp.1, ih' cs2 h2 hp.2⟩
end

/-! ### Splitting succeeds -/

theorem tile_mem {a b : Nat} {cs : List PNode} (h : RangesTile a b cs) :
    ∀ c ∈ cs, RangeOk c ∧ a ≤ c.lo ∧ ∃ hi, c.hi = some hi ∧ hi ≤ b := by
  induction cs generalizing a with
  | nil => intro c hc; cases hc
  | cons d cs ih =>
    cases h with
    | @cons _ mid _ ann k _ h1 h2 =>
      intro c hc
      rcases List.mem_cons.mp hc with rfl | hc
      · exact ⟨h1, Nat.le_refl _, mid, rfl, ranges_le _ h2⟩
      · obtain ⟨h3, h4, hi, h5, h6⟩ := ih h2 c hc
        obtain ⟨mid', h7, h8⟩ := range_shape h1
        cases h7
        exact ⟨h3, Nat.le_trans h8 h4, hi, h5, h6⟩

theorem len_ok {x : PNode} {hi : Nat} (h : x.hi = some hi) (hle : x.lo ≤ hi) :
    x.len = .ok (hi - x.lo) := by
  unfold PNode.len
  rw [h]
  simp [Nat.not_lt.mpr hle]

omit [DecidableEq T] in
theorem tokenAt_ok {i : Nat} (h : i < tokens.length) : tokenAt tokens i = .ok tokens[i] := by
  simp [tokenAt, List.getElem?_eq_getElem h]

theorem isSplitter_ok {c : PNode} {hi : Nat} (hr : RangeOk c) (h : c.hi = some hi)
    (hn : hi ≤ tokens.length) : ∃ b, isSplitter tokens splitters c = .ok b := by
  obtain ⟨hi', h', hle⟩ := range_shape hr
  rw [h] at h'
  cases h'
  unfold isSplitter
  rw [len_ok h hle]
  by_cases h1 : hi - c.lo = 1
  · refine ⟨splitters.contains (tokens[c.lo]'(by omega)), ?_⟩
    simp only [bind, Except.bind, h1, if_true, tokenAt_ok tokens (show c.lo < tokens.length by omega)]
    rfl
  · exact ⟨false, by simp only [bind, Except.bind, h1, if_false]; rfl⟩

theorem unsplittable_ok {x : PNode} (hp : LookupOk tokens.length x) (ha : x.ann = .paired) :
    ∃ b, unsplittable tokens un x.children = .ok b := by
  obtain ⟨a, m, b, h, e1, e2, e3, e4, -⟩ := hp ha
  rw [e1]
  unfold unsplittable
  simp only [tokenAt_ok tokens e2, bind, Except.bind]
  split
  · exact ⟨_, rfl⟩
  · simp only [tokenBefore, e3, tokenAt_ok tokens e4]
    exact ⟨_, rfl⟩

omit [DecidableEq T] in
theorem pairTokens_ok {x : PNode} (hp : LookupOk tokens.length x) (ha : x.ann = .paired) :
    ∃ b, pairTokens tokens x.children = .ok b := by
  obtain ⟨a, m, b, h, e1, e2, e3, e4, -⟩ := hp ha
  rw [e1]
  unfold pairTokens
  simp only [tokenAt_ok tokens e2, bind, Except.bind, tokenBefore, e3, tokenAt_ok tokens e4]
  exact ⟨_, rfl⟩

mutual
theorem splitWith_ok : ∀ (n : PNode), RangeOk n → (∀ hi, n.hi = some hi → hi ≤ tokens.length) →
    (∀ x, InTree x n → LookupOk tokens.length x) → ∃ n', n.splitWith tokens splitters un = .ok n'
  | .mk lo hi ann cs, hr, hn, hp => by
    have ih := splitList_ok cs
    have hcs : ∃ a b, RangesTile a b cs ∧ b ≤ tokens.length := by
      cases hr with
      | leaf _ => exact ⟨0, 0, .nil _, Nat.zero_le _⟩
      | inner _ ht => exact ⟨_, _, ht, hn _ rfl⟩
    obtain ⟨a, b, ht, hb⟩ := hcs
    obtain ⟨cs', h2⟩ := ih a b ht hb (fun x hx => hp x (.child hx))
    obtain ⟨marks, h1⟩ : ∃ marks, cs.mapM (isSplitter tokens splitters) = .ok marks := by
      refine mapM_of fun c hc => ?_
      obtain ⟨h3, -, e, h4, h5⟩ := tile_mem ht c hc
      exact isSplitter_ok tokens splitters h3 h4 (Nat.le_trans h5 hb)
    unfold PNode.splitWith
    by_cases ha : ann = .paired
    · subst ha
      obtain ⟨u, hu⟩ := unsplittable_ok tokens un (hp _ .self) rfl
      have hu' : unsplittable tokens un cs = .ok u := hu
      cases u with
      | true => exact ⟨.mk lo hi .paired cs, by simp only [if_true, hu']; rfl⟩
      | false =>
        exact ⟨.mk lo hi .paired (regroup .paired marks cs'), by
          simp only [if_true, hu', h1, h2]; rfl⟩
    · exact ⟨.mk lo hi ann (regroup ann marks cs'), by simp only [if_neg ha, h1, h2]; rfl⟩

theorem splitList_ok : ∀ (cs : List PNode) (a b : Nat), RangesTile a b cs → b ≤ tokens.length →
    LookupsOk tokens.length cs → ∃ cs', PNode.splitList tokens splitters un cs = .ok cs'
  | [], _, _, _, _, _ => ⟨[], by unfold PNode.splitList; rfl⟩
  | c :: cs, a, b, ht, hb, hp => by
    have ih := splitWith_ok c
    have ih' := splitList_ok cs
    rw [LookupsOk.cons] at hp
    obtain ⟨h3, -, e, h4, h5⟩ := tile_mem ht c (List.mem_cons_self ..)
    obtain ⟨e', h6, h7⟩ := range_shape h3
    rw [h4] at h6
    cases h6
    obtain ⟨c', h1⟩ := ih h3 (fun hi hh => by rw [h4] at hh; cases hh; omega) hp.1
    obtain ⟨cs', h2⟩ : ∃ cs', PNode.splitList tokens splitters un cs = .ok cs' := by
      cases ht with
      | cons _ ht => exact ih' _ _ ht hb hp.2
    unfold PNode.splitList
    rw [len_ok h4 h7]
    by_cases hl : 1 < e - c.lo
    · exact ⟨c' :: cs', by simp only [bind, Except.bind, if_pos hl, h1, h2]; rfl⟩
    · exact ⟨c :: cs', by simp only [bind, Except.bind, if_neg hl, h2]; rfl⟩
end

end

end RUSure.Lemmas
