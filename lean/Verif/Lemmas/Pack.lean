import Verif.Lemmas.Placement
import Verif.Spec.Pack

namespace RUSure
open Spec
variable {M : Type}

/-! ## A mutation-free description of what packing appends -/

structure Entry (M : Type) where
  node : Node M
  path : List Nat
  id : NodeId
  pos : PosInParent
  lev : Nat

structure Sizes where
  p : Nat
  d : Nat
  t : Nat
  g : Nat

structure Delta (M : Type) where
  entries : List (Entry M)
  decos : List Text
  toks : List (Text × M)
  groups : List (PackedGroup M)

def Delta.zero : Delta M := ⟨[], [], [], []⟩

def Delta.append (a b : Delta M) : Delta M :=
  ⟨a.entries ++ b.entries, a.decos ++ b.decos, a.toks ++ b.toks, a.groups ++ b.groups⟩

def Sizes.add (z : Sizes) (D : Delta M) : Sizes :=
  ⟨z.p + D.entries.length, z.d + D.decos.length, z.t + D.toks.length, z.g + D.groups.length⟩

mutual
def dNode (z : Sizes) (path : List Nat) (pos : PosInParent) (lev : Nat) :
    Node M → Delta M × NodeId
  | .deco t =>
      let id : NodeId := ⟨z.p, .deco, z.d⟩
      (⟨[⟨.deco t, path, id, pos, lev⟩], [t], [], []⟩, id)
  | .tok t mt =>
      let id : NodeId := ⟨z.p, .tok, z.t⟩
      (⟨[⟨.tok t mt, path, id, pos, lev⟩], [], [(t, mt)], []⟩, id)
  | .group cs mt =>
      let id : NodeId := ⟨z.p, .group, z.g⟩
      let r := dList ⟨z.p + 1, z.d, z.t, z.g + 1⟩ path z.p 0 (lev + 1) cs
      (⟨⟨.group cs mt, path, id, pos, lev⟩ :: r.1.entries, r.1.decos, r.1.toks,
        ⟨r.2, mt⟩ :: r.1.groups⟩, id)
  | .rstart =>
      let id : NodeId := ⟨z.p, .rstart, -1⟩
      (⟨[⟨.rstart, path, id, pos, lev⟩], [], [], []⟩, id)
  | .rend =>
      let id : NodeId := ⟨z.p, .rend, -1⟩
      (⟨[⟨.rend, path, id, pos, lev⟩], [], [], []⟩, id)
  | .exit =>
      let id : NodeId := ⟨z.p, .exit, -1⟩
      (⟨[⟨.exit, path, id, pos, lev⟩], [], [], []⟩, id)
def dList (z : Sizes) (path : List Nat) (parent : Int) (i : Nat) (lev : Nat) :
    List (Node M) → Delta M × List NodeId
  | [] => (.zero, [])
  | c :: cs =>
      let a := dNode z (path ++ [i]) ⟨parent, i⟩ lev c
      let b := dList (z.add a.1) path parent (i + 1) lev cs
      (a.1.append b.1, a.2 :: b.2)
end

def PackState.sizes (st : PackState M) : Sizes :=
  ⟨st.preorder.length, st.decos.length, st.toks.length, st.groups.length⟩

def PackState.app (st : PackState M) (D : Delta M) : PackState M :=
  { preorder := st.preorder ++ D.entries.map (·.id)
    decos := st.decos ++ D.decos
    toks := st.toks ++ D.toks
    groups := st.groups ++ D.groups
    parents := st.parents ++ D.entries.map (·.pos)
    levels := st.levels ++ D.entries.map (·.lev)
    maxLevel := (D.entries.map (·.lev)).foldl max st.maxLevel }

/-- Adds children ids to the group at index `gi`. -/
def PackState.withChildren (st : PackState M) (gi : Nat) (ids : List NodeId) : PackState M :=
  { st with groups := st.groups.modify gi (fun g => { g with children := g.children ++ ids }) }

theorem modify_append_left {α : Type} (f : α → α) : ∀ (a b : List α) (i : Nat), i < a.length →
    (a ++ b).modify i f = a.modify i f ++ b
  | [], _, _, h => by simp at h
  | x :: xs, b, 0, _ => by simp
  | x :: xs, b, i + 1, h => by simp [modify_append_left f xs b i (by simpa using h)]

theorem modify_append_right {α : Type} (f : α → α) : ∀ (a : List α) (x : α) (b : List α),
    (a ++ x :: b).modify a.length f = a ++ f x :: b
  | [], _, _ => by simp
  | y :: ys, x, b => by simp [modify_append_right f ys x b]

theorem modify_self {α : Type} (f : α → α) (hf : ∀ x, f x = x) : ∀ (a : List α) (i : Nat),
    a.modify i f = a
  | [], _ => by simp
  | x :: xs, 0 => by simp [hf]
  | x :: xs, i + 1 => by simp [modify_self f hf xs i]

theorem PackState.app_zero (st : PackState M) : st.app .zero = st := by
  simp [PackState.app, Delta.zero]

theorem PackState.app_app (st : PackState M) (a b : Delta M) :
    (st.app a).app b = st.app (a.append b) := by
  simp [PackState.app, Delta.append]

theorem PackState.sizes_app (st : PackState M) (a : Delta M) :
    (st.app a).sizes = st.sizes.add a := by
  simp [PackState.app, PackState.sizes, Sizes.add]

theorem PackState.sizes_withChildren (st : PackState M) (gi : Nat) (ids : List NodeId) :
    (st.withChildren gi ids).sizes = st.sizes := by
  simp [PackState.withChildren, PackState.sizes]

theorem PackState.withChildren_app (st : PackState M) (gi : Nat) (ids : List NodeId) (D : Delta M)
    (h : gi < st.groups.length) :
    (st.withChildren gi ids).app D = (st.app D).withChildren gi ids := by
  simp [PackState.withChildren, PackState.app, modify_append_left _ _ _ _ h]

theorem PackState.withChildren_withChildren (st : PackState M) (gi : Nat) (a b : List NodeId) :
    (st.withChildren gi a).withChildren gi b = st.withChildren gi (a ++ b) := by
  simp only [PackState.withChildren, List.modify_modify_eq]
  congr 2
  funext g
  simp

theorem pack_eq_delta :
    (∀ (n : Node M) (st : PackState M) (path : List Nat) (pos : PosInParent) (lev : Nat),
      packNode st pos lev n =
        (st.app (dNode st.sizes path pos lev n).1, (dNode st.sizes path pos lev n).2)) ∧
    (∀ (l : List (Node M)) (st : PackState M) (gi : Nat) (path : List Nat) (parent : Int)
      (i lev : Nat), gi < st.groups.length →
      packChildren st gi parent i lev l =
        (st.app (dList st.sizes path parent i lev l).1).withChildren gi
          (dList st.sizes path parent i lev l).2) := by
  apply Node.induct
  case hg =>
    intro cs mt ih st path pos lev
    simp only [packNode, dNode]
    refine Prod.ext ?_ rfl
    simp only
    rw [ih _ _ path _ _ _ (by simp [PackState.visit])]
    simp only [PackState.visit, PackState.sizes, PackState.app, PackState.withChildren]
    simp [modify_append_right]
  case hcons =>
    intro n ns h1 h2 st gi path parent i lev hgi
    simp only [packChildren, dList]
    rw [h1 st (path ++ [i])]
    simp only
    have e : ∀ (s : PackState M) (id : NodeId), s.appendChild gi id = s.withChildren gi [id] := by
      intro s id; rfl
    rw [e, h2 _ gi path _ _ _ (by simp [PackState.withChildren, PackState.app]; omega)]
    rw [PackState.sizes_withChildren, PackState.sizes_app,
      PackState.withChildren_app _ _ _ _ (by simp [PackState.app]; omega),
      PackState.withChildren_withChildren, PackState.app_app]
    rfl
  case hnil =>
    intro st gi path parent i lev hgi
    simp only [packChildren, dList, PackState.app_zero]
    simp only [PackState.withChildren, List.append_nil]
    rw [modify_self _ (fun _ => rfl)]
  all_goals intros
  all_goals simp [packNode, dNode, PackState.visit, PackState.app, PackState.sizes]

theorem packRoot_eq_delta (l : List (Node M)) : ∀ (st : PackState M) (root : List NodeId) (i : Nat),
    packRoot st root i l =
      (st.app (dList st.sizes [] (-1) i 0 l).1, root ++ (dList st.sizes [] (-1) i 0 l).2) := by
  induction l with
  | nil => intro st root i; simp [packRoot, dList, PackState.app_zero]
  | cons n ns ih =>
    intro st root i
    simp only [packRoot, dList]
    rw [pack_eq_delta.1 n st ([] ++ [i])]
    simp only
    rw [ih, PackState.sizes_app, PackState.app_app]
    simp

/-- The delta of a whole sequence. -/
def rootDelta (l : List (Node M)) : Delta M × List NodeId := dList ⟨0, 0, 0, 0⟩ [] (-1) 0 0 l

theorem pack_eq (l : List (Node M)) : pack l =
    { root := (rootDelta l).2
      preorder := (rootDelta l).1.entries.map (·.id)
      decos := (rootDelta l).1.decos
      toks := (rootDelta l).1.toks
      groups := (rootDelta l).1.groups
      parents := (rootDelta l).1.entries.map (·.pos)
      levels := (rootDelta l).1.entries.map (·.lev)
      depth := ((rootDelta l).1.entries.map (·.lev)).foldl max 0 + 1 } := by
  simp [pack, packRoot_eq_delta, PackState.empty, PackState.app, PackState.sizes, rootDelta]

/-! ## Facts about deltas -/

theorem delta_preorder :
    (∀ (n : Node M) (z : Sizes) (path : List Nat) (pos : PosInParent) (lev : Nat),
      (dNode z path pos lev n).1.entries.map (fun e => e.id.preorder)
        = (List.range' z.p (dNode z path pos lev n).1.entries.length).map (fun k : Nat => (k : Int))
      ∧ (dNode z path pos lev n).2.preorder = z.p) ∧
    (∀ (l : List (Node M)) (z : Sizes) (path : List Nat) (parent : Int) (i lev : Nat),
      (dList z path parent i lev l).1.entries.map (fun e => e.id.preorder)
        = (List.range' z.p (dList z path parent i lev l).1.entries.length).map
            (fun k : Nat => (k : Int))) := by
  apply Node.induct
  case hg =>
    intro cs mt ih z path pos lev
    simp only [dNode, List.map_cons, ih, List.length_cons, List.range'_succ]
    simp
  case hcons =>
    intro n ns h1 h2 z path parent i lev
    simp only [dList, Delta.append, List.map_append, h1, h2, List.length_append]
    rw [← List.range'_append_1, List.map_append]
    rfl
  all_goals intros
  all_goals simp [dNode, dList, Delta.zero]

theorem delta_walk :
    (∀ (n : Node M) (z : Sizes) (path : List Nat) (pos : PosInParent) (lev : Nat),
      (dNode z path pos lev n).1.entries.map (fun e => (e.node, e.path))
        = (walkNode true false path n).map (fun x => (x.1, x.2.1))) ∧
    (∀ (l : List (Node M)) (z : Sizes) (path : List Nat) (parent : Int) (i lev : Nat),
      (dList z path parent i lev l).1.entries.map (fun e => (e.node, e.path))
        = (walkFrom true false path i l).map (fun x => (x.1, x.2.1))) := by
  apply Node.induct
  case hcons =>
    intro n ns h1 h2 z path parent i lev
    simp only [dList, Delta.append, List.map_append, h1, h2, walkFrom]
  all_goals intros
  all_goals simp_all [dNode, dList, Delta.zero, walkNode, walkFrom]

theorem delta_level :
    (∀ (n : Node M) (z : Sizes) (path : List Nat) (pos : PosInParent) (lev : Nat),
      path.length = lev + 1 →
      ∀ e ∈ (dNode z path pos lev n).1.entries, e.path.length = e.lev + 1) ∧
    (∀ (l : List (Node M)) (z : Sizes) (path : List Nat) (parent : Int) (i lev : Nat),
      path.length = lev →
      ∀ e ∈ (dList z path parent i lev l).1.entries, e.path.length = e.lev + 1) := by
  apply Node.induct
  case hg =>
    intro cs mt ih z path pos lev hl e he
    simp only [dNode, List.mem_cons] at he
    rcases he with rfl | he
    · exact hl
    · exact ih _ _ _ _ _ hl e he
  case hcons =>
    intro n ns h1 h2 z path parent i lev hl e he
    simp only [dList, Delta.append, List.mem_append] at he
    rcases he with he | he
    · exact h1 _ _ _ _ (by simp [hl]) e he
    · exact h2 _ _ _ _ _ hl e he
  all_goals intros
  all_goals simp_all [dNode, dList, Delta.zero]

/-- Parent links: an entry's parent is the enclosing group (given), or another entry. -/
theorem delta_parent :
    (∀ (n : Node M) (z : Sizes) (path : List Nat) (pos : PosInParent) (lev : Nat),
      ∀ e ∈ (dNode z path pos lev n).1.entries,
        (e.path = path ∧ e.pos = pos) ∨
        (∃ e' ∈ (dNode z path pos lev n).1.entries,
          e.path = e'.path ++ [e.pos.child] ∧ e.pos.parent = e'.id.preorder)) ∧
    (∀ (l : List (Node M)) (z : Sizes) (path : List Nat) (parent : Int) (i lev : Nat),
      ∀ e ∈ (dList z path parent i lev l).1.entries,
        (e.path = path ++ [e.pos.child] ∧ e.pos.parent = parent) ∨
        (∃ e' ∈ (dList z path parent i lev l).1.entries,
          e.path = e'.path ++ [e.pos.child] ∧ e.pos.parent = e'.id.preorder)) := by
  apply Node.induct
  case hg =>
    intro cs mt ih z path pos lev e he
    simp only [dNode, List.mem_cons] at he ⊢
    rcases he with rfl | he
    · exact .inl ⟨rfl, rfl⟩
    · right
      rcases ih _ _ _ _ _ e he with ⟨h1, h2⟩ | ⟨e', he', h1, h2⟩
      · exact ⟨_, .inl rfl, h1, h2⟩
      · exact ⟨e', .inr he', h1, h2⟩
  case hcons =>
    intro n ns h1 h2 z path parent i lev e he
    simp only [dList, Delta.append, List.mem_append] at he ⊢
    rcases he with he | he
    · rcases h1 _ _ _ _ e he with ⟨a, b⟩ | ⟨e', he', a, b⟩
      · left; rw [b]; exact ⟨a, rfl⟩
      · right; exact ⟨e', .inl he', a, b⟩
    · rcases h2 _ _ _ _ _ e he with ⟨a, b⟩ | ⟨e', he', a, b⟩
      · left; exact ⟨a, b⟩
      · right; exact ⟨e', .inr he', a, b⟩
  all_goals intros
  all_goals simp_all [dNode, dList, Delta.zero]

/-- `S` contains the data of `D` at offsets `z`. -/
def Contains (S : Storage M) (z : Sizes) (D : Delta M) : Prop :=
  (∀ i x, D.decos[i]? = some x → S.decos[z.d + i]? = some x)
  ∧ (∀ i x, D.toks[i]? = some x → S.toks[z.t + i]? = some x)
  ∧ (∀ i x, D.groups[i]? = some x → S.groups[z.g + i]? = some x)

theorem contains_append {S : Storage M} {z : Sizes} {a b : Delta M}
    (h : Contains S z (a.append b)) : Contains S z a ∧ Contains S (z.add a) b := by
  obtain ⟨h1, h2, h3⟩ := h
  have left : ∀ {α : Type} (l r : List α) (i : Nat) (x : α), l[i]? = some x → (l ++ r)[i]? = some x := by
    intro α l r i x h
    rw [List.getElem?_append_left]
    · exact h
    · exact (List.getElem?_eq_some_iff.1 h).1
  have right : ∀ {α : Type} (l r : List α) (i : Nat) (x : α), r[i]? = some x →
      (l ++ r)[l.length + i]? = some x := by
    intro α l r i x h
    rw [List.getElem?_append_right (by omega)]
    simpa using h
  simp only [Delta.append] at h1 h2 h3
  refine ⟨⟨fun i x hx => h1 i x (left _ _ _ _ hx), fun i x hx => h2 i x (left _ _ _ _ hx),
    fun i x hx => h3 i x (left _ _ _ _ hx)⟩, ?_, ?_, ?_⟩
  · intro i x hx; simpa [Sizes.add, Nat.add_assoc] using h1 _ x (right _ _ _ _ hx)
  · intro i x hx; simpa [Sizes.add, Nat.add_assoc] using h2 _ x (right _ _ _ _ hx)
  · intro i x hx; simpa [Sizes.add, Nat.add_assoc] using h3 _ x (right _ _ _ _ hx)

theorem pyGet_ofNat {α : Type} (l : List α) (k : Nat) : pyGet l (k : Int) = l[k]? := by
  simp [pyGet]

theorem delta_represents (S : Storage M) :
    (∀ (n : Node M) (z : Sizes) (path : List Nat) (pos : PosInParent) (lev : Nat),
      Contains S z (dNode z path pos lev n).1 →
      Represents S (dNode z path pos lev n).2 n ∧
      ∀ e ∈ (dNode z path pos lev n).1.entries, Represents S e.id e.node) ∧
    (∀ (l : List (Node M)) (z : Sizes) (path : List Nat) (parent : Int) (i lev : Nat),
      Contains S z (dList z path parent i lev l).1 →
      RepresentsL S (dList z path parent i lev l).2 l ∧
      ∀ e ∈ (dList z path parent i lev l).1.entries, Represents S e.id e.node) := by
  apply Node.induct
  case hg =>
    intro cs mt ih z path pos lev hc
    have hsub : Contains S ⟨z.p + 1, z.d, z.t, z.g + 1⟩
        (dList ⟨z.p + 1, z.d, z.t, z.g + 1⟩ path z.p 0 (lev + 1) cs).1 := by
      obtain ⟨h1, h2, h3⟩ := hc
      simp only [dNode] at h1 h2 h3
      refine ⟨h1, h2, fun i x hx => ?_⟩
      have := h3 (i + 1) x (by simpa using hx)
      simpa [Nat.add_assoc, Nat.add_comm 1] using this
    obtain ⟨r1, r2⟩ := ih _ _ _ _ _ hsub
    have hg0 := hc.2.2 0
    simp only [dNode] at hg0
    have hrep : Represents S (dNode z path pos lev (.group cs mt)).2 (.group cs mt) := by
      simp only [dNode, Represents]
      refine ⟨trivial, _, ?_, r1⟩
      rw [pyGet_ofNat]
      exact hg0 _ (by simp)
    refine ⟨hrep, ?_⟩
    intro e he
    simp only [dNode, List.mem_cons] at he
    rcases he with rfl | he
    · exact hrep
    · exact r2 e he
  case hcons =>
    intro n ns h1 h2 z path parent i lev hc
    obtain ⟨ca, cb⟩ := contains_append hc
    obtain ⟨a1, a2⟩ := h1 _ _ _ _ ca
    obtain ⟨b1, b2⟩ := h2 _ _ _ _ _ cb
    simp only [dList, RepresentsL]
    refine ⟨⟨_, _, rfl, a1, b1⟩, ?_⟩
    intro e he
    simp only [Delta.append, List.mem_append] at he
    rcases he with he | he
    · exact a2 e he
    · exact b2 e he
  case hnil => intros; simp [dList, RepresentsL, Delta.zero]
  case hdeco =>
    intro t z path pos lev hc
    have := hc.1 0 t (by simp [dNode])
    simpa [dNode, Represents, pyGet_ofNat] using this
  case htok =>
    intro t mt z path pos lev hc
    have := hc.2.1 0 (t, mt) (by simp [dNode])
    simpa [dNode, Represents, pyGet_ofNat] using this
  all_goals intros
  all_goals simp [dNode, Represents]

theorem subsequenceFrom_append (S : Storage M) : ∀ (p q : List Int) (seq : List NodeId),
    S.subsequenceFrom seq (p ++ q) = (S.subsequenceFrom seq p).bind (fun s => S.subsequenceFrom s q) := by
  intro p
  induction p with
  | nil => intro q seq; simp [Storage.subsequenceFrom]
  | cons i p ih =>
    intro q seq
    simp only [List.cons_append, Storage.subsequenceFrom]
    split
    · rfl
    · split
      · rfl
      · split
        · split
          · rfl
          · exact ih _ _
        · rfl

def intPath (p : List Nat) : List Int := p.map (fun (k : Nat) => (k : Int))

theorem nodeIdFromPath_snoc (S : Storage M) (q : List Nat) (i : Nat) :
    S.nodeIdFromPath (intPath (q ++ [i])) =
      (S.subsequenceFromPath (intPath q)).bind (fun s => s[i]?) := by
  simp only [Storage.nodeIdFromPath, intPath, List.map_append, List.map_cons, List.map_nil]
  simp only [List.getLast?_append, List.getLast?_singleton, Option.some_or, List.dropLast_concat]
  cases h : S.subsequenceFromPath (List.map (fun (k : Nat) => (k : Int)) q) with
  | none => rfl
  | some s => simp [pyGet_ofNat]

theorem subsequence_snoc_group (S : Storage M) (q : List Nat) (i : Nat) (seq ids : List NodeId)
    (id : NodeId) (mt : M) (h1 : S.subsequenceFromPath (intPath q) = some seq)
    (h2 : seq[i]? = some id) (h3 : id.cat = .group) (h4 : pyGet S.groups id.idx = some ⟨ids, mt⟩) :
    S.subsequenceFromPath (intPath (q ++ [i])) = some ids := by
  have hlt := (List.getElem?_eq_some_iff.1 h2).1
  unfold Storage.subsequenceFromPath at h1 ⊢
  rw [intPath, List.map_append, subsequenceFrom_append, ← intPath, h1]
  simp only [Option.bind_some, List.map_cons, List.map_nil, Storage.subsequenceFrom]
  rw [if_neg (by omega), pyGet_ofNat, h2]
  simp [h3, h4]

/-- Every entry is found by looking up its path. -/
theorem delta_lookup (S : Storage M) :
    (∀ (n : Node M) (z : Sizes) (q : List Nat) (i : Nat) (pos : PosInParent) (lev : Nat)
      (seq : List NodeId),
      Contains S z (dNode z (q ++ [i]) pos lev n).1 →
      S.subsequenceFromPath (intPath q) = some seq →
      seq[i]? = some (dNode z (q ++ [i]) pos lev n).2 →
      ∀ e ∈ (dNode z (q ++ [i]) pos lev n).1.entries,
        S.nodeIdFromPath (intPath e.path) = some e.id) ∧
    (∀ (l : List (Node M)) (z : Sizes) (q : List Nat) (parent : Int) (i lev : Nat)
      (pre : List NodeId), pre.length = i →
      Contains S z (dList z q parent i lev l).1 →
      S.subsequenceFromPath (intPath q) = some (pre ++ (dList z q parent i lev l).2) →
      ∀ e ∈ (dList z q parent i lev l).1.entries,
        S.nodeIdFromPath (intPath e.path) = some e.id) := by
  apply Node.induct
  case hg =>
    intro cs mt ih z q i pos lev seq hc hseq hi e he
    simp only [dNode] at hi
    have hsub : Contains S ⟨z.p + 1, z.d, z.t, z.g + 1⟩
        (dList ⟨z.p + 1, z.d, z.t, z.g + 1⟩ (q ++ [i]) z.p 0 (lev + 1) cs).1 := by
      obtain ⟨h1, h2, h3⟩ := hc
      simp only [dNode] at h1 h2 h3
      refine ⟨h1, h2, fun i x hx => ?_⟩
      have := h3 (i + 1) x (by simpa using hx)
      simpa [Nat.add_assoc, Nat.add_comm 1] using this
    simp only [dNode, List.mem_cons] at he
    rcases he with rfl | he
    · simp only
      rw [nodeIdFromPath_snoc, hseq]; exact hi
    · refine ih _ (q ++ [i]) _ 0 _ [] rfl hsub ?_ e he
      have hg0 := hc.2.2 0 ⟨(dList ⟨z.p + 1, z.d, z.t, z.g + 1⟩ (q ++ [i]) z.p 0 (lev + 1) cs).2, mt⟩
        (by simp [dNode])
      exact subsequence_snoc_group S q i seq _ _ mt hseq hi rfl (by rw [pyGet_ofNat]; exact hg0)
  case hcons =>
    intro n ns h1 h2 z q parent i lev pre hp hc hseq e he
    obtain ⟨ca, cb⟩ := contains_append hc
    simp only [dList, Delta.append, List.mem_append] at he
    rcases he with he | he
    · refine h1 z q i _ lev _ ca hseq ?_ e he
      simp [dList, ← hp]
    · refine h2 _ q parent (i+1) lev (pre ++ [(dNode z (q ++ [i]) ⟨parent, i⟩ lev n).2])
        (by simp [hp]) cb ?_ e he
      rw [hseq]; simp [dList]
  case hnil => intros; simp_all [dList, Delta.zero]
  all_goals
    intros
    rename_i hseq hi e he
    simp only [dNode, List.mem_singleton] at he hi
    subst he
    simp only
    rw [nodeIdFromPath_snoc, hseq]; exact hi

theorem contains_pack (l : List (Node M)) : Contains (pack l) ⟨0, 0, 0, 0⟩ (rootDelta l).1 := by
  rw [pack_eq]
  refine ⟨?_, ?_, ?_⟩ <;> intro i x h <;> simpa using h

theorem entry_lookup (l : List (Node M)) (e : Entry M) (he : e ∈ (rootDelta l).1.entries) :
    (pack l).nodeIdFromPath (intPath e.path) = some e.id := by
  refine (delta_lookup (pack l)).2 l ⟨0,0,0,0⟩ [] (-1) 0 0 [] rfl (contains_pack l) ?_ e he
  rw [pack_eq]; rfl

theorem entry_represents (l : List (Node M)) :
    RepresentsL (pack l) (pack l).root l ∧
    ∀ e ∈ (rootDelta l).1.entries, Represents (pack l) e.id e.node := by
  have := (delta_represents (pack l)).2 l ⟨0,0,0,0⟩ [] (-1) 0 0 (contains_pack l)
  rw [show (pack l).root = (rootDelta l).2 by rw [pack_eq]]
  exact this

theorem entry_preorder (l : List (Node M)) (k : Nat) (e : Entry M)
    (h : (rootDelta l).1.entries[k]? = some e) : e.id.preorder = k := by
  have := delta_preorder.2 l ⟨0,0,0,0⟩ [] (-1) 0 0
  rw [← rootDelta] at this
  have h2 := congrArg (fun x => x[k]?) this
  simp only [List.getElem?_map, h] at h2
  have hk := (List.getElem?_eq_some_iff.1 h).1
  rw [List.getElem?_range' hk] at h2
  simpa using h2

theorem entry_of_preorder (l : List (Node M)) (e : Entry M) (he : e ∈ (rootDelta l).1.entries) :
    ∃ k : Nat, e.id.preorder = k ∧ (rootDelta l).1.entries[k]? = some e := by
  obtain ⟨k, hk⟩ := List.getElem?_of_mem he
  exact ⟨k, entry_preorder l k e hk, hk⟩

theorem pathLoop_entry (l : List (Node M)) : ∀ (fuel : Nat) (e : Entry M) (acc : List Nat),
    e ∈ (rootDelta l).1.entries → e.path.length < fuel →
    (pack l).pathLoop fuel e.id.preorder acc = some (e.path ++ acc) := by
  intro fuel
  induction fuel with
  | zero => intro e acc _ h; omega
  | succ fuel ih =>
    intro e acc he hf
    obtain ⟨k, hk, hke⟩ := entry_of_preorder l e he
    simp only [Storage.pathLoop]
    rw [if_neg (by omega), hk, pyGet_ofNat]
    have hp : (pack l).parents[k]? = some e.pos := by
      rw [pack_eq]; simp [hke]
    rw [hp]
    simp only
    rcases delta_parent.2 l ⟨0,0,0,0⟩ [] (-1) 0 0 e he with ⟨h1, h2⟩ | ⟨e', he', h1, h2⟩
    · rw [h2, h1]
      cases fuel with
      | zero => rw [h1] at hf; simp at hf
      | succ fuel => simp [Storage.pathLoop]
    · rw [h2, ih e' _ he' (by rw [h1] at hf; simp at hf; omega), h1]
      simp

theorem entry_path_length :
    (∀ (n : Node M) (z : Sizes) (path : List Nat) (pos : PosInParent) (lev : Nat),
      ∀ e ∈ (dNode z path pos lev n).1.entries,
        e.path.length + 1 ≤ path.length + (dNode z path pos lev n).1.entries.length) ∧
    (∀ (l : List (Node M)) (z : Sizes) (path : List Nat) (parent : Int) (i lev : Nat),
      ∀ e ∈ (dList z path parent i lev l).1.entries,
        e.path.length ≤ path.length + (dList z path parent i lev l).1.entries.length) := by
  apply Node.induct
  case hg =>
    intro cs mt ih z path pos lev e he
    simp only [dNode, List.mem_cons, List.length_cons] at he ⊢
    rcases he with rfl | he
    · simp
    · have := ih _ _ _ _ _ e he; omega
  case hcons =>
    intro n ns h1 h2 z path parent i lev e he
    simp only [dList, Delta.append, List.mem_append, List.length_append] at he ⊢
    rcases he with he | he
    · have := h1 _ _ _ _ e he; simp at this; omega
    · have := h2 _ _ _ _ _ e he; omega
  all_goals intros
  all_goals simp_all [dNode, dList, Delta.zero]

theorem pathFromPreorder_entry (l : List (Node M)) (e : Entry M)
    (he : e ∈ (rootDelta l).1.entries) :
    (pack l).pathFromPreorder e.id.preorder = some e.path := by
  have h := entry_path_length.2 l ⟨0,0,0,0⟩ [] (-1) 0 0 e he
  unfold Storage.pathFromPreorder
  rw [pathLoop_entry l _ e [] he]
  · simp
  · rw [show (pack l).preorder = (rootDelta l).1.entries.map (·.id) by rw [pack_eq]]
    simp only [List.length_map]
    simp only [List.length_nil, Nat.zero_add] at h
    exact Nat.lt_succ_of_le h

/-! ## Walking represented trees -/

theorem mapOpt_append {α β : Type} (f : α → Option β) (a b : List α) :
    mapOpt f (a ++ b) = (mapOpt f a).bind (fun x => (mapOpt f b).map (fun y => x ++ y)) := by
  induction a with
  | nil => simp [mapOpt]
  | cons x xs ih =>
    simp only [List.cons_append, mapOpt]
    cases f x with
    | none => rfl
    | some y =>
      simp only [ih]
      cases mapOpt f xs with
      | none => rfl
      | some ys => cases mapOpt f b <;> simp

theorem build_represents (S : Storage M) :
    (∀ (n : Node M) (id : NodeId) (fuel : Nat), Represents S id n → nestingN n < fuel →
      S.build fuel id = some n) ∧
    (∀ (l : List (Node M)) (ids : List NodeId) (fuel : Nat), RepresentsL S ids l →
      nesting l < fuel → mapOpt (S.build fuel) ids = some l) := by
  apply Node.induct
  case hg =>
    intro cs mt ih id fuel h hf
    obtain ⟨h1, ids, h2, h3⟩ := h
    cases fuel with
    | zero => omega
    | succ fuel =>
      simp only [nestingN] at hf
      simp [Storage.build, h1, h2, ih ids fuel h3 (by omega)]
  case hcons =>
    intro n ns h1 h2 ids fuel h hf
    obtain ⟨id, rest, rfl, a, b⟩ := h
    simp only [nesting] at hf
    simp [mapOpt, h1 id fuel a (by omega), h2 rest fuel b (by omega)]
  case hnil => intro ids fuel h _; simp only [RepresentsL] at h; subst h; rfl
  all_goals
    intros
    rename_i fuel h hf
    cases fuel with
    | zero => omega
    | succ fuel => simp_all [Storage.build, Represents]

theorem render_represents (S : Storage M) :
    (∀ (n : Node M) (id : NodeId) (fuel : Nat), Represents S id n → nestingN n < fuel →
      S.renderId fuel id = some (renderText n)) ∧
    (∀ (l : List (Node M)) (ids : List NodeId) (fuel : Nat), RepresentsL S ids l →
      nesting l < fuel →
      (mapOpt (S.renderId fuel) ids).map List.flatten = some (renderTextL l)) := by
  apply Node.induct
  case hg =>
    intro cs mt ih id fuel h hf
    obtain ⟨h1, ids, h2, h3⟩ := h
    cases fuel with
    | zero => omega
    | succ fuel =>
      simp only [nestingN] at hf
      simp only [Storage.renderId, h1, h2]
      exact ih ids fuel h3 (by omega)
  case hcons =>
    intro n ns h1 h2 ids fuel h hf
    obtain ⟨id, rest, rfl, a, b⟩ := h
    simp only [nesting] at hf
    have hr := h2 rest fuel b (by omega)
    simp only [mapOpt, h1 id fuel a (by omega)]
    cases hm : mapOpt (S.renderId fuel) rest with
    | none => rw [hm] at hr; cases hr
    | some ts => rw [hm] at hr; simp at hr; simp [renderTextL, hr]
  case hnil => intro ids fuel h _; simp only [RepresentsL] at h; subst h; rfl
  all_goals
    intros
    rename_i fuel h hf
    cases fuel with
    | zero => omega
    | succ fuel => simp_all [Storage.renderId, Represents, renderText]

/-- Pointwise relation between traversal items and events. -/
inductive Denotes (S : Storage M) : List TravItem → List (Event M) → Prop
  | nil : Denotes S [] []
  | cons {x e xs es} : ItemDenotes S x e → Denotes S xs es → Denotes S (x :: xs) (e :: es)

theorem Denotes.append {S : Storage M} {a b : List TravItem} {x y : List (Event M)}
    (h1 : Denotes S a x) (h2 : Denotes S b y) : Denotes S (a ++ b) (x ++ y) := by
  induction h1 with
  | nil => exact h2
  | cons h _ ih => exact .cons h ih

theorem trav_represents (S : Storage M) (strip : Bool) :
    (∀ (n : Node M) (id : NodeId) (fuel : Nat), Represents S id n → nestingN n < fuel →
      ∃ items, S.travId strip fuel id = some items ∧
        Denotes S items ((eventsN n).filter (fun e => !(strip && e.isDeco)))) ∧
    (∀ (l : List (Node M)) (ids : List NodeId) (fuel : Nat), RepresentsL S ids l →
      nesting l < fuel →
      ∃ items, (mapOpt (S.travId strip fuel) ids).map List.flatten = some items ∧
        Denotes S items ((events l).filter (fun e => !(strip && e.isDeco)))) := by
  apply Node.induct
  case hg =>
    intro cs mt ih id fuel h hf
    have hrep := h
    obtain ⟨h1, ids, h2, h3⟩ := h
    cases fuel with
    | zero => omega
    | succ fuel =>
      simp only [nestingN] at hf
      obtain ⟨items, hi, hd⟩ := ih ids fuel h3 (by omega)
      refine ⟨[⟨.beforeGroup, id⟩] ++ items ++ [⟨.afterGroup, id⟩], ?_, ?_⟩
      · simp only [Storage.travId, h1, h2]
        cases hm : mapOpt (S.travId strip fuel) ids with
        | none => rw [hm] at hi; cases hi
        | some ts => rw [hm] at hi; simp at hi; simp [hi]
      · simp only [eventsN, List.filter_append]
        refine ((?_ : Denotes S _ _).append hd).append ?_
        · simp only [List.filter_cons, List.filter_nil, Event.isDeco]
          simp
          exact .cons ⟨rfl, hrep⟩ .nil
        · simp only [List.filter_cons, List.filter_nil, Event.isDeco]
          simp
          exact .cons ⟨rfl, hrep⟩ .nil
  case hcons =>
    intro n ns h1 h2 ids fuel h hf
    obtain ⟨id, rest, rfl, a, b⟩ := h
    simp only [nesting] at hf
    obtain ⟨i1, e1, d1⟩ := h1 id fuel a (by omega)
    obtain ⟨i2, e2, d2⟩ := h2 rest fuel b (by omega)
    refine ⟨i1 ++ i2, ?_, ?_⟩
    · simp only [mapOpt, e1]
      cases hm : mapOpt (S.travId strip fuel) rest with
      | none => rw [hm] at e2; cases e2
      | some ts => rw [hm] at e2; simp at e2; simp [e2]
    · simp only [events, List.filter_append]; exact d1.append d2
  case hnil =>
    intro ids fuel h _; simp only [RepresentsL] at h; subst h
    exact ⟨[], rfl, .nil⟩
  case hdeco =>
    intro t id fuel h hf
    cases fuel with
    | zero => omega
    | succ fuel =>
      have hc := h.1
      cases strip
      · exact ⟨[⟨.leaf, id⟩], by simp [Storage.travId, hc], .cons ⟨rfl, h⟩ .nil⟩
      · exact ⟨[], by simp [Storage.travId, hc], by simp [eventsN, Event.isDeco]; exact .nil⟩
  case htok =>
    intro t mt id fuel h hf
    cases fuel with
    | zero => omega
    | succ fuel =>
      have hc := h.1
      exact ⟨[⟨.leaf, id⟩], by simp [Storage.travId, hc],
        by simp [eventsN, Event.isDeco]; exact .cons ⟨rfl, h⟩ .nil⟩
  all_goals
    intro id fuel h hf
    cases fuel with
    | zero => omega
    | succ fuel =>
      have hc := h
      simp only [Represents] at hc
      exact ⟨[⟨.leaf, id⟩], by simp [Storage.travId, hc],
        by simp [eventsN, Event.isDeco]; exact .cons ⟨rfl, h⟩ .nil⟩

/-! ## Depth -/

theorem foldl_max_le (l : List Nat) (a b : Nat) :
    l.foldl max a ≤ b ↔ a ≤ b ∧ ∀ x ∈ l, x ≤ b := by
  induction l generalizing a with
  | nil => simp
  | cons x xs ih =>
    simp only [List.foldl_cons, ih, List.mem_cons, forall_eq_or_imp, Nat.max_le, and_assoc]

theorem foldl_max_mem (l : List Nat) (a : Nat) : l.foldl max a = a ∨ l.foldl max a ∈ l := by
  induction l generalizing a with
  | nil => simp
  | cons x xs ih =>
    simp only [List.foldl_cons, List.mem_cons]
    rcases ih (max a x) with h | h
    · rcases Nat.le_total a x with hx | hx
      · rw [Nat.max_eq_right hx] at h ⊢; simp [h]
      · rw [Nat.max_eq_left hx] at h ⊢; simp [h]
    · simp [h]

theorem entry_node (l : List (Node M)) :
    (∀ e ∈ (rootDelta l).1.entries, nodeAt l e.path = some e.node) ∧
    (∀ p n, nodeAt l p = some n → ∃ e ∈ (rootDelta l).1.entries, e.path = p ∧ e.node = n) := by
  have hw := delta_walk.2 l ⟨0,0,0,0⟩ [] (-1) 0 0
  constructor
  · intro e he
    have : (e.node, e.path) ∈ (walkFrom true false [] 0 l).map (fun x => (x.1, x.2.1)) := by
      rw [← hw]; exact List.mem_map.2 ⟨e, he, rfl⟩
    obtain ⟨x, hx, h⟩ := List.mem_map.1 this
    obtain ⟨k, r, h1, -, h3⟩ := (walk_sound true false).2 l [] 0 x hx
    simp at h
    rw [← h.2, h1, ← h.1]; simpa using h3
  · intro p n hp
    cases p with
    | nil => simp [nodeAt] at hp
    | cons k r =>
      have htag : ∃ tag, TagFor true false n tag := by
        cases hg : n.isGroup with
        | true => exact ⟨.groupBefore, hg, rfl⟩
        | false => exact ⟨.leaf, hg⟩
      obtain ⟨tag, htag⟩ := htag
      have := (walk_complete true false).2 l [] 0 k r n tag htag hp
      have : (n, k :: r) ∈ (dList ⟨0,0,0,0⟩ [] (-1) 0 0 l).1.entries.map (fun e => (e.node, e.path)) := by
        rw [hw]; exact List.mem_map.2 ⟨_, this, by simp⟩
      obtain ⟨e, he, h⟩ := List.mem_map.1 this
      simp at h
      exact ⟨e, he, h.2, h.1⟩

theorem entry_level (l : List (Node M)) : ∀ e ∈ (rootDelta l).1.entries, e.path.length = e.lev + 1 :=
  delta_level.2 l ⟨0,0,0,0⟩ [] (-1) 0 0 rfl

theorem computeDepth_eq_nesting :
    (∀ n : Node M, nodeDepth n = nestingN n + 1) ∧
    (∀ l : List (Node M), computeDepth l = nesting l + 1) := by
  apply Node.induct <;> intros <;> simp_all [nodeDepth, computeDepth, nestingN, nesting] <;> omega

/-- Nesting is bounded by the number of entries. -/
theorem nesting_le_entries :
    (∀ (n : Node M) (z : Sizes) (path : List Nat) (pos : PosInParent) (lev : Nat),
      nestingN n ≤ (dNode z path pos lev n).1.entries.length) ∧
    (∀ (l : List (Node M)) (z : Sizes) (path : List Nat) (parent : Int) (i lev : Nat),
      nesting l ≤ (dList z path parent i lev l).1.entries.length) := by
  apply Node.induct
  case hg =>
    intro cs mt ih z path pos lev
    simp only [dNode, List.length_cons, nestingN]
    have := ih ⟨z.p + 1, z.d, z.t, z.g + 1⟩ path z.p 0 (lev + 1)
    omega
  case hcons =>
    intro n ns h1 h2 z path parent i lev
    simp only [dList, Delta.append, List.length_append, nesting]
    have a := h1 z (path ++ [i]) ⟨parent, i⟩ lev
    have b := h2 (z.add (dNode z (path ++ [i]) ⟨parent, i⟩ lev n).1) path parent (i+1) lev
    omega
  all_goals intros
  all_goals simp [dNode, dList, nestingN, nesting]

theorem nesting_lt_fuel (l : List (Node M)) : nesting l < (pack l).preorder.length + 1 := by
  have := nesting_le_entries.2 l ⟨0,0,0,0⟩ [] (-1) 0 0
  rw [pack_eq]
  simp only [List.length_map, rootDelta]
  omega

theorem path_le_nesting :
    (∀ (n : Node M) (p : List Nat) (m : Node M),
      (match n with | .group cs _ => nodeAt cs p | _ => none) = some m → p.length ≤ nestingN n) ∧
    (∀ (l : List (Node M)) (p : List Nat) (m : Node M), nodeAt l p = some m →
      p.length ≤ nesting l + 1) := by
  apply Node.induct
  case hg =>
    intro cs mt ih p m h
    have := ih p m h
    simp only [nestingN]; omega
  case hcons =>
    intro n ns h1 h2 p m h
    simp only [nesting]
    match p with
    | [] => simp
    | 0 :: p =>
      rw [nodeAt_zero_cons] at h
      split at h
      · subst p; simp
      · have := h1 p m h; simp; omega
    | (i+1) :: p =>
      rw [nodeAt_succ_cons] at h
      have := h2 _ _ h; simp at this ⊢; omega
  case hnil => intro p m h; rw [nodeAt_nil_seq] at h; cases h
  all_goals intros
  all_goals simp_all

theorem nesting_le_path :
    (∀ (n : Node M), (∀ mt, ¬ Occurs [n] (.group [] mt)) →
      nestingN n = 0 ∨ ∃ p m, (match n with | .group cs _ => nodeAt cs p | _ => none) = some m
        ∧ p.length = nestingN n) ∧
    (∀ (l : List (Node M)), (∀ mt, ¬ Occurs l (.group [] mt)) → l ≠ [] →
      ∃ p m, nodeAt l p = some m ∧ p.length = nesting l + 1) := by
  apply Node.induct
  case hg =>
    intro cs mt ih h
    right
    have hne : cs ≠ [] := by
      rintro rfl
      exact h mt ((occurs_cons ..).2 (.inl rfl))
    obtain ⟨p, m, h1, h2⟩ := ih (fun mt' ho => h mt' ((occurs_cons ..).2 (.inr (.inl ⟨_, _, rfl, ho⟩)))) hne
    exact ⟨p, m, h1, by simp [nestingN, h2]; omega⟩
  case hcons =>
    intro n ns h1 h2 h _
    have hn : ∀ mt, ¬ Occurs [n] (.group [] mt) := by
      intro mt ho
      have e : n :: ns = [n] ++ ns := rfl
      exact h mt (by rw [e, occurs_append]; exact .inl ho)
    have hns : ∀ mt, ¬ Occurs ns (.group [] mt) := by
      intro mt ho
      have e : n :: ns = [n] ++ ns := rfl
      exact h mt (by rw [e, occurs_append]; exact .inr ho)
    simp only [nesting]
    by_cases hle : nestingN n ≤ nesting ns
    · by_cases hnil : ns = []
      · subst hnil
        exact ⟨[0], n, by simp [nodeAt], by simp [nesting] at hle ⊢; omega⟩
      · obtain ⟨p, m, a, b⟩ := h2 hns hnil
        match p, a with
        | [], a => simp [nodeAt] at a
        | i :: p, a =>
          exact ⟨(i+1) :: p, m, by rw [nodeAt_succ_cons]; exact a, by simp at b ⊢; omega⟩
    · rcases h1 hn with h0 | ⟨p, m, a, b⟩
      · omega
      · refine ⟨0 :: p, m, ?_, by simp; omega⟩
        rw [nodeAt_zero_cons, if_neg]
        · cases n <;> exact a
        · rintro rfl; simp at b; omega
  case hnil => intro _ h; exact absurd rfl h
  all_goals intros
  all_goals simp [nestingN]

end RUSure

namespace RUSure
open Spec
variable {M : Type}

theorem representsL_get {S : Storage M} : ∀ (l : List (Node M)) (ids : List NodeId),
    RepresentsL S ids l → ids.length = l.length ∧
      ∀ (i : Nat) (n : Node M), l[i]? = some n → ∃ id, ids[i]? = some id ∧ Represents S id n := by
  intro l
  induction l with
  | nil => intro ids h; simp only [RepresentsL] at h; subst h; simp
  | cons n ns ih =>
    intro ids h
    obtain ⟨id, rest, rfl, a, b⟩ := h
    obtain ⟨h1, h2⟩ := ih rest b
    refine ⟨by simp [h1], ?_⟩
    intro i m hi
    cases i with
    | zero => simp at hi; subst hi; exact ⟨id, by simp, a⟩
    | succ i => simpa using h2 i m (by simpa using hi)

theorem represents_cat {S : Storage M} {id : NodeId} {n : Node M} (h : Represents S id n) :
    id.cat = .group ↔ n.isGroup = true := by
  cases n <;> simp_all [Represents, Node.isGroup]

/-- Following a path in the storage mirrors navigation in the tree. -/
theorem subsequence_spec (S : Storage M) : ∀ (p : List Nat) (l : List (Node M)) (seq : List NodeId),
    RepresentsL S seq l → p ≠ [] →
    (∀ cs mt, nodeAt l p = some (.group cs mt) →
      ∃ ids, S.subsequenceFrom seq (intPath p) = some ids ∧ RepresentsL S ids cs) ∧
    ((∀ cs mt, nodeAt l p ≠ some (.group cs mt)) → S.subsequenceFrom seq (intPath p) = none) := by
  intro p
  induction p with
  | nil => intro l seq _ h; exact absurd rfl h
  | cons i p ih =>
    intro l seq h _
    obtain ⟨hlen, hget⟩ := representsL_get l seq h
    have unf : S.subsequenceFrom seq (intPath (i :: p)) =
        match seq[i]? with
        | none => none
        | some id => match id.cat with
          | .group => match pyGet S.groups id.idx with
            | none => none
            | some g => S.subsequenceFrom g.children (intPath p)
          | _ => none := by
      simp only [intPath, List.map_cons, Storage.subsequenceFrom, pyGet_ofNat]
      by_cases hi : i < seq.length
      · rw [if_neg (by omega)]; rfl
      · rw [if_pos (by omega), List.getElem?_eq_none (by omega)]
    rw [unf]
    cases hl : l[i]? with
    | none =>
      have : seq[i]? = none := by
        rw [List.getElem?_eq_none_iff] at hl ⊢; omega
      rw [this]
      have hn : nodeAt l (i :: p) = none := by
        cases p with
        | nil => simpa [nodeAt] using hl
        | cons j p => rw [nodeAt_cons_cons, hl]
      simp [hn]
    | some n =>
      obtain ⟨id, hid, hrep⟩ := hget i n hl
      rw [hid]
      cases n with
      | group cs mt =>
        obtain ⟨hc, ids, hg, hL⟩ := hrep
        simp only [hc, hg]
        cases p with
        | nil =>
          simp only [nodeAt, hl, intPath, List.map_nil, Storage.subsequenceFrom]
          refine ⟨?_, ?_⟩
          · intro cs' mt' e; simp at e; obtain ⟨rfl, rfl⟩ := e; exact ⟨_, rfl, hL⟩
          · intro e; exact absurd rfl (e cs mt)
        | cons j p =>
          rw [nodeAt_cons_cons, hl]
          exact ih cs ids hL (by simp)
      | _ =>
        have hcat : id.cat ≠ .group := by
          intro hc; rw [represents_cat hrep] at hc; simp [Node.isGroup] at hc
        have hn : ∀ cs mt, nodeAt l (i :: p) ≠ some (.group cs mt) := by
          intro cs mt
          cases p with
          | nil => simp [nodeAt, hl]
          | cons j p => rw [nodeAt_cons_cons, hl]; simp
        refine ⟨fun cs mt e => absurd e (hn cs mt), fun _ => ?_⟩
        simp only

theorem subsequenceFrom_negative (S : Storage M) : ∀ (p : List Int) (seq : List NodeId),
    (∃ k ∈ p, k < 0) → S.subsequenceFrom seq p = none := by
  intro p
  induction p with
  | nil => rintro seq ⟨k, hk, -⟩; cases hk
  | cons i p ih =>
    rintro seq ⟨k, hk, hneg⟩
    simp only [Storage.subsequenceFrom]
    split
    · rfl
    · rename_i hi
      have hk' : k ∈ p := by
        rcases List.mem_cons.1 hk with rfl | h
        · omega
        · exact h
      split
      · rfl
      · split
        · split
          · rfl
          · exact ih _ ⟨k, hk', hneg⟩
        · rfl

end RUSure
