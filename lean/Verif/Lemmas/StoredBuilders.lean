import Verif.Lemmas.Located
import Verif.Model.StoredBuilders

/-!
# The builders over packed storages build what the builders over trees build
-/

namespace RUSure.Lemmas
open RUSure RUSure.Spec RUSure.Stored
variable {M : Type}

mutual
/-- The storage holds the node at the id, with preorder index `i`, as child `pos` of `par`, and so on
below. -/
def PlacedN (S : Storage M) (par : Int) (pos i : Nat) (id : NodeId) : Node M → Prop
  | .deco t => id.preorder = i ∧ S.parents[i]? = some ⟨par, pos⟩ ∧ id.cat = .deco
      ∧ pyGet S.decos id.idx = some t
  | .tok t mt => id.preorder = i ∧ S.parents[i]? = some ⟨par, pos⟩ ∧ id.cat = .tok
      ∧ pyGet S.toks id.idx = some (t, mt)
  | .rstart => id.preorder = i ∧ S.parents[i]? = some ⟨par, pos⟩ ∧ id.cat = .rstart
  | .rend => id.preorder = i ∧ S.parents[i]? = some ⟨par, pos⟩ ∧ id.cat = .rend
  | .exit => id.preorder = i ∧ S.parents[i]? = some ⟨par, pos⟩ ∧ id.cat = .exit
  | .group cs mt => id.preorder = i ∧ S.parents[i]? = some ⟨par, pos⟩ ∧ id.cat = .group
      ∧ ∃ ids, pyGet S.groups id.idx = some ⟨ids, mt⟩ ∧ PlacedL S i 0 (i + 1) ids cs
/-- The same for siblings. -/
def PlacedL (S : Storage M) (par : Int) (pos i : Nat) : List NodeId → List (Node M) → Prop
  | ids, [] => ids = []
  | ids, n :: ns => ∃ id rest, ids = id :: rest ∧ PlacedN S par pos i id n
      ∧ PlacedL S par (pos + 1) (i + nodeSize n) rest ns
end

/-- The parents of the entries are where they belong. -/
def ContainsP (S : Storage M) (z : Sizes) (D : Delta M) : Prop :=
  Contains S z D ∧ ∀ i x, (D.entries.map (·.pos))[i]? = some x → S.parents[z.p + i]? = some x

theorem containsP_append {S : Storage M} {z : Sizes} {a b : Delta M}
    (h : ContainsP S z (a.append b)) : ContainsP S z a ∧ ContainsP S (z.add a) b := by
  obtain ⟨h1, h2⟩ := h
  obtain ⟨ha, hb⟩ := contains_append h1
  simp only [Delta.append, List.map_append] at h2
  refine ⟨⟨ha, fun i x hx => h2 i x ?_⟩, hb, fun i x hx => ?_⟩
  · rw [List.getElem?_append_left (List.getElem?_eq_some_iff.1 hx).1, hx]
  · have := h2 ((a.entries.map (·.pos)).length + i) x (by
      rw [List.getElem?_append_right (by omega)]
      simpa using hx)
    simpa [Sizes.add, Nat.add_assoc] using this

theorem delta_placed (S : Storage M) :
    (∀ (n : Node M) (z : Sizes) (path : List Nat) (pos : PosInParent) (lev : Nat),
      ContainsP S z (dNode z path pos lev n).1 →
      PlacedN S pos.parent pos.child z.p (dNode z path pos lev n).2 n) ∧
    (∀ (l : List (Node M)) (z : Sizes) (path : List Nat) (parent : Int) (i lev : Nat),
      ContainsP S z (dList z path parent i lev l).1 →
      PlacedL S parent i z.p (dList z path parent i lev l).2 l) := by
  apply Node.induct
  case hg =>
    intro cs mt ih z path pos lev hc
    have hsub : ContainsP S ⟨z.p + 1, z.d, z.t, z.g + 1⟩
        (dList ⟨z.p + 1, z.d, z.t, z.g + 1⟩ path z.p 0 (lev + 1) cs).1 := by
      obtain ⟨⟨h1, h2, h3⟩, h4⟩ := hc
      simp only [dNode] at h1 h2 h3 h4
      refine ⟨⟨h1, h2, fun i x hx => ?_⟩, fun i x hx => ?_⟩
      · have := h3 (i + 1) x (by simpa using hx)
        simpa [Nat.add_assoc, Nat.add_comm 1] using this
      · have := h4 (i + 1) x (by simpa using hx)
        simpa [Nat.add_assoc, Nat.add_comm 1] using this
    have hg0 := hc.1.2.2 0
    have hp0 := hc.2 0 pos (by simp [dNode])
    simp only [dNode] at hg0
    simp only [dNode, PlacedN]
    refine ⟨trivial, by simpa using hp0, trivial, _, ?_, ih _ _ _ _ _ hsub⟩
    rw [pyGet_ofNat]
    exact hg0 _ (by simp)
  case hcons =>
    intro n ns h1 h2 z path parent i lev hc
    obtain ⟨ca, cb⟩ := containsP_append hc
    have a := h1 _ _ _ _ ca
    have b := h2 _ _ _ _ _ cb
    simp only [dList, PlacedL]
    refine ⟨_, _, rfl, a, ?_⟩
    simpa [Sizes.add, delta_size.1] using b
  case hnil => intros; simp [dList, PlacedL]
  case hdeco =>
    intro t z path pos lev hc
    have := hc.1.1 0 t (by simp [dNode])
    have hp0 := hc.2 0 pos (by simp [dNode])
    simp only [Nat.add_zero] at this hp0
    simp [dNode, PlacedN, pyGet_ofNat, this, hp0]
  case htok =>
    intro t mt z path pos lev hc
    have := hc.1.2.1 0 (t, mt) (by simp [dNode])
    have hp0 := hc.2 0 pos (by simp [dNode])
    simp only [Nat.add_zero] at this hp0
    simp [dNode, PlacedN, pyGet_ofNat, this, hp0]
  all_goals intros
  all_goals rename_i z path pos lev hc
  all_goals have hp0 := hc.2 0 pos (by simp [dNode])
  all_goals simp only [Nat.add_zero] at hp0
  all_goals simp [dNode, PlacedN, hp0]

theorem placed_pack (l : List (Node M)) : PlacedL (pack l) (-1) 0 0 (pack l).root l := by
  have := (delta_placed (pack l)).2 l ⟨0, 0, 0, 0⟩ [] (-1) 0 0 ⟨contains_pack l, ?_⟩
  · rw [show (pack l).root = (rootDelta l).2 by rw [pack_eq]]
    exact this
  · rw [pack_eq]
    intro i x h
    simpa [rootDelta] using h

theorem placedL_length {S : Storage M} : ∀ {ns : List (Node M)} {par : Int} {pos i : Nat}
    {ids : List NodeId}, PlacedL S par pos i ids ns → ids.length = ns.length
  | [], _, _, _, _, h => by rw [PlacedL] at h; rw [h]; rfl
  | n :: ns, _, _, _, ids, h => by
    obtain ⟨id, rest, rfl, -, h2⟩ := h
    simp [placedL_length h2]

theorem overAll_nil {α β : Type} (f : α → Option (List β)) : overAll f [] = some [] := rfl

theorem overAll_cons {α β : Type} {f : α → Option (List β)} {a : α} {l : List α} {x y : List β}
    (h1 : f a = some x) (h2 : overAll f l = some y) : overAll f (a :: l) = some (x ++ y) := by
  unfold overAll at h2 ⊢
  rw [mapOpt, h1]
  cases hm : mapOpt f l with
  | none => simp [hm] at h2
  | some ys =>
    rw [hm] at h2
    simp only [Option.map_some, Option.some.injEq] at h2
    simp [← h2]

theorem seqIndex_root : seqIndex (-1) = none := rfl

theorem seqIndex_ofNat (i : Nat) : seqIndex (i : Int) = some i := by
  unfold seqIndex
  rw [if_neg (by omega)]
  simp

/-! ## Constraint DAGs -/

theorem insideEdges_cons (seq : Option Nat) (level pos i : Nat) (n : Node M) (ns : List (Node M)) :
    insideEdges seq level pos i (n :: ns) = insideEdges seq level pos i [n]
      ++ insideEdges seq level (pos + 1) (i + nodeSize n) ns := by
  cases n <;> simp [insideEdges]

theorem outsideEdges_cons (seq : Option Nat) (level pos i : Nat) (n : Node M) (ns : List (Node M)) :
    outsideEdges seq level pos i (n :: ns) = outsideEdges seq level pos i [n]
      ++ outsideEdges seq level (pos + 1) (i + nodeSize n) ns := by
  cases n <;> simp [outsideEdges]

theorem inside_placed (S : Storage M) :
    (∀ (n : Node M) (fuel : Nat) (par : Int) (pos i level : Nat) (id : NodeId), nestingN n < fuel →
      PlacedN S par pos i id n →
      insideId S fuel par level (id, pos)
        = some (insideEdges (seqIndex par) level pos i [n])) ∧
    (∀ (ns : List (Node M)) (fuel : Nat) (par : Int) (pos i level : Nat) (ids : List NodeId),
      nesting ns < fuel → PlacedL S par pos i ids ns →
      overAll (insideId S fuel par level) (ids.zipIdx pos)
        = some (insideEdges (seqIndex par) level pos i ns)) := by
  apply Node.induct
  case hg =>
    intro cs mt ih fuel par pos i level id hf hp
    cases fuel with
    | zero => omega
    | succ fuel =>
      obtain ⟨h1, -, h3, ids, h4, h5⟩ := hp
      rw [nestingN] at hf
      have := ih fuel i 0 (i + 1) level ids (by omega) h5
      simp only [insideId, h3, h4, h1, this, seqIndex_ofNat, nodeIndex, Int.toNat_natCast,
        placedL_length h5]
      simp [insideEdges]
  case hnil =>
    intro fuel par pos i level ids _ hp
    rw [PlacedL] at hp
    subst hp
    simp [insideEdges, overAll_nil]
  case hcons =>
    intro n ns h1 h2 fuel par pos i level ids hf hp
    obtain ⟨id, rest, rfl, hn, hr⟩ := hp
    rw [nesting] at hf
    rw [List.zipIdx_cons]
    rw [overAll_cons (h1 fuel par pos i level id (by omega) hn)
      (h2 fuel par (pos + 1) _ level rest (by omega) hr)]
    rw [insideEdges_cons _ _ _ _ n ns]
  all_goals intros
  all_goals rename_i fuel par pos i level id hf hp
  all_goals cases fuel with
    | zero => omega
    | succ fuel =>
      simp only [PlacedN] at hp
      simp [insideId, hp, nodeIndex, insideEdges]

theorem outside_placed (S : Storage M) :
    (∀ (n : Node M) (fuel : Nat) (par : Int) (pos i level : Nat) (id : NodeId), nestingN n < fuel →
      PlacedN S par pos i id n →
      outsideId S fuel par level (id, pos)
        = some (outsideEdges (seqIndex par) level pos i [n])) ∧
    (∀ (ns : List (Node M)) (fuel : Nat) (par : Int) (pos i level : Nat) (ids : List NodeId),
      nesting ns < fuel → PlacedL S par pos i ids ns →
      overAll (outsideId S fuel par level) (ids.zipIdx pos)
        = some (outsideEdges (seqIndex par) level pos i ns)) := by
  apply Node.induct
  case hg =>
    intro cs mt ih fuel par pos i level id hf hp
    cases fuel with
    | zero => omega
    | succ fuel =>
      obtain ⟨h1, -, h3, ids, h4, h5⟩ := hp
      rw [nestingN] at hf
      have a := ih fuel i 0 (i + 1) (level + 1) ids (by omega) h5
      have b := (inside_placed S).2 cs fuel i 0 (i + 1) level ids (by omega) h5
      simp only [outsideId, h3, h4, h1, a, b, seqIndex_ofNat, nodeIndex, Int.toNat_natCast,
        placedL_length h5]
      simp [outsideEdges]
  case hnil =>
    intro fuel par pos i level ids _ hp
    rw [PlacedL] at hp
    subst hp
    simp [outsideEdges, overAll_nil]
  case hcons =>
    intro n ns h1 h2 fuel par pos i level ids hf hp
    obtain ⟨id, rest, rfl, hn, hr⟩ := hp
    rw [nesting] at hf
    rw [List.zipIdx_cons]
    rw [overAll_cons (h1 fuel par pos i level id (by omega) hn)
      (h2 fuel par (pos + 1) _ level rest (by omega) hr)]
    rw [outsideEdges_cons _ _ _ _ n ns]
  all_goals intros
  all_goals rename_i fuel par pos i level id hf hp
  all_goals cases fuel with
    | zero => omega
    | succ fuel =>
      simp only [PlacedN] at hp
      simp [outsideId, hp, nodeIndex, outsideEdges]

/-! ## Edit DAGs -/

theorem insert_placed (prm : Params) (T : Storage M) (q : Option Nat) (p : Nat) :
    (∀ (n : Node M) (fuel : Nat) (al : EditAlign) (allow : Bool) (par : Int) (u j : Nat)
      (id : NodeId), nestingN n < fuel → PlacedN T par u j id n →
      insertId prm T q p fuel al allow id
        = some (insertNode prm al allow q p (seqIndex par) u j n)) ∧
    (∀ (ns : List (Node M)) (fuel : Nat) (par : Int) (u j : Nat) (ids : List NodeId),
      nesting ns < fuel → PlacedL T par u j ids ns →
      overAll (insertId prm T q p fuel .recInsert true) ids
        = some (insertSeq prm q p (seqIndex par) u j ns)) := by
  apply Node.induct
  case hg =>
    intro cs mt ih fuel al allow par u j id hf hp
    cases fuel with
    | zero => omega
    | succ fuel =>
      obtain ⟨h1, h2, h3, ids, h4, h5⟩ := hp
      rw [nestingN] at hf
      have := ih fuel j 0 (j + 1) ids (by omega) h5
      cases allow <;>
        simp [insertId, h3, h4, h1, h2, pyGet_ofNat, this, seqIndex_ofNat, placedL_length h5,
          insertNode]
  case hnil =>
    intro fuel par u j ids _ hp
    rw [PlacedL] at hp
    subst hp
    simp [insertSeq, overAll_nil]
  case hcons =>
    intro n ns h1 h2 fuel par u j ids hf hp
    obtain ⟨id, rest, rfl, hn, hr⟩ := hp
    rw [nesting] at hf
    rw [overAll_cons (h1 fuel .recInsert true par u j id (by omega) hn)
      (h2 fuel par (u + 1) _ rest (by omega) hr), insertSeq]
  all_goals intros
  all_goals rename_i fuel al allow par u j id hf hp
  all_goals cases fuel with
    | zero => omega
    | succ fuel =>
      simp only [PlacedN] at hp
      cases allow <;> simp [insertId, hp, pyGet_ofNat, nodeIndex, insertNode]

theorem delete_placed (prm : Params) (P : Storage M) (t : Option Nat) (u : Nat) :
    (∀ (n : Node M) (fuel : Nat) (al : EditAlign) (allow : Bool) (par : Int) (p i : Nat)
      (id : NodeId), nestingN n < fuel → PlacedN P par p i id n →
      deleteId prm P t u fuel al allow id
        = some (deleteNode prm al allow (seqIndex par) p i t u n)) ∧
    (∀ (ns : List (Node M)) (fuel : Nat) (par : Int) (p i : Nat) (ids : List NodeId),
      nesting ns < fuel → PlacedL P par p i ids ns →
      overAll (deleteId prm P t u fuel .recDelete true) ids
        = some (deleteSeq prm (seqIndex par) p i t u ns)) := by
  apply Node.induct
  case hg =>
    intro cs mt ih fuel al allow par p i id hf hp
    cases fuel with
    | zero => omega
    | succ fuel =>
      obtain ⟨h1, h2, h3, ids, h4, h5⟩ := hp
      rw [nestingN] at hf
      have := ih fuel i 0 (i + 1) ids (by omega) h5
      cases allow <;>
        simp [deleteId, h3, h4, h1, h2, pyGet_ofNat, this, seqIndex_ofNat, placedL_length h5,
          deleteNode, nodeIndex]
  case hnil =>
    intro fuel par p i ids _ hp
    rw [PlacedL] at hp
    subst hp
    simp [deleteSeq, overAll_nil]
  case hcons =>
    intro n ns h1 h2 fuel par p i ids hf hp
    obtain ⟨id, rest, rfl, hn, hr⟩ := hp
    rw [nesting] at hf
    rw [overAll_cons (h1 fuel .recDelete true par p i id (by omega) hn)
      (h2 fuel par (p + 1) _ rest (by omega) hr), deleteSeq]
  all_goals intros
  all_goals rename_i fuel al allow par p i id hf hp
  all_goals cases fuel with
    | zero => omega
    | succ fuel =>
      simp only [PlacedN] at hp
      cases allow <;> simp [deleteId, hp, pyGet_ofNat, nodeIndex, deleteNode] <;> rfl

theorem over_target {T : Storage M} {par : Int} (g : NodeId × Nat → Option (List EditEdge))
    (body : Nat → Nat → Option (Node M) → List EditEdge)
    (hend : ∀ u j : Nat, g (invalidId, u) = some (body u j none)) :
    ∀ (ms : List (Node M)) (u j : Nat) (tids : List NodeId), PlacedL T par u j tids ms →
      (∀ m ∈ ms, ∀ (u j : Nat) (id : NodeId), PlacedN T par u j id m →
        g (id, u) = some (body u j (some m))) →
      overAll g ((tids ++ [invalidId]).zipIdx u) = some (overTarget body u j ms)
  | [], u, j, tids, hp, _ => by
    rw [PlacedL] at hp
    subst hp
    simpa [overTarget] using overAll_cons (hend u j) (overAll_nil g)
  | m :: ms, u, j, tids, hp, hg => by
    obtain ⟨id, rest, rfl, hn, hr⟩ := hp
    rw [List.cons_append, List.zipIdx_cons, overTarget]
    exact overAll_cons (hg m (by simp) u j id hn)
      (over_target g body hend ms (u + 1) _ rest hr fun m' h' => hg m' (by simp [h']))

/-- An id and the node it stands for, if it stands for one. -/
def PlacedO (S : Storage M) (par : Int) (pos i : Nat) (id : NodeId) : Option (Node M) → Prop
  | none => id = invalidId
  | some n => PlacedN S par pos i id n ∧ nestingN n ≤ S.preorder.length

theorem delete_placedO (prm : Params) {P : Storage M} (t : Option Nat) (u : Nat) (al : EditAlign)
    (allow : Bool) {par : Int} {p i : Nat} {id : NodeId} {n : Option (Node M)}
    (h : PlacedO P par p i id n) :
    deleteId prm P t u (P.preorder.length + 1) al allow id
      = some (deleteNode? prm al allow (seqIndex par) p i t u n) := by
  cases n with
  | none => rw [PlacedO] at h; subst h; rfl
  | some n => exact (delete_placed prm P t u).1 n _ al allow par p i id (by have := h.2; omega) h.1

theorem insert_placedO (prm : Params) {T : Storage M} (q : Option Nat) (p : Nat) (al : EditAlign)
    (allow : Bool) {par : Int} {u j : Nat} {id : NodeId} {m : Option (Node M)}
    (h : PlacedO T par u j id m) :
    insertId prm T q p (T.preorder.length + 1) al allow id
      = some (insertNode? prm al allow q p (seqIndex par) u j m) := by
  cases m with
  | none => rw [PlacedO] at h; subst h; rfl
  | some m => exact (insert_placed prm T q p).1 m _ al allow par u j id (by have := h.2; omega) h.1

/-- The category of a node, or that of the invalid id. -/
def catOf : Option (Node M) → Cat
  | none => .invalid
  | some (.deco _) => .deco
  | some (.tok _ _) => .tok
  | some (.group _ _) => .group
  | some .rstart => .rstart
  | some .rend => .rend
  | some .exit => .exit

/-- What the id says about the category of its node. -/
theorem placedO_cat {S : Storage M} {par : Int} {pos i : Nat} {id : NodeId} {n : Option (Node M)}
    (h : PlacedO S par pos i id n) :
    id.cat = catOf n := by
  match n, h with
  | none, h => rw [PlacedO] at h; subst h; rfl
  | some (.deco _), h => exact h.1.2.2.1
  | some (.tok _ _), h => exact h.1.2.2.1
  | some (.group _ _), h => exact h.1.2.2.1
  | some .rstart, h => exact h.1.2.2
  | some .rend, h => exact h.1.2.2
  | some .exit, h => exact h.1.2.2

theorem keep_placedO [DecidableEq M] (prm : Params) {P T : Storage M} {pseq tseq : Int}
    {p i u j : Nat} {pid tid : NodeId} {n m : Option (Node M)} (hn : PlacedO P pseq p i pid n)
    (hm : PlacedO T tseq u j tid m) :
    keepIds prm P T (seqIndex pseq) p (seqIndex tseq) u pid tid
      = some (keepTokenEdges prm (seqIndex pseq) p i (seqIndex tseq) u j n m) := by
  by_cases hc : ∃ x mt y mt', n = some (.tok x mt) ∧ m = some (.tok y mt')
  · obtain ⟨x, mt, y, mt', rfl, rfl⟩ := hc
    obtain ⟨⟨a1, -, a3, a4⟩, -⟩ := hn
    obtain ⟨⟨b1, -, b3, b4⟩, -⟩ := hm
    simp only [keepIds, a1, a3, a4, b1, b3, b4, nodeIndex, Int.toNat_natCast, keepTokenEdges,
      and_self, if_true]
    split_ifs <;> rfl
  · have h1 : ¬ (tid.cat = .tok ∧ pid.cat = .tok) := by
      rintro ⟨h1, h2⟩
      rw [placedO_cat hm] at h1
      rw [placedO_cat hn] at h2
      match n, m, h1, h2 with
      | some (.tok x mt), some (.tok y mt'), _, _ => exact hc ⟨x, mt, y, mt', rfl, rfl⟩
    rw [keepIds, if_neg h1]
    match n, m, hc with
    | some (.tok x mt), some (.tok y mt'), hc => exact absurd ⟨x, mt, y, mt', rfl, rfl⟩ hc
    | none, _, _ => rfl
    | some (.tok _ _), none, _ => rfl
    | some (.tok _ _), some (.deco _), _ => rfl
    | some (.tok _ _), some (.group _ _), _ => rfl
    | some (.tok _ _), some .rstart, _ => rfl
    | some (.tok _ _), some .rend, _ => rfl
    | some (.tok _ _), some .exit, _ => rfl
    | some (.deco _), _, _ => rfl
    | some (.group _ _), _, _ => rfl
    | some .rstart, _, _ => rfl
    | some .rend, _, _ => rfl
    | some .exit, _, _ => rfl

/-- One pair of positions, given that the recursive call does what it should. -/
theorem cell_placed [DecidableEq M] (prm : Params) {P T : Storage M}
    (recurse : Int → List NodeId → Int → List NodeId → Option (List EditEdge)) {pseq tseq : Int}
    {p i u j : Nat} {pid tid : NodeId} {n m : Option (Node M)} (inner : List EditEdge)
    (hn : PlacedO P pseq p i pid n) (hm : PlacedO T tseq u j tid m)
    (hrec : ∀ cs mt cs' mt' ids ids', n = some (.group cs mt) → m = some (.group cs' mt') →
      PlacedL P i 0 (i + 1) ids cs → PlacedL T j 0 (j + 1) ids' cs' →
      recurse i ids j ids' = some inner) :
    cellIds prm P T recurse pseq tseq (pid, p) (tid, u)
      = some (cellEdges prm (seqIndex pseq) p i (seqIndex tseq) u j n m inner) := by
  simp only [cellIds, editIds, delete_placedO prm _ _ _ _ hn, insert_placedO prm _ _ _ _ hm,
    keep_placedO prm hn hm, cellEdges]
  by_cases hc : ∃ cs mt cs' mt', n = some (.group cs mt) ∧ m = some (.group cs' mt')
  · obtain ⟨cs, mt, cs', mt', rfl, rfl⟩ := hc
    obtain ⟨⟨a1, -, a3, ids, a4, a5⟩, -⟩ := hn
    obtain ⟨⟨b1, -, b3, ids', b4, b5⟩, -⟩ := hm
    have := hrec cs mt cs' mt' ids ids' rfl rfl a5 b5
    simp only [a1, a3, a4, b1, b3, b4, and_self, if_true, this, matchGroupEdges, nodeIndex,
      Int.toNat_natCast, seqIndex_ofNat, placedL_length a5, placedL_length b5]
    split_ifs
    · rfl
    · rw [List.append_nil]; rfl
  · have h1 : ¬ (pid.cat = .group ∧ tid.cat = .group) := by
      rintro ⟨h1, h2⟩
      rw [placedO_cat hn] at h1
      rw [placedO_cat hm] at h2
      match n, m, h1, h2 with
      | some (.group x mt), some (.group y mt'), _, _ => exact hc ⟨x, mt, y, mt', rfl, rfl⟩
    rw [if_neg h1]
    have h2 : matchGroupEdges (seqIndex pseq) p i (seqIndex tseq) u j inner n m = [] := by
      match n, m, hc with
      | some (.group x mt), some (.group y mt'), hc => exact absurd ⟨x, mt, y, mt', rfl, rfl⟩ hc
      | none, _, _ => rfl
      | some (.group _ _), none, _ => rfl
      | some (.group _ _), some (.deco _), _ => rfl
      | some (.group _ _), some (.tok _ _), _ => rfl
      | some (.group _ _), some .rstart, _ => rfl
      | some (.group _ _), some .rend, _ => rfl
      | some (.group _ _), some .exit, _ => rfl
      | some (.deco _), _, _ => rfl
      | some (.tok _ _), _, _ => rfl
      | some .rstart, _, _ => rfl
      | some .rend, _, _ => rfl
      | some .exit, _, _ => rfl
    rw [h2, List.append_nil]
    rfl

theorem nestingN_le_nesting {n : Node M} : ∀ {ns : List (Node M)}, n ∈ ns → nestingN n ≤ nesting ns
  | m :: ms, h => by
    rw [nesting]
    rcases List.mem_cons.1 h with rfl | h
    · omega
    · have := nestingN_le_nesting h
      omega

/-- The rows of the table of `build_matching_subproblem`. -/
theorem match_placed [DecidableEq M] (prm : Params) (P T : Storage M) :
    (∀ n : Node M, ∀ cs mt, n = .group cs mt →
      ∀ (f : Nat) (pseq tseq : Int) (p i j : Nat) (target : List (Node M)) (pids tids : List NodeId),
      nesting cs ≤ f → nesting cs ≤ P.preorder.length → nesting target ≤ T.preorder.length →
      PlacedL P pseq p i pids cs → PlacedL T tseq 0 j tids target →
      overAll (fun x => overAll (cellIds prm P T (matchIds prm P T f) pseq tseq x)
          (tids ++ [invalidId]).zipIdx) ((pids ++ [invalidId]).zipIdx p)
        = some (matchEdges prm (seqIndex pseq) p i (seqIndex tseq) j target cs)) ∧
    (∀ (ns : List (Node M)) (f : Nat) (pseq tseq : Int) (p i j : Nat) (target : List (Node M))
      (pids tids : List NodeId),
      nesting ns ≤ f → nesting ns ≤ P.preorder.length → nesting target ≤ T.preorder.length →
      PlacedL P pseq p i pids ns → PlacedL T tseq 0 j tids target →
      overAll (fun x => overAll (cellIds prm P T (matchIds prm P T f) pseq tseq x)
          (tids ++ [invalidId]).zipIdx) ((pids ++ [invalidId]).zipIdx p)
        = some (matchEdges prm (seqIndex pseq) p i (seqIndex tseq) j target ns)) := by
  apply Node.induct
  case hg =>
    intro cs mt ih cs' mt' he
    cases he
    exact ih
  case hnil =>
    intro f pseq tseq p i j target pids tids _ _ ht hp htp
    rw [PlacedL] at hp
    subst hp
    have row := over_target (cellIds prm P T (matchIds prm P T f) pseq tseq (invalidId, p))
      (fun u j' m => cellEdges prm (seqIndex pseq) p i (seqIndex tseq) u j' none m [])
      (fun u j' => cell_placed prm _ [] (n := none) (m := none) rfl rfl (by simp))
      target 0 j tids htp
      (fun m hm u j' id hid => cell_placed prm _ [] (n := none) (m := some m) rfl
        ⟨hid, (nestingN_le_nesting hm).trans ht⟩ (by simp))
    have := overAll_cons (f := fun x => overAll (cellIds prm P T (matchIds prm P T f) pseq tseq x)
      (tids ++ [invalidId]).zipIdx) (a := (invalidId, p)) row (overAll_nil _)
    rw [List.append_nil] at this
    rw [matchEdges]
    exact this
  case hcons =>
    intro n ns h1 h2 f pseq tseq p i j target pids tids hf hP ht hp htp
    obtain ⟨id, rest, rfl, hn, hr⟩ := hp
    rw [nesting] at hf hP
    rw [matchEdges, List.cons_append, List.zipIdx_cons]
    refine overAll_cons ?_ (h2 f pseq tseq (p + 1) _ j target rest tids (by omega) (by omega) ht hr htp)
    refine over_target _ _ (fun u j' => ?_) target 0 j tids htp (fun m hm u j' id' hid => ?_)
    · exact cell_placed prm _ _ (n := some n) (m := none) ⟨hn, by omega⟩ rfl (by simp)
    · refine cell_placed prm _ _ (n := some n) (m := some m) ⟨hn, by omega⟩
        ⟨hid, (nestingN_le_nesting hm).trans ht⟩ ?_
      intro cs mt cs' mt' ids ids' en em pc tc
      cases en
      cases em
      have hm' := (nestingN_le_nesting hm).trans ht
      rw [nestingN] at hf hP hm'
      cases f with
      | zero => omega
      | succ f =>
        have := h1 cs mt rfl f i j' 0 (i + 1) (j' + 1) cs' ids ids' (by omega) (by omega)
          (by omega) pc tc
        rw [seqIndex_ofNat, seqIndex_ofNat] at this
        exact this
  all_goals intros
  all_goals simp_all

end RUSure.Lemmas
