import Verif.Lemmas.Pack
import Verif.Lemmas.ConstraintFlat

/-!
# Ids of packed nodes with their preorder indices
-/

namespace RUSure.Lemmas
open RUSure RUSure.Spec
variable {M : Type}

mutual
/-- The storage holds the node at the id, with preorder index `i`, and so on below. -/
def LocatedN (S : Storage M) (i : Nat) (id : NodeId) : Node M → Prop
  | .deco t => id.preorder = i ∧ id.cat = .deco ∧ pyGet S.decos id.idx = some t
  | .tok t mt => id.preorder = i ∧ id.cat = .tok ∧ pyGet S.toks id.idx = some (t, mt)
  | .rstart => id.preorder = i ∧ id.cat = .rstart
  | .rend => id.preorder = i ∧ id.cat = .rend
  | .exit => id.preorder = i ∧ id.cat = .exit
  | .group cs mt => id.preorder = i ∧ id.cat = .group
      ∧ ∃ ids, pyGet S.groups id.idx = some ⟨ids, mt⟩ ∧ LocatedL S (i + 1) ids cs
/-- The same for siblings. -/
def LocatedL (S : Storage M) (i : Nat) : List NodeId → List (Node M) → Prop
  | ids, [] => ids = []
  | ids, n :: ns => ∃ id rest, ids = id :: rest ∧ LocatedN S i id n ∧ LocatedL S (i + nodeSize n) rest ns
end

theorem delta_size :
    (∀ (n : Node M) (z : Sizes) (path : List Nat) (pos : PosInParent) (lev : Nat),
      (dNode z path pos lev n).1.entries.length = nodeSize n) ∧
    (∀ (l : List (Node M)) (z : Sizes) (path : List Nat) (parent : Int) (i lev : Nat),
      (dList z path parent i lev l).1.entries.length = seqSize l) := by
  apply Node.induct
  case hg =>
    intro cs mt ih z path pos lev
    simp only [dNode, List.length_cons, ih, nodeSize, Nat.add_comm]
  case hcons =>
    intro n ns h1 h2 z path parent i lev
    simp only [dList, Delta.append, List.length_append, h1, h2, seqSize]
  all_goals intros
  all_goals simp [dNode, dList, Delta.zero, nodeSize, seqSize]

theorem delta_located (S : Storage M) :
    (∀ (n : Node M) (z : Sizes) (path : List Nat) (pos : PosInParent) (lev : Nat),
      Contains S z (dNode z path pos lev n).1 → LocatedN S z.p (dNode z path pos lev n).2 n) ∧
    (∀ (l : List (Node M)) (z : Sizes) (path : List Nat) (parent : Int) (i lev : Nat),
      Contains S z (dList z path parent i lev l).1 → LocatedL S z.p (dList z path parent i lev l).2 l) := by
  apply Node.induct
  case hg =>
    intro cs mt ih z path pos lev hc
    have hsub : Contains S ⟨z.p + 1, z.d, z.t, z.g + 1⟩
        (dList ⟨z.p + 1, z.d, z.t, z.g + 1⟩ path z.p 0 (lev + 1) cs).1 := by
      obtain ⟨h1, h2, h3⟩ := hc
      simp only [dNode] at h1 h2 h3
      refine ⟨h1, h2, fun i x hx => ?_⟩
      have := h3 (i + 1) x (by simpa using hx)
      simpa [Nat.add_assoc, Nat.add_comm 1] using this
    have hg0 := hc.2.2 0
    simp only [dNode] at hg0
    simp only [dNode, LocatedN]
    refine ⟨trivial, trivial, _, ?_, ih _ _ _ _ _ hsub⟩
    rw [pyGet_ofNat]
    exact hg0 _ (by simp)
  case hcons =>
    intro n ns h1 h2 z path parent i lev hc
    obtain ⟨ca, cb⟩ := contains_append hc
    have a := h1 _ _ _ _ ca
    have b := h2 _ _ _ _ _ cb
    simp only [dList, LocatedL]
    refine ⟨_, _, rfl, a, ?_⟩
    simpa [Sizes.add, delta_size.1] using b
  case hnil => intros; simp [dList, LocatedL]
  case hdeco =>
    intro t z path pos lev hc
    have := hc.1 0 t (by simp [dNode])
    simpa [dNode, LocatedN, pyGet_ofNat] using this
  case htok =>
    intro t mt z path pos lev hc
    have := hc.2.1 0 (t, mt) (by simp [dNode])
    simpa [dNode, LocatedN, pyGet_ofNat] using this
  all_goals intros
  all_goals simp [dNode, LocatedN]

theorem located_pack (l : List (Node M)) : LocatedL (pack l) 0 (pack l).root l := by
  have := (delta_located (pack l)).2 l ⟨0, 0, 0, 0⟩ [] (-1) 0 0 (contains_pack l)
  rw [show (pack l).root = (rootDelta l).2 by rw [pack_eq]]
  exact this

theorem locatedL_append {S : Storage M} {ms ns : List (Node M)} : ∀ {i : Nat} {ids : List NodeId},
    LocatedL S i ids (ms ++ ns) → ∃ a b, ids = a ++ b ∧ LocatedL S i a ms ∧ LocatedL S (i + seqSize ms) b ns := by
  induction ms with
  | nil => intro i ids h; exact ⟨[], ids, rfl, rfl, by simpa [seqSize] using h⟩
  | cons m ms ih =>
    intro i ids h
    obtain ⟨id, rest, rfl, h1, h2⟩ := h
    obtain ⟨a, b, rfl, h3, h4⟩ := ih h2
    exact ⟨id :: a, b, rfl, ⟨id, a, rfl, h1, h3⟩, by simpa [seqSize, Nat.add_assoc] using h4⟩

theorem locatedL_length {S : Storage M} : ∀ {ns : List (Node M)} {i : Nat} {ids : List NodeId},
    LocatedL S i ids ns → ids.length = ns.length
  | [], _, _, h => by rw [LocatedL] at h; rw [h]; rfl
  | n :: ns, i, ids, h => by
    obtain ⟨id, rest, rfl, -, h2⟩ := h
    simp [locatedL_length h2]

theorem pl_range (pp : List Nat) (c i : Nat) (ns : List (Node M)) : ∀ x ∈ pl pp c i ns,
    i ≤ x.idx ∧ x.idx < i + seqSize ns := by
  intro x hx
  unfold pl at hx
  rw [List.mem_map] at hx
  obtain ⟨y, hy, rfl⟩ := hx
  have := List.mem_zipIdx hy
  rw [walkFrom_length] at this
  exact ⟨this.1, this.2.1⟩

/-- The nodes are not groups. -/
def Flat (ns : List (Node M)) : Prop := ∀ n ∈ ns, ∀ cs mt, n ≠ .group cs mt

theorem flat_size : ∀ {ns : List (Node M)}, Flat ns → seqSize ns = ns.length
  | [], _ => rfl
  | n :: ns, h => by
    rw [seqSize, flat_size fun m hm => h m (by simp [hm]), List.length_cons]
    have := h n (by simp)
    cases n with
    | group cs mt => exact absurd rfl (this cs mt)
    | _ => simp [nodeSize, Nat.add_comm]

/-- The text of a node itself. -/
def ownText : Node M → Option Text
  | .deco t => some t
  | .tok t _ => some t
  | _ => none

theorem flat_texts : ∀ {ns : List (Node M)} (_ : Flat ns) (pp : List Nat) (c i : Nat),
    (pl pp c i ns).filterMap Placed.text = ns.filterMap ownText
  | [], _, _, _, _ => rfl
  | n :: ns, h, pp, c, i => by
    have hb : below (pp ++ [c]) (i + 1) n = [] := by
      have := h n (by simp)
      cases n with
      | group cs mt => exact absurd rfl (this cs mt)
      | _ => rfl
    rw [pl_cons, hb, List.nil_append, List.filterMap_cons, List.filterMap_cons,
      flat_texts fun m hm => h m (by simp [hm])]
    cases n <;> rfl

end RUSure.Lemmas
