import Verif.Lemmas.Pack
import Verif.Spec.Selection

/-!
# The items of packed trees
-/

namespace RUSure.Lemmas
open RUSure RUSure.Spec
variable {M : Type}

theorem items_cons (i : Nat) (n : Node M) (ns : List (Node M)) :
    items i (n :: ns) = items i [n] ++ items (i + nodeSize n) ns := by
  cases n <;> simp [items, nodeSize, Nat.add_assoc]

theorem delta_size :
    (∀ (n : Node M) (z : Sizes) (path : List Nat) (pos : PosInParent) (lev : Nat),
      (dNode z path pos lev n).1.entries.length = nodeSize n) ∧
    (∀ (l : List (Node M)) (z : Sizes) (path : List Nat) (parent : Int) (i lev : Nat),
      (dList z path parent i lev l).1.entries.length = seqSize l) := by
  apply Node.induct
  case hg => intro cs mt ih z path pos lev; simp [dNode, ih, nodeSize]; omega
  case hcons => intro n ns h1 h2 z path parent i lev; simp [dList, Delta.append, h1, h2, seqSize]
  all_goals intros
  all_goals simp [dNode, dList, Delta.zero, nodeSize, seqSize]

/-- The traversal of a storage, with what is looked up. -/
def readItems (S : Storage M) (fuel : Nat) (ids : List NodeId) : Option (List (SelItem M)) :=
  ((mapOpt (S.travId true fuel) ids).map List.flatten).bind (mapOpt (selItem S))

theorem readItems_cons {S : Storage M} {fuel : Nat} {id : NodeId} {ids : List NodeId}
    {a b : List (SelItem M)} (h1 : (S.travId true fuel id).bind (mapOpt (selItem S)) = some a)
    (h2 : readItems S fuel ids = some b) : readItems S fuel (id :: ids) = some (a ++ b) := by
  unfold readItems at *
  simp only [mapOpt]
  cases ha : S.travId true fuel id with
  | none => rw [ha] at h1; cases h1
  | some x =>
    rw [ha] at h1
    cases hb : mapOpt (S.travId true fuel) ids with
    | none => rw [hb] at h2; cases h2
    | some y =>
      rw [hb] at h2
      simp only [Option.map_some, Option.bind_some, List.flatten_cons, mapOpt_append] at h1 h2 ⊢
      rw [h1, h2]
      rfl

theorem readItems_delta (S : Storage M) :
    (∀ (n : Node M) (z : Sizes) (path : List Nat) (pos : PosInParent) (lev fuel : Nat),
      Contains S z (dNode z path pos lev n).1 → nestingN n < fuel →
      (S.travId true fuel (dNode z path pos lev n).2).bind (mapOpt (selItem S))
        = some (items z.p [n])) ∧
    (∀ (l : List (Node M)) (z : Sizes) (path : List Nat) (parent : Int) (i lev fuel : Nat),
      Contains S z (dList z path parent i lev l).1 → nesting l < fuel →
      readItems S fuel (dList z path parent i lev l).2 = some (items z.p l)) := by
  apply Node.induct
  case hg =>
    intro cs mt ih z path pos lev fuel hc hf
    have hsub : Contains S ⟨z.p + 1, z.d, z.t, z.g + 1⟩
        (dList ⟨z.p + 1, z.d, z.t, z.g + 1⟩ path z.p 0 (lev + 1) cs).1 := by
      obtain ⟨h1, h2, h3⟩ := hc
      simp only [dNode] at h1 h2 h3
      refine ⟨h1, h2, fun i x hx => ?_⟩
      have := h3 (i + 1) x (by simpa using hx)
      simpa [Nat.add_assoc, Nat.add_comm 1] using this
    have hg0 := hc.2.2 0
    simp only [dNode] at hg0
    have hg1 := hg0 _ rfl
    rw [Nat.add_zero, ← pyGet_ofNat] at hg1
    cases fuel with
    | zero => omega
    | succ fuel =>
      simp only [nestingN] at hf
      have := ih _ path z.p 0 (lev + 1) fuel hsub (by omega)
      unfold readItems at this
      simp only [dNode, Storage.travId, hg1]
      cases hm : mapOpt (S.travId true fuel)
          (dList ⟨z.p + 1, z.d, z.t, z.g + 1⟩ path z.p 0 (lev + 1) cs).2 with
      | none => rw [hm] at this; cases this
      | some ts =>
        rw [hm] at this
        simp only [Option.map_some, Option.bind_some] at this ⊢
        simp only [mapOpt_append, this, mapOpt, selItem, hg1, Option.map_some, Option.bind_some,
          Int.toNat_natCast, items]
        simp
  case hcons =>
    intro n ns h1 h2 z path parent i lev fuel hc hf
    obtain ⟨ca, cb⟩ := contains_append hc
    simp only [nesting] at hf
    have a := h1 _ _ _ _ fuel ca (by omega)
    have b := h2 _ _ _ _ _ fuel cb (by omega)
    rw [items_cons]
    have hz : (z.add (dNode z (path ++ [i]) ⟨parent, i⟩ lev n).1).p = z.p + nodeSize n := by
      simp only [Sizes.add, delta_size.1]
    rw [hz] at b
    exact readItems_cons a b
  case hnil => intros; rw [items]; rfl
  case hdeco =>
    intro t z path pos lev fuel hc hf
    cases fuel with
    | zero => omega
    | succ fuel => simp [dNode, Storage.travId, mapOpt, items]
  case htok =>
    intro t mt z path pos lev fuel hc hf
    have := hc.2.1 0 (t, mt) (by simp [dNode])
    rw [Nat.add_zero, ← pyGet_ofNat] at this
    cases fuel with
    | zero => omega
    | succ fuel => simp [dNode, Storage.travId, mapOpt, items, selItem, this]
  all_goals
    intro z path pos lev fuel hc hf
    cases fuel with
    | zero => omega
    | succ fuel => simp [dNode, Storage.travId, mapOpt, items, selItem]

/-- The traversal of a packed tree reads its items. -/
theorem selItems_pack (l : List (Node M)) : selItems (pack l) = some (items 0 l) := by
  have h := (readItems_delta (pack l)).2 l ⟨0, 0, 0, 0⟩ [] (-1) 0 0 _ (contains_pack l)
    (nesting_lt_fuel l)
  have hr : (pack l).root = (dList (⟨0, 0, 0, 0⟩ : Sizes) [] (-1) 0 0 l).2 := by rw [pack_eq]; rfl
  rw [← hr] at h
  unfold readItems at h
  rw [selItems, Storage.inOrderTraversal]
  cases hm : (mapOpt ((pack l).travId true ((pack l).preorder.length + 1)) (pack l).root).map
      List.flatten with
  | none => rw [hm] at h; cases h
  | some x => rw [hm] at h; exact h

end RUSure.Lemmas
