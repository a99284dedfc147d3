import Verif.Lemmas.StackGroups

/-!
# Unsplittable brackets stay whole
-/

namespace RUSure.Lemmas
open RUSure RUSure.Spec

variable {T : Type} [DecidableEq T] (tokens splitters : List T) (un : List (T × T))

/-- A node with unsplittable brackets is left alone. -/
theorem splitWith_whole (hu : ∀ p ∈ un, ∀ q ∈ un, p.1 = q.1 → p = q) {lo hi ann cs} {n' : PNode}
    (h : (PNode.mk lo hi ann cs).splitWith tokens splitters un = .ok n') (hb : HasBrackets un tokens n') :
    n' = .mk lo hi ann cs := by
  have hput : ∀ {i : Nat} {t : T}, tokens[i]? = some t → tokenAt tokens i = .ok t := by
    intro i t h
    unfold tokenAt
    rw [h]
  have hsame := splitWith_same tokens splitters un _ _ h
  have ha : ann = .paired := by
    have := hsame.ann
    rw [hb.1] at this
    exact this.symm
  subst ha
  unfold PNode.splitWith at h
  rw [if_pos rfl] at h
  obtain ⟨u, hu', h⟩ := except_bind_ok h
  cases u with
  | true =>
    cases h
    rfl
  | false =>
    obtain ⟨marks, h1, h⟩ := except_bind_ok h
    obtain ⟨cs', h2, h⟩ := except_bind_ok h
    cases h
    exfalso
    have hr : regroup .paired marks cs' = cs' := by
      unfold regroup
      rw [if_neg (by simp)]
    obtain ⟨-, a', m', b', e, l, r, e1, e2, e3, e4, e5⟩ := hb
    rw [hr] at e1
    obtain rfl : cs' = [a', m', b'] := e1
    have hs := splitList_shape tokens splitters un _ _ h2
    obtain ⟨a, cs1, s1, hs1, rfl⟩ := List.forall₂_cons_right_iff.mp hs
    obtain ⟨m, cs2, s2, hs2, rfl⟩ := List.forall₂_cons_right_iff.mp hs1
    obtain ⟨b, cs3, s3, hs3, rfl⟩ := List.forall₂_cons_right_iff.mp hs2
    cases hs3
    have hl := hput e2
    rw [s1.lo] at hl
    have hr' : tokenBefore tokens b.hi = .ok r := by
      rw [← s3.hi, e3]
      exact hput e4
    unfold unsplittable at hu'
    dsimp only at hu'
    rw [hl] at hu'
    obtain ⟨p, hp⟩ : ∃ p, (un.find? fun p => p.1 == l) = some p := by
      cases hf : un.find? fun p => p.1 == l with
      | some p => exact ⟨p, rfl⟩
      | none =>
        have := List.find?_eq_none.mp hf _ e5
        simp at this
    have h3 : p.1 = l := by simpa using List.find?_some hp
    have h4 := hu _ (List.mem_of_find?_eq_some hp) _ e5 h3
    subst h4
    have hu'' : (match un.find? fun p => p.1 == l with
        | none => (pure false : Except ParseFail Bool)
        | some p => do
          let r ← tokenBefore tokens b.hi
          return r == p.2) = .ok false := hu'
    rw [hp] at hu''
    dsimp only at hu''
    rw [hr'] at hu''
    have := Except.ok.inj (show (Except.ok (r == r) : Except ParseFail Bool) = .ok false from hu'')
    simp at this

theorem inTree_sub : ∀ {x y n : PNode}, InTree y x → InTree x n → InTree y n := by
  have key : ∀ {x y : PNode}, InTree y x → (∀ n, InTree x n → InTree y n) ∧ ∀ ns, InTrees x ns → InTrees y ns := by
    intro x y hy
    constructor
    · intro n hn
      exact InTree.rec (motive_1 := fun m _ => InTree y m) (motive_2 := fun ms _ => InTrees y ms)
        hy (fun _ h => .child h) (fun _ h => .here h) (fun _ h => .there h) hn
    · intro ns hn
      exact InTrees.rec (motive_1 := fun m _ => InTree y m) (motive_2 := fun ms _ => InTrees y ms)
        hy (fun _ h => .child h) (fun _ h => .here h) (fun _ h => .there h) hn
  intro x y n h1 h2
  exact (key h1).1 n h2

mutual
theorem splitWith_closed (hu : ∀ p ∈ un, ∀ q ∈ un, p.1 = q.1 → p = q) (N : Nat) : ∀ (n n' : PNode),
    n.splitWith tokens splitters un = .ok n' →
    (∀ x, InTree x n → LookupOk N x) → (∀ x, InTree x n → x.ann ≠ .split) →
    ∀ x, InTree x n' → HasBrackets un tokens x → ∀ y, InTree y x → y.ann ≠ .split
  | .mk lo hi ann cs, n', h, hp, hn, x, hx, hb, y, hy => by
    have ih := splitList_closed hu N cs
    rcases splitWith_cases tokens splitters un h (hp _ .self) with ⟨rfl, -⟩ | ⟨marks, cs', h1, h2, rfl⟩
    · exact hn y (inTree_sub hy hx)
    · have ih := ih cs' h2 (fun y hy => hp y (.child hy)) fun y hy => hn y (.child hy)
      rcases inTree_mk.mp hx with rfl | hx'
      · have := splitWith_whole tokens splitters un hu h hb
        rw [this] at hy
        exact hn y hy
      · rcases regroup_cases (ann := ann) (splitList_shape tokens splitters un _ _ h2) h1 with
          ⟨h3, -⟩ | ⟨gs, h3, h4, -, -⟩
        · rw [h3] at hx'
          exact ih x hx' hb y hy
        · rw [h3] at hx'
          obtain ⟨c, hc, hx'⟩ := inTrees_iff.mp hx'
          obtain ⟨g, hg, rfl⟩ := List.mem_map.mp hc
          unfold splitNode at hx'
          rcases inTree_mk.mp hx' with rfl | hx'
          · exact absurd hb.1 (by simp [PNode.ann])
          · exact ih x (by rw [← h4]; exact inTrees_flatten.mpr ⟨g, hg, hx'⟩) hb y hy

theorem splitList_closed (hu : ∀ p ∈ un, ∀ q ∈ un, p.1 = q.1 → p = q) (N : Nat) : ∀ (cs cs' : List PNode),
    PNode.splitList tokens splitters un cs = .ok cs' → LookupsOk N cs →
    (∀ x, InTrees x cs → x.ann ≠ .split) →
    ∀ x, InTrees x cs' → HasBrackets un tokens x → ∀ y, InTree y x → y.ann ≠ .split
  | [], cs', h, hp, hn, x, hx, _, _, _ => by
    unfold PNode.splitList at h
    cases h
    cases hx
  | c :: cs, cs', h, hp, hn, x, hx, hb, y, hy => by
    have ih := splitWith_closed hu N c
    have ih' := splitList_closed hu N cs
    rw [LookupsOk.cons] at hp
    have hn2 : ∀ y, InTrees y cs → y.ann ≠ .split := fun y hy => hn y (.there hy)
    unfold PNode.splitList at h
    obtain ⟨k, -, h⟩ := except_bind_ok h
    dsimp only at h
    split at h
    · obtain ⟨c', h1, h⟩ := except_bind_ok h
      obtain ⟨cs2, h2, h⟩ := except_bind_ok h
      cases h
      rcases inTrees_cons.mp hx with hx' | hx'
      · exact ih c' h1 hp.1 (fun z hz => hn z (.here hz)) x hx' hb y hy
      · exact ih' cs2 h2 hp.2 hn2 x hx' hb y hy
    · obtain ⟨c', h1, h⟩ := except_bind_ok h
      obtain ⟨cs2, h2, h⟩ := except_bind_ok h
      cases h
      cases h1
      rcases inTrees_cons.mp hx with hx' | hx'
      · exact hn y (.here (inTree_sub hy hx'))
      · exact ih' cs2 h2 hp.2 hn2 x hx' hb y hy
end

mutual
theorem unsplit_plain : ∀ n : PNode, (∀ x, InTree x n → x.ann ≠ .split) → unsplitNode n = [n]
  | .mk lo hi ann cs, h => by
    have ih := unsplits_plain cs fun x hx => h x (.child hx)
    have ha : ann ≠ .split := h _ .self
    rw [unsplitNode.eq_2 _ _ _ _ ha, ih]

theorem unsplits_plain : ∀ cs : List PNode, (∀ x, InTrees x cs → x.ann ≠ .split) → unsplitNodes cs = cs
  | [], _ => by rw [unsplitNodes]
  | c :: cs, h => by
    rw [unsplitNodes, unsplit_plain c fun x hx => h x (.here hx), unsplits_plain cs fun x hx => h x (.there hx)]
    rfl
end

end RUSure.Lemmas
