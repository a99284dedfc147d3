import Verif.Lemmas.StackWhole

/-!
# Tokens are leaves
-/

namespace RUSure.Lemmas
open RUSure RUSure.Spec

/-- Nodes for tokens outside of brackets have no children, and groups have some. -/
def FlatTok (x : PNode) : Prop := (x.ann = .sibling → x.children = []) ∧ (x.ann = .split → x.children ≠ [])

theorem forest_flat {T : Type} {pairs : List (T × T)} {ctx : Option T} {i : Nat} {ts : List T} {ns : List PNode}
    (h : Forest pairs ctx i ts ns) : ∀ x, InTrees x ns → FlatTok x := by
  have leaf : ∀ i h a, a ≠ .split → ∀ x, InTree x (.mk i h a []) → FlatTok x := by
    intro i h a ha x hx
    rcases inTree_mk.mp hx with rfl | hx
    · exact ⟨fun _ => rfl, fun h => absurd h ha⟩
    · cases hx
  induction h with
  | nil => intro x hx; cases hx
  | plain _ _ ih =>
    intro x hx
    rcases inTrees_cons.mp hx with hx | hx
    · exact leaf _ _ _ (by simp) x hx
    · exact ih x hx
  | stray _ _ _ ih =>
    intro x hx
    rcases inTrees_cons.mp hx with hx | hx
    · exact leaf _ _ _ (by simp) x hx
    · exact ih x hx
  | bracket _ _ _ _ ih1 ih2 =>
    intro x hx
    rcases inTrees_cons.mp hx with hx | hx
    · rcases inTree_mk.mp hx with rfl | hx
      · exact ⟨fun h => by simp [PNode.ann] at h, fun h => by simp [PNode.ann] at h⟩
      · rcases inTrees_cons.mp hx with hx | hx
        · exact leaf _ _ _ (by simp) x hx
        · rcases inTrees_cons.mp hx with hx | hx
          · rcases inTree_mk.mp hx with rfl | hx
            · exact ⟨fun h => by simp [PNode.ann] at h, fun h => by simp [PNode.ann] at h⟩
            · exact ih1 x hx
          · rcases inTrees_cons.mp hx with hx | hx
            · exact leaf _ _ _ (by simp) x hx
            · cases hx
    · exact ih2 x hx

section
variable {T : Type} [DecidableEq T] (tokens splitters : List T) (un : List (T × T))

mutual
theorem splitWith_flat (N : Nat) : ∀ (n n' : PNode), n.splitWith tokens splitters un = .ok n' →
    (∀ x, InTree x n → LookupOk N x) → (∀ x, InTree x n → FlatTok x) → ∀ x, InTree x n' → FlatTok x
  | .mk lo hi ann cs, n', h, hp, hn, x, hx => by
    have ih := splitList_flat N cs
    rcases splitWith_cases tokens splitters un h (hp _ .self) with ⟨rfl, -⟩ | ⟨marks, cs', h1, h2, rfl⟩
    · exact hn x hx
    · have ih := ih cs' h2 (fun y hy => hp y (.child hy)) fun y hy => hn y (.child hy)
      rcases inTree_mk.mp hx with rfl | hx'
      · have hsh := splitList_shape tokens splitters un _ _ h2
        constructor
        · intro ha
          have h0 : cs = [] := (hn _ .self).1 ha
          subst h0
          cases hsh
          rw [List.mapM_nil] at h1
          cases h1
          simp [regroup, PNode.children]
        · intro ha
          have h0 : cs ≠ [] := (hn _ .self).2 ha
          have h0' : cs' ≠ [] := by
            rintro rfl
            cases hsh
            exact h0 rfl
          show regroup ann marks cs' ≠ []
          rcases regroup_cases (ann := ann) hsh h1 with ⟨h3, -⟩ | ⟨gs, h3, h4, -, -⟩
          · rw [h3]
            exact h0'
          · rw [h3]
            intro hg
            rw [List.map_eq_nil_iff] at hg
            subst hg
            exact h0' h4.symm
      · rcases regroup_cases (ann := ann) (splitList_shape tokens splitters un _ _ h2) h1 with
          ⟨h3, -⟩ | ⟨gs, h3, h4, h5, -⟩
        · rw [h3] at hx'
          exact ih x hx'
        · rw [h3] at hx'
          obtain ⟨c, hc, hx'⟩ := inTrees_iff.mp hx'
          obtain ⟨g, hg, rfl⟩ := List.mem_map.mp hc
          unfold splitNode at hx'
          rcases inTree_mk.mp hx' with rfl | hx'
          · exact ⟨fun ha => by simp [PNode.ann] at ha, fun _ => (h5 g hg).1⟩
          · exact ih x (by rw [← h4]; exact inTrees_flatten.mpr ⟨g, hg, hx'⟩)

theorem splitList_flat (N : Nat) : ∀ (cs cs' : List PNode),
    PNode.splitList tokens splitters un cs = .ok cs' → LookupsOk N cs →
    (∀ x, InTrees x cs → FlatTok x) → ∀ x, InTrees x cs' → FlatTok x
  | [], cs', h, hp, hn, x, hx => by
    unfold PNode.splitList at h
    cases h
    cases hx
  | c :: cs, cs', h, hp, hn, x, hx => by
    have ih := splitWith_flat N c
    have ih' := splitList_flat N cs
    rw [LookupsOk.cons] at hp
    have hn2 : ∀ y, InTrees y cs → FlatTok y := fun y hy => hn y (.there hy)
    unfold PNode.splitList at h
    obtain ⟨k, -, h⟩ := except_bind_ok h
    dsimp only at h
    split at h
    · obtain ⟨c', h1, h⟩ := except_bind_ok h
      obtain ⟨cs2, h2, h⟩ := except_bind_ok h
      cases h
      rcases inTrees_cons.mp hx with hx' | hx'
      · exact ih c' h1 hp.1 (fun z hz => hn z (.here hz)) x hx'
      · exact ih' cs2 h2 hp.2 hn2 x hx'
    · obtain ⟨c', h1, h⟩ := except_bind_ok h
      obtain ⟨cs2, h2, h⟩ := except_bind_ok h
      cases h
      cases h1
      rcases inTrees_cons.mp hx with hx' | hx'
      · exact hn x (.here hx')
      · exact ih' cs2 h2 hp.2 hn2 x hx'
end

end

section
variable {T : Type} {tokens : List T} {sub : T × T}

theorem nested_ann {n n' : PNode} (h : Nested tokens sub n n') : n'.ann = n.ann := by
  cases h
  rfl

theorem joined_flat {cs cs' r : List PNode} (h : Joined tokens sub cs cs' r) (hl : NestedList tokens sub cs cs') :
    (∀ x, InTrees x cs' → FlatTok x) → ∀ x, InTrees x r → FlatTok x := by
  induction h with
  | nil => exact id
  | single => exact id
  | @move p c p' c' cs cs' r hm _ ih =>
    intro hn x hx
    cases hl with
    | cons hp hl =>
    cases hl with
    | cons hc hl =>
    rcases inTrees_cons.mp hx with hx | hx
    · rcases inTree_mk.mp hx with rfl | hx
      · exact ⟨fun ha => by simp [PNode.ann] at ha, fun _ => by simp [PNode.children]⟩
      · rcases inTrees_cons.mp hx with hx | hx
        · rcases inTree_mk.mp hx with rfl | hx
          · exact ⟨fun ha => by simp [PNode.ann] at ha,
              fun _ => (hn p' (.here .self)).2 ((nested_ann hp).trans hm.1)⟩
          · refine hn x (.here ?_)
            cases p' with
            | mk lo hi ann ds => exact .child hx
        · rcases inTrees_cons.mp hx with hx | hx
          · exact hn x (.there (.here hx))
          · cases hx
    · exact ih hl (fun y hy => hn y (.there (.there hy))) x hx
  | keep _ _ ih =>
    intro hn x hx
    cases hl with
    | cons hp hl =>
    rcases inTrees_cons.mp hx with hx | hx
    · exact hn x (.here hx)
    · exact ih hl (fun y hy => hn y (.there hy)) x hx

theorem joined_empty {cs cs' r : List PNode} (h : Joined tokens sub cs cs' r) : cs = [] ↔ r = [] := by
  cases h <;> simp

mutual
theorem nested_flat : ∀ {n n' : PNode}, Nested tokens sub n n' → (∀ x, InTree x n → FlatTok x) →
    ∀ x, InTree x n' → FlatTok x
  | _, _, .mk hl hj, hn, x, hx => by
    have ih := nestedList_flat hl fun y hy => hn y (.child hy)
    rcases inTree_mk.mp hx with rfl | hx
    · exact ⟨fun ha => (joined_empty hj).mp ((hn _ .self).1 ha),
        fun ha h0 => (hn _ .self).2 ha ((joined_empty hj).mpr h0)⟩
    · exact joined_flat hj hl ih x hx

theorem nestedList_flat : ∀ {cs cs' : List PNode}, NestedList tokens sub cs cs' →
    (∀ x, InTrees x cs → FlatTok x) → ∀ x, InTrees x cs' → FlatTok x
  | _, _, .nil, _, x, hx => by cases hx
  | _, _, .cons h1 h2, hn, x, hx => by
    have ih1 := nested_flat h1 fun y hy => hn y (.here hy)
    have ih2 := nestedList_flat h2 fun y hy => hn y (.there hy)
    rcases inTrees_cons.mp hx with hx | hx
    · exact ih1 x hx
    · exact ih2 x hx
end

end

end RUSure.Lemmas
