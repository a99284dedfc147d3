import Verif.Lemmas.TruncLeaves

/-!
# Splitting and joining keep brackets together
-/

namespace RUSure.Lemmas
open RUSure RUSure.Spec

theorem shape_of_no_middle {P : Nat → Nat → Prop} {x : PNode} (h : ∀ c ∈ x.children, c.ann ≠ .middle) :
    Shape P x := fun ⟨c, hc, hm⟩ => absurd hm (h c hc)

theorem forest_shape {T : Type} {pairs : List (T × T)} {ctx : Option T} {i : Nat} {ts : List T} {ns : List PNode}
    (h : Forest pairs ctx i ts ns) (P : Nat → Nat → Prop) (hP : ∀ p ∈ bracketsAmong ns, P p.1 p.2) :
    (∀ c ∈ ns, c.ann ≠ .middle) ∧ ∀ x, InTrees x ns → Shape P x := by
  have leaf : ∀ i h a, ∀ x, InTree x (.mk i h a []) → Shape P x := by
    intro i h a x hx
    rcases inTree_mk.mp hx with rfl | hx
    · exact shape_of_no_middle (by simp [PNode.children])
    · cases hx
  induction h with
  | nil => exact ⟨by simp, fun x hx => by cases hx⟩
  | plain _ _ ih | stray _ _ _ ih =>
    rw [bracketsAmong, bracketsIn_leaf _ _ (by simp), List.nil_append] at hP
    obtain ⟨h1, h2⟩ := ih hP
    refine ⟨List.forall_mem_cons.mpr ⟨by simp [PNode.ann], h1⟩, fun x hx => ?_⟩
    rcases inTrees_cons.mp hx with hx | hx
    · exact leaf _ _ _ x hx
    · exact h2 x hx
  | @bracket ctx o c i j inner ts ns ms hm hj _ _ ih ih' =>
    rw [bracketsAmong, bracketsIn_pair] at hP
    obtain ⟨h1, h2⟩ := ih fun p hp => hP p (by simp [hp])
    obtain ⟨h3, h4⟩ := ih' fun p hp => hP p (by simp [hp])
    refine ⟨List.forall_mem_cons.mpr ⟨by simp [PNode.ann], h3⟩, fun x hx => ?_⟩
    rcases inTrees_cons.mp hx with hx | hx
    · rcases inTree_mk.mp hx with rfl | hx
      · exact fun _ => ⟨rfl, _, _, _, rfl, rfl, rfl, rfl, hP (i, j) (by simp)⟩
      · rcases inTrees_cons.mp hx with hx | hx
        · exact leaf _ _ _ x hx
        · rcases inTrees_cons.mp hx with hx | hx
          · rcases inTree_mk.mp hx with rfl | hx
            · exact shape_of_no_middle h1
            · exact h2 x hx
          · rcases inTrees_cons.mp hx with hx | hx
            · exact leaf _ _ _ x hx
            · cases hx
    · exact h4 x hx

/-- The same annotations and beginnings. -/
theorem shape_same {P : Nat → Nat → Prop} {lo hi lo' hi' ann} {cs cs' : List PNode}
    (h : List.Forall₂ (fun c c' => c'.ann = c.ann ∧ c'.lo = c.lo) cs cs')
    (hs : Shape P (.mk lo hi ann cs)) : Shape P (.mk lo' hi' ann cs') := by
  rintro ⟨c, hc, hm⟩
  have hex : ∃ c ∈ cs, c.ann = .middle := by
    clear hs
    induction h with
    | nil => cases hc
    | @cons c1 c1' cs cs' h1 _ ih =>
      rcases List.mem_cons.mp hc with rfl | hc
      · exact ⟨c1, .head _, h1.1.symm.trans hm⟩
      · obtain ⟨d, hd, hd'⟩ := ih hc
        exact ⟨d, .tail _ hd, hd'⟩
  obtain ⟨ha, a, m, b, e, h1, h2, h3, h4⟩ := hs hex
  obtain rfl : cs = [a, m, b] := e
  cases h with
  | @cons _ a' _ _ ka h =>
  cases h with
  | @cons _ m' _ _ km h =>
  cases h with
  | @cons _ b' _ _ kb h =>
  cases h
  exact ⟨ha, a', m', b', rfl, ka.1.trans h1, km.1.trans h2, kb.1.trans h3, by rw [ka.2, kb.2]; exact h4⟩

section
variable {T : Type} [DecidableEq T] (tokens splitters : List T) (un : List (T × T)) {P : Nat → Nat → Prop}

mutual
theorem splitWith_shape (N : Nat) : ∀ (n n' : PNode), n.splitWith tokens splitters un = .ok n' →
    (∀ x, InTree x n → LookupOk N x) → (∀ x, InTree x n → Shape P x) → ∀ x, InTree x n' → Shape P x
  | .mk lo hi ann cs, n', h, hp, hn, x, hx => by
    have ih := splitList_keeps N cs
    rcases splitWith_cases tokens splitters un h (hp _ .self) with ⟨rfl, -⟩ | ⟨marks, cs', h1, h2, rfl⟩
    · exact hn x hx
    · have ih := ih cs' h2 (fun y hy => hp y (.child hy)) fun y hy => hn y (.child hy)
      have hsh := splitList_shape tokens splitters un _ _ h2
      have hself : Shape P (.mk lo hi ann cs') := by
        refine shape_same ?_ (hn _ .self)
        exact hsh.imp fun a b hab => ⟨hab.ann, hab.lo⟩
      by_cases hpa : ann = .paired
      · have hr : regroup ann marks cs' = cs' := by
          unfold regroup
          rw [if_neg]
          exact fun h => h.2 hpa
        rw [hr] at hx
        rcases inTree_mk.mp hx with rfl | hx'
        · exact hself
        · exact ih x hx'
      · have hno : ∀ c ∈ cs', c.ann ≠ .middle := fun c hc hm => hpa (hself ⟨c, hc, hm⟩).1
        rcases regroup_cases (ann := ann) hsh h1 with ⟨h3, -⟩ | ⟨gs, h3, h4, h5, h6⟩
        · rw [h3] at hx
          rcases inTree_mk.mp hx with rfl | hx'
          · exact hself
          · exact ih x hx'
        · rw [h3] at hx
          rcases inTree_mk.mp hx with rfl | hx'
          · refine shape_of_no_middle fun c hc => ?_
            obtain ⟨g, hg, rfl⟩ := List.mem_map.mp hc
            simp [splitNode, PNode.ann]
          · obtain ⟨c, hc, hx'⟩ := inTrees_iff.mp hx'
            obtain ⟨g, hg, rfl⟩ := List.mem_map.mp hc
            unfold splitNode at hx'
            rcases inTree_mk.mp hx' with rfl | hx'
            · exact shape_of_no_middle fun d hd => hno d (by rw [← h4]; exact List.mem_flatten.mpr ⟨g, hg, hd⟩)
            · exact ih x (by rw [← h4]; exact inTrees_flatten.mpr ⟨g, hg, hx'⟩)

theorem splitList_keeps (N : Nat) : ∀ (cs cs' : List PNode),
    PNode.splitList tokens splitters un cs = .ok cs' → LookupsOk N cs →
    (∀ x, InTrees x cs → Shape P x) → ∀ x, InTrees x cs' → Shape P x
  | [], cs', h, hp, hn, x, hx => by
    unfold PNode.splitList at h
    cases h
    cases hx
  | c :: cs, cs', h, hp, hn, x, hx => by
    have ih := splitWith_shape N c
    have ih' := splitList_keeps N cs
    rw [LookupsOk.cons] at hp
    have hn2 : ∀ y, InTrees y cs → Shape P y := fun y hy => hn y (.there hy)
    unfold PNode.splitList at h
    obtain ⟨k, -, h⟩ := except_bind_ok h
    dsimp only at h
    split at h
    · obtain ⟨c', h1, h⟩ := except_bind_ok h
      obtain ⟨cs2, h2, h⟩ := except_bind_ok h
      cases h
      rcases inTrees_cons.mp hx with hx' | hx'
      · exact ih c' h1 hp.1 (fun z hz => hn z (.here hz)) x hx'
      · exact ih' cs2 h2 hp.2 hn2 x hx'
    · obtain ⟨c', h1, h⟩ := except_bind_ok h
      obtain ⟨cs2, h2, h⟩ := except_bind_ok h
      cases h
      cases h1
      rcases inTrees_cons.mp hx with hx' | hx'
      · exact hn x (.here hx')
      · exact ih' cs2 h2 hp.2 hn2 x hx'
end

end

section
variable {T : Type} {tokens : List T} {sub : T × T} {P : Nat → Nat → Prop}

theorem nested_lo {n n' : PNode} (h : Nested tokens sub n n') : n'.lo = n.lo := by
  cases h
  rfl

theorem nestedList_same {cs cs' : List PNode} : NestedList tokens sub cs cs' →
    List.Forall₂ (fun c c' => c'.ann = c.ann ∧ c'.lo = c.lo) cs cs'
  | .nil => .nil
  | .cons h1 h2 => .cons ⟨nested_ann h1, nested_lo h1⟩ (nestedList_same h2)

theorem joined_middle {cs cs' r : List PNode} (h : Joined tokens sub cs cs' r)
    (hl : List.Forall₂ (fun c c' => c'.ann = c.ann ∧ c'.lo = c.lo) cs cs') :
    (∃ c ∈ r, c.ann = .middle) → ∃ c ∈ cs, c.ann = .middle := by
  induction h with
  | nil => exact id
  | single =>
    rintro ⟨c, hc, hm⟩
    rw [List.mem_singleton] at hc
    subst hc
    cases hl with
    | cons h1 _ => exact ⟨_, .head _, h1.1.symm.trans hm⟩
  | @move p c p' c' cs cs' r hmv _ ih =>
    cases hl with
    | cons hp hl =>
    cases hl with
    | cons hc hl =>
    rintro ⟨d, hd, hm⟩
    rcases List.mem_cons.mp hd with rfl | hd
    · cases hm
    · obtain ⟨e, he, he'⟩ := ih hl ⟨d, hd, hm⟩
      exact ⟨e, .tail _ (.tail _ he), he'⟩
  | @keep p c p' c' cs cs' r _ _ ih =>
    cases hl with
    | cons hp hl =>
    rintro ⟨d, hd, hm⟩
    rcases List.mem_cons.mp hd with rfl | hd
    · exact ⟨p, .head _, hp.1.symm.trans hm⟩
    · obtain ⟨e, he, he'⟩ := ih hl ⟨d, hd, hm⟩
      exact ⟨e, .tail _ he, he'⟩

theorem joined_same {cs cs' r : List PNode} (h : Joined tokens sub cs cs' r)
    (hn : ∀ c ∈ cs, c.ann ≠ .split) : r = cs' := by
  induction h with
  | nil => rfl
  | single => rfl
  | move hm _ _ => exact absurd hm.1 (hn _ (.head _))
  | keep _ _ ih => rw [ih fun c hc => hn c (.tail _ hc)]

theorem joined_shape {cs cs' r : List PNode} (h : Joined tokens sub cs cs' r) (hl : NestedList tokens sub cs cs') :
    (∀ x, InTrees x cs' → Shape P x) → ∀ x, InTrees x r → Shape P x := by
  induction h with
  | nil => exact id
  | single => exact id
  | @move p c p' c' cs cs' r hm _ ih =>
    intro hn x hx
    cases hl with
    | cons hp hl =>
    cases hl with
    | cons hc hl =>
    rcases inTrees_cons.mp hx with hx | hx
    · rcases inTree_mk.mp hx with rfl | hx
      · refine shape_of_no_middle fun d hd => ?_
        simp only [PNode.children, List.mem_cons, List.not_mem_nil, or_false] at hd
        rcases hd with rfl | rfl
        · simp [PNode.ann]
        · rw [nested_ann hc, hm.2.1]
          simp
      · rcases inTrees_cons.mp hx with hx | hx
        · refine hn x (.here ?_)
          have ha := (nested_ann hp).trans hm.1
          cases p' with
          | mk lo hi ann ds =>
            cases ha
            exact hx
        · rcases inTrees_cons.mp hx with hx | hx
          · exact hn x (.there (.here hx))
          · cases hx
    · exact ih hl (fun y hy => hn y (.there (.there hy))) x hx
  | keep _ _ ih =>
    intro hn x hx
    cases hl with
    | cons hp hl =>
    rcases inTrees_cons.mp hx with hx | hx
    · exact hn x (.here hx)
    · exact ih hl (fun y hy => hn y (.there hy)) x hx

mutual
theorem nested_shape : ∀ {n n' : PNode}, Nested tokens sub n n' → (∀ x, InTree x n → Shape P x) →
    ∀ x, InTree x n' → Shape P x
  | _, _, .mk (cs := cs) (cs' := cs') (ann := ann) hl hj, hn, x, hx => by
    have ih := nestedList_shape hl fun y hy => hn y (.child hy)
    have hs := nestedList_same hl
    rcases inTree_mk.mp hx with rfl | hx
    · by_cases hex : ∃ c ∈ cs, c.ann = .middle
      · have h1 := hn _ .self
        obtain ⟨h2, a, m, b, e, h3, h4, h5, -⟩ := h1 hex
        obtain rfl : cs = [a, m, b] := e
        rw [joined_same hj (by simp [h3, h4, h5])]
        exact shape_same hs h1
      · exact fun hm => absurd (joined_middle hj hs hm) hex
    · exact joined_shape hj hl ih x hx

theorem nestedList_shape : ∀ {cs cs' : List PNode}, NestedList tokens sub cs cs' →
    (∀ x, InTrees x cs → Shape P x) → ∀ x, InTrees x cs' → Shape P x
  | _, _, .nil, _, x, hx => by cases hx
  | _, _, .cons h1 h2, hn, x, hx => by
    have ih1 := nested_shape h1 fun y hy => hn y (.here hy)
    have ih2 := nestedList_shape h2 fun y hy => hn y (.there hy)
    rcases inTrees_cons.mp hx with hx | hx
    · exact ih1 x hx
    · exact ih2 x hx
end

end

end RUSure.Lemmas
