import Verif.Lemmas.StackSplit

/-!
# Moving groups under their left siblings
-/

namespace RUSure.Lemmas
open RUSure RUSure.Spec
variable {T : Type} [DecidableEq T]

theorem SameList.prepend {a b : List PNode} (h : SameList a b) : ∀ l : List PNode,
    SameList (l ++ a) (l ++ b)
  | [] => h
  | c :: l => (SameNode.refl c).cons (h.prepend l)

theorem same_moved (lo hi) (old R : List PNode) (c : PNode) :
    SameList (.mk lo hi .split old :: c :: R)
      (.mk lo c.hi .split [.mk lo hi .split old, c] :: R) where
  empty := by simp
  leaves := by
    rw [leafRangesList, leafRanges_inner (by simp)]
    simp [leafRangesList]
  unsplit := by simp [unsplitNodes, unsplitNode]
  tile := by
    intro a b h
    cases h with
    | cons h1 h2 =>
      cases h2 with
      | cons h2 h3 => exact .cons (.inner (by simp) (.cons h1 (.cons h2 (.nil _)))) h3

/-- The siblings that are still in place. -/
structure Level (cs : List PNode) (L : List (Nat × PNode)) : Prop where
  sorted : (L.map Prod.fst).Pairwise (· < ·)
  anns : ∀ x ∈ L, (cs.map PNode.ann)[x.1]? = some x.2.ann

theorem level_adjacent {L : List (Nat × PNode)} (hs : (L.map Prod.fst).Pairwise (· < ·)) {k : Nat}
    {p c : PNode} (hp : (k, p) ∈ L) (hc : (k + 1, c) ∈ L) :
    ∃ L1 L2, L = L1 ++ (k, p) :: (k + 1, c) :: L2 ∧ (∀ x ∈ L1, x.1 < k) ∧ (∀ x ∈ L2, k + 1 < x.1) := by
  obtain ⟨L1, R, rfl⟩ := List.append_of_mem hp
  rw [List.map_append, List.map_cons, List.pairwise_append, List.pairwise_cons] at hs
  obtain ⟨-, ⟨h2, h3⟩, h4⟩ := hs
  have h1 : ∀ x ∈ L1, x.1 < k := fun x hx =>
    h4 _ (List.mem_map_of_mem hx) _ (List.mem_cons_self ..)
  rcases List.mem_append.mp hc with h | h
  · have := h1 _ h; simp at this; omega
  · rcases List.mem_cons.mp h with h | h
    · have := congrArg Prod.fst h; simp at this
    · cases R with
      | nil => cases h
      | cons y R =>
        rw [List.map_cons, List.pairwise_cons] at h3
        rcases List.mem_cons.mp h with h' | h'
        · subst h'
          exact ⟨L1, R, rfl, h1, fun x hx => h3.1 _ (List.mem_map_of_mem hx)⟩
        · have h5 : k < y.1 := h2 _ (List.mem_map_of_mem (List.mem_cons_self ..))
          have h6 : y.1 < k + 1 := h3.1 (k + 1) (List.mem_map.mpr ⟨_, h', rfl⟩)
          omega

theorem lookup_mem' {α : Type} : ∀ {L : List (Nat × α)} {k : Nat} {p : α},
    L.lookup k = some p → (k, p) ∈ L
  | (i, q) :: L, k, p, h => by
    rw [List.lookup_cons] at h
    by_cases hk : k = i
    · subst hk
      simp only [beq_self_eq_true] at h
      cases h
      exact List.mem_cons_self ..
    · rw [beq_eq_false_iff_ne.mpr hk] at h
      exact List.mem_cons_of_mem _ (lookup_mem' h)

theorem transplant_same {cs : List PNode} {L L' : List (Nat × PNode)} {k : Nat}
    (hL : Level cs L) (hk : (cs.map PNode.ann)[k]? = some .split)
    (h : transplant (k + 1, k) L = .ok L') :
    SameList (L.map Prod.snd) (L'.map Prod.snd) ∧ Level cs L' := by
  unfold transplant at h
  cases hc : L.lookup (k + 1) with
  | none => rw [hc] at h; cases h
  | some c =>
    cases hp : L.lookup k with
    | none => rw [hc, hp] at h; cases h
    | some p =>
      obtain ⟨lo, hi, ann, old⟩ := p
      rw [hc, hp] at h
      obtain ⟨L1, L2, rfl, h1, h2⟩ := level_adjacent hL.sorted (lookup_mem' hp) (lookup_mem' hc)
      obtain rfl : ann = .split := by
        have := hL.anns _ (lookup_mem' hp)
        rw [hk] at this
        exact (Option.some.inj this).symm
      have h3 : k + 1 ≠ k := by omega
      simp only [if_neg h3, Except.ok.injEq] at h
      have hf1 : L1.filter (fun x => x.1 != k + 1) = L1 :=
        List.filter_eq_self.mpr fun x hx => by have := h1 x hx; simp; omega
      have hf2 : L2.filter (fun x => x.1 != k + 1) = L2 :=
        List.filter_eq_self.mpr fun x hx => by have := h2 x hx; simp; omega
      have hm : ∀ (M : List (Nat × PNode)), (∀ x ∈ M, x.1 ≠ k) →
          M.map (fun x => if x.1 = k then (x.1, .mk lo c.hi .split [.mk lo hi .split old, c]) else x) = M := by
        intro M hM
        conv_rhs => rw [← List.map_id M]
        exact List.map_congr_left fun x hx => by simp [hM x hx]
      have h4 : ((k, PNode.mk lo hi .split old).1 != k + 1) = true := by simp
      have h5 : (((k + 1, c) : Nat × PNode).1 != k + 1) = false := by simp
      rw [List.filter_append, hf1, List.filter_cons, if_pos h4, List.filter_cons, h5, hf2,
        List.map_append, hm L1 (fun x hx => by have := h1 x hx; omega), List.map_cons] at h
      simp only [if_true, Bool.false_eq_true, if_false] at h
      rw [hm L2 (fun x hx => by have := h2 x hx; omega)] at h
      subst h
      constructor
      · simp only [List.map_append, List.map_cons]
        exact (same_moved lo hi old _ c).prepend _
      · have hs := hL.sorted
        constructor
        · simp only [List.map_append, List.map_cons] at hs ⊢
          refine hs.sublist ?_
          exact (List.Sublist.cons_cons _ (List.sublist_cons_self _ _)).append_left _
        · intro x hx
          rcases List.mem_append.mp hx with hx | hx
          · exact hL.anns x (List.mem_append_left _ hx)
          · rcases List.mem_cons.mp hx with rfl | hx
            · exact hk
            · exact hL.anns x (List.mem_append_right _ (List.mem_cons_of_mem _
                (List.mem_cons_of_mem _ hx)))

theorem transplants_same {cs : List PNode} : ∀ {ms : List (Nat × Nat)} {L L' : List (Nat × PNode)},
    Level cs L → (∀ m ∈ ms, m.1 = m.2 + 1 ∧ (cs.map PNode.ann)[m.2]? = some .split) →
    transplants ms L = .ok L' → SameList (L.map Prod.snd) (L'.map Prod.snd)
  | [], L, L', _, _, h => by
    cases h
    exact .refl _
  | (j, k) :: ms, L, L', hL, hm, h => by
    rw [List.forall_mem_cons] at hm
    obtain ⟨⟨h1, h2⟩, hm⟩ := hm
    dsimp only at h1 h2
    subst h1
    obtain ⟨L2, h3, h⟩ := except_bind_ok h
    obtain ⟨h4, h5⟩ := transplant_same hL h2 h3
    exact h4.trans (transplants_same h5 hm h)

theorem level_start {cs cs' : List PNode} (h : cs'.map PNode.ann = cs.map PNode.ann) :
    Level cs ((List.range cs'.length).zip cs') := by
  have hf : ((List.range cs'.length).zip cs').map Prod.fst = List.range cs'.length :=
    List.map_fst_zip (by simp)
  constructor
  · rw [hf]; exact List.pairwise_lt_range
  · intro x hx
    rw [← h]
    obtain ⟨i, hi, rfl⟩ := List.mem_iff_getElem.mp hx
    simp only [List.length_zip, List.length_range] at hi
    rw [List.getElem_zip, List.getElem_range, List.getElem?_map,
      List.getElem?_eq_getElem (show i < cs'.length by omega)]
    rfl

/-- The range of a node with a bracket pair below it is not empty. -/
theorem hits_range {tokens : List T} {sub : T × T} {N : Nat} : ∀ {ps : List PNode} {h a b : Nat},
    subHits tokens sub ps = .ok h → 0 < h → RangesTile a b ps → LookupsOk N ps → a < b
  | [], h, a, b, hh, h0, _, _ => by
    unfold subHits at hh; cases hh; omega
  | p :: ps, h, a, b, hh, h0, ht, hp => by
    unfold subHits at hh
    obtain ⟨n, h1, hh⟩ := except_bind_ok hh
    obtain ⟨h2, h3, e, h4, h5⟩ := tile_mem ht p (List.mem_cons_self ..)
    obtain ⟨e', h6, h7⟩ := range_shape h2
    rw [h4] at h6; cases h6
    have rest : 0 < n → a < b := by
      intro hn
      cases ht with
      | cons h8 h9 =>
        have := hits_range h1 hn h9 (LookupsOk.cons.mp hp).2
        simp only [PNode.lo, PNode.hi, Option.some.injEq] at h3 h4 h7
        omega
    by_cases hpa : p.ann = .paired
    · obtain ⟨a', m', b', q, -, -, -, -, e2, h8, h9⟩ := hp p (.here .self) hpa
      rw [h4] at h8; cases h8
      omega
    · simp only [if_neg hpa] at hh
      cases hh
      exact rest h0

theorem moves_ok {tokens : List T} {sub : T × T} {N a b : Nat} {cs : List PNode} {hits : List Nat}
    (hh : cs.mapM (fun c => subHits tokens sub c.children) = .ok hits)
    (ht : RangesTile a b cs) (hp : LookupsOk N cs) :
    ∀ m ∈ subMoves cs hits, m.1 = m.2 + 1 ∧ (cs.map PNode.ann)[m.2]? = some .split := by
  intro m hm
  unfold subMoves at hm
  obtain ⟨j, hj, hm⟩ := List.mem_flatMap.mp hm
  rw [List.mem_range] at hj
  dsimp only at hm
  split at hm
  · rename_i c p h hc hpk hh'
    split at hm
    · rename_i hs
      obtain ⟨hs1, hs2, hs3⟩ := hs
      rw [List.mem_replicate] at hm
      obtain ⟨h0, rfl⟩ := hm
      refine ⟨?_, by rw [List.getElem?_map, hpk]; simp [hs2]⟩
      dsimp only
      by_cases hj0 : j = 0
      · exfalso
        subst hj0
        simp only [if_true] at hpk
        have hF := mapM_ok hh
        cases cs with
        | nil => cases hc
        | cons d ds =>
          cases hF with
          | @cons _ h' _ hits' hd _ =>
            simp only [List.getElem?_cons_zero, Option.some.injEq] at hc hh'
            subst hc hh'
            have hlast : (d :: ds).getLast? = some p := by
              rw [List.getLast?_eq_getElem?, ← hpk]
            obtain ⟨e1, e2, -⟩ := tile_shape ds d ht
            rw [hlast] at e2
            simp only [Option.map_some, Option.some.injEq] at e2
            rw [hs3, e1] at e2
            simp only [Option.some.injEq] at e2
            cases ht with
            | cons h1 h2 =>
              have h3 := ranges_le _ h2
              have h4 : LookupsOk N _ := fun x hx => hp x (.here (.child hx))
              cases h1 with
              | leaf _ => unfold PNode.children subHits at hd; cases hd; exact h0 rfl
              | inner _ h5 =>
                have := hits_range hd (Nat.pos_of_ne_zero h0) h5 h4
                omega
      · rw [if_neg hj0]; omega
    · cases hm
  · cases hm

section
variable (tokens : List T) (sub : T × T) (N : Nat)

mutual
theorem subMatch_same : ∀ (n n' : PNode), n.subMatch tokens sub = .ok n' → RangeOk n →
    (∀ x, InTree x n → LookupOk N x) → SameNode n n'
  | .mk lo hi ann cs, n', h, hr, hp => by
    have ih := subMatchList_same cs
    obtain ⟨a, b, ht⟩ : ∃ a b, RangesTile a b cs := by
      cases hr with
      | leaf _ => exact ⟨0, 0, .nil _⟩
      | inner _ ht => exact ⟨_, _, ht⟩
    have hp' : LookupsOk N cs := fun x hx => hp x (.child hx)
    have main : ∀ hits cs' ps, cs.mapM (fun c => subHits tokens sub c.children) = .ok hits →
        PNode.subMatchList tokens sub cs = .ok cs' →
        transplants (subMoves cs hits) ((List.range cs'.length).zip cs') = .ok ps →
        SameNode (.mk lo hi ann cs) (.mk lo hi ann (ps.map Prod.snd)) := by
      intro hits cs' ps h1 h2 h3
      obtain ⟨h4, h5⟩ := ih cs' a b h2 ht hp'
      have h6 := transplants_same (level_start h5) (moves_ok h1 ht hp') h3
      rw [List.map_snd_zip (by simp)] at h6
      exact (h4.trans h6).node lo hi ann
    unfold PNode.subMatch at h
    split at h
    · obtain ⟨_, -, h⟩ := except_bind_ok h
      obtain ⟨hits, h1, h⟩ := except_bind_ok h
      obtain ⟨cs', h2, h⟩ := except_bind_ok h
      obtain ⟨ps, h3, h⟩ := except_bind_ok h
      cases h
      exact main _ _ _ h1 h2 h3
    · obtain ⟨hits, h1, h⟩ := except_bind_ok h
      obtain ⟨cs', h2, h⟩ := except_bind_ok h
      obtain ⟨ps, h3, h⟩ := except_bind_ok h
      cases h
      exact main _ _ _ h1 h2 h3

theorem subMatchList_same : ∀ (cs cs' : List PNode) (a b : Nat),
    PNode.subMatchList tokens sub cs = .ok cs' → RangesTile a b cs → LookupsOk N cs →
    SameList cs cs' ∧ cs'.map PNode.ann = cs.map PNode.ann
  | [], cs', _, _, h, _, _ => by
    unfold PNode.subMatchList at h
    cases h
    exact ⟨.refl _, rfl⟩
  | c :: cs, cs', a, b, h, ht, hp => by
    have ih := subMatch_same c
    have ih' := subMatchList_same cs
    rw [LookupsOk.cons] at hp
    unfold PNode.subMatchList at h
    obtain ⟨c', h1, h⟩ := except_bind_ok h
    obtain ⟨cs2, h2, h⟩ := except_bind_ok h
    cases h
    cases ht with
    | cons h3 h4 =>
      have h5 := ih c' h1 h3 hp.1
      obtain ⟨h6, h7⟩ := ih' cs2 _ _ h2 h4 hp.2
      exact ⟨h5.cons h6, by rw [List.map_cons, List.map_cons, h5.ann, h7]⟩
end

end

theorem splitParse_same {root root' : PNode} {tokens splitters : List T} {un : List (T × T)}
    {sub : Option (T × T)} {N : Nat} (h : splitParse root tokens splitters un sub = .ok root')
    (hr : RangeOk root) (hp : ∀ x, InTree x root → LookupOk N x) : SameNode root root' := by
  unfold splitParse at h
  split at h
  · cases h; exact .refl _
  · obtain ⟨r, h1, h⟩ := except_bind_ok h
    have h2 := splitWith_same _ _ _ _ _ h1
    cases sub with
    | none => cases h; exact h2
    | some p =>
      exact h2.trans (subMatch_same tokens p N _ _ h (h2.range hr)
        (splitWith_pairs _ _ _ N _ _ h1 hp))

end RUSure.Lemmas
