import Verif.Lemmas.StackGroups

/-!
# Moving groups succeeds if there are no chains
-/

namespace RUSure.Lemmas
open RUSure RUSure.Spec
variable {T : Type} [DecidableEq T]

omit [DecidableEq T] in
theorem tokenAt_some {tokens : List T} {i : Nat} {t : T} (h : tokenAt tokens i = .ok t) :
    tokens[i]? = some t := by
  unfold tokenAt at h
  split at h
  · cases h; assumption
  · cases h

omit [DecidableEq T] in
theorem pairTokens_iff {tokens : List T} {sub q : T × T} {x : PNode} (hp : LookupOk tokens.length x)
    (ha : x.ann = .paired) (h : pairTokens tokens x.children = .ok q) :
    HasBrackets [sub] tokens x ↔ q = sub := by
  obtain ⟨a, m, b, e, e1, e2, e3, e4, -⟩ := hp ha
  rw [e1] at h
  unfold pairTokens at h
  obtain ⟨l, hl, h⟩ := except_bind_ok h
  obtain ⟨r, hr, h⟩ := except_bind_ok h
  cases h
  rw [e3, tokenBefore] at hr
  constructor
  · rintro ⟨-, a', m', b', e', l', r', h1, h2, h3, h4, h5⟩
    rw [e1] at h1
    simp only [List.cons.injEq, and_true] at h1
    obtain ⟨rfl, rfl, rfl⟩ := h1
    rw [e3] at h3
    cases h3
    rw [tokenAt_some hl] at h2
    rw [tokenAt_some hr] at h4
    cases h2; cases h4
    exact List.mem_singleton.mp h5
  · rintro rfl
    exact ⟨ha, a, m, b, e, l, r, e1, tokenAt_some hl, e3, tokenAt_some hr, List.mem_singleton.mpr rfl⟩

/-- Counting bracket pairs succeeds; the count is zero or one if there are none or one. -/
theorem subHits_spec {tokens : List T} {sub : T × T} : ∀ {ps : List PNode},
    (∀ x ∈ ps, LookupOk tokens.length x) → ∃ h, subHits tokens sub ps = .ok h
      ∧ (0 < h ↔ ∃ d ∈ ps, HasBrackets [sub] tokens d)
      ∧ ((∃ l d r, ps = l ++ d :: r ∧ ∀ x ∈ l ++ r, ¬ HasBrackets [sub] tokens x) → h ≤ 1)
  | [], _ => ⟨0, rfl, by simp, fun _ => Nat.zero_le _⟩
  | p :: ps, hp => by
    rw [List.forall_mem_cons] at hp
    obtain ⟨n, h1, h2, h3⟩ := subHits_spec (sub := sub) hp.2
    have hb : ∃ b : Bool, subHits tokens sub (p :: ps) = .ok (if b then n + 1 else n)
        ∧ (b = true ↔ HasBrackets [sub] tokens p) := by
      unfold subHits
      rw [h1]
      by_cases ha : p.ann = .paired
      · obtain ⟨q, hq⟩ := pairTokens_ok tokens hp.1 ha
        have := pairTokens_iff (sub := sub) hp.1 ha hq
        by_cases hs : q = sub
        · exact ⟨true, by simp [ha, hq, hs, bind, Except.bind, pure, Except.pure], by simp [this, hs]⟩
        · exact ⟨false, by simp [ha, hq, hs, bind, Except.bind, pure, Except.pure], by simp [this, hs]⟩
      · refine ⟨false, by simp [ha, bind, Except.bind, pure, Except.pure], ?_⟩
        simp only [Bool.false_eq_true, false_iff]
        exact fun h => ha h.1
    obtain ⟨b, h4, h5⟩ := hb
    refine ⟨_, h4, ?_, ?_⟩
    · cases b with
      | true => simp [h5.mp rfl]
      | false =>
        have : ¬ HasBrackets [sub] tokens p := fun h => by have := h5.mpr h; cases this
        simp [h2, this]
    · rintro ⟨l, d, r, e, hd⟩
      cases l with
      | nil =>
        rw [List.nil_append, List.cons.injEq] at e
        obtain ⟨rfl, rfl⟩ := e
        have : ¬ 0 < n := by
          rw [h2]
          rintro ⟨x, hx, hx'⟩
          exact hd x (by simpa using hx) hx'
        split <;> omega
      | cons y l =>
        rw [List.cons_append, List.cons.injEq] at e
        obtain ⟨rfl, rfl⟩ := e
        have h6 := h3 ⟨l, d, r, rfl, fun x hx => hd x (by simp at hx ⊢; tauto)⟩
        cases b with
        | true => exact absurd (h5.mp rfl) (hd p (by simp))
        | false => simpa using h6

/-! ### The list of moves -/

/-- The moves from position `i` on. -/
def movesFrom (i : Nat) : List PNode → List Nat → List (Nat × Nat)
  | p :: c :: cs, _ :: hc :: hits =>
    (if c.ann = .split ∧ p.ann = .split ∧ p.hi = some c.lo then List.replicate hc (i + 1, i) else [])
      ++ movesFrom (i + 1) (c :: cs) (hc :: hits)
  | _, _ => []

theorem moves_from (cs0 : List PNode) (hits0 : List Nat) :
    ∀ (cs : List PNode) (hits : List Nat) (i : Nat) (p : PNode) (hp : Nat),
    cs.length = hits.length → cs0.drop i = p :: cs → hits0.drop i = hp :: hits →
    (List.range' (i + 1) cs.length).flatMap (fun j =>
      match cs0[j]?, cs0[if j = 0 then cs0.length - 1 else j - 1]?, hits0[j]? with
      | some c, some p, some h =>
        if c.ann = .split ∧ p.ann = .split ∧ p.hi = some c.lo then
          List.replicate h (j, if j = 0 then cs0.length - 1 else j - 1) else []
      | _, _, _ => []) = movesFrom i (p :: cs) (hp :: hits)
  | [], [], i, p, hp, _, _, _ => rfl
  | c :: cs, h :: hits, i, p, hp, hl, h1, h2 => by
    have e1 : cs0[i]? = some p := by
      have := congrArg (·[0]?) h1; simpa using this
    have e2 : cs0[i + 1]? = some c := by
      have := congrArg (·[1]?) h1; simpa using this
    have e3 : hits0[i + 1]? = some h := by
      have := congrArg (·[1]?) h2; simpa using this
    have d1 : cs0.drop (i + 1) = c :: cs := by
      rw [← List.drop_drop, h1]; rfl
    have d2 : hits0.drop (i + 1) = h :: hits := by
      rw [← List.drop_drop, h2]; rfl
    rw [List.length_cons, List.range'_succ, List.flatMap_cons,
      moves_from cs0 hits0 cs hits (i + 1) c h (Nat.succ.inj hl) d1 d2]
    simp only [Nat.add_one_ne_zero, if_false, Nat.add_sub_cancel, e1, e2, e3]
    rfl

theorem subMoves_from {tokens : List T} {sub : T × T} {N a b : Nat} {cs : List PNode}
    {hits : List Nat} (hh : cs.mapM (fun c => subHits tokens sub c.children) = .ok hits)
    (ht : RangesTile a b cs) (hp : LookupsOk N cs) : subMoves cs hits = movesFrom 0 cs hits := by
  have hl := (mapM_ok hh).length_eq
  cases cs with
  | nil => rfl
  | cons p cs =>
    cases hits with
    | nil => cases hl
    | cons h hits =>
      have h1 := moves_from (p :: cs) (h :: hits) cs hits 0 p h (Nat.succ.inj hl) rfl rfl
      have h2 := moves_ok hh ht hp
      unfold subMoves at h2 ⊢
      rw [List.length_cons, List.range_eq_range', List.range'_succ, List.flatMap_cons] at h2 ⊢
      rw [List.length_cons] at h1
      rw [← h1]
      refine List.append_left_eq_self.mpr ?_
      rw [List.eq_nil_iff_forall_not_mem]
      intro m hm
      have h3 := h2 m (List.mem_append_left _ hm)
      dsimp only at hm
      split at hm
      · split at hm
        · obtain ⟨-, rfl⟩ := List.mem_replicate.mp hm
          have := h3.1
          simp at this
        · cases hm
      · cases hm

/-! ### Making the moves -/

theorem transplant_run {L1 Z : List (Nat × PNode)} {i : Nat} {lo hi} {old : List PNode} {c : PNode}
    (h1 : ∀ x ∈ L1, x.1 < i) (h2 : ∀ x ∈ Z, i + 1 < x.1) :
    transplant (i + 1, i) (L1 ++ (i, .mk lo hi .split old) :: (i + 1, c) :: Z)
      = .ok (L1 ++ (i, .mk lo c.hi .split [.mk lo hi .split old, c]) :: Z) := by
  have hlook : ∀ (M : List (Nat × PNode)) (k : Nat) (R : List (Nat × PNode)), (∀ x ∈ M, x.1 ≠ k) →
      (M ++ R).lookup k = R.lookup k := by
    intro M k R hM
    induction M with
    | nil => rfl
    | cons y M ih =>
      rw [List.forall_mem_cons] at hM
      obtain ⟨y1, y2⟩ := y
      rw [List.cons_append, List.lookup_cons, beq_eq_false_iff_ne.mpr (Ne.symm hM.1)]
      exact ih hM.2
  have e1 : (L1 ++ (i, PNode.mk lo hi .split old) :: (i + 1, c) :: Z).lookup (i + 1) = some c := by
    rw [hlook L1 _ _ (fun x hx => by have := h1 x hx; omega), List.lookup_cons,
      beq_eq_false_iff_ne.mpr (by omega), List.lookup_cons]
    simp
  have e2 : (L1 ++ (i, PNode.mk lo hi .split old) :: (i + 1, c) :: Z).lookup i
      = some (.mk lo hi .split old) := by
    rw [hlook L1 _ _ (fun x hx => by have := h1 x hx; omega), List.lookup_cons]
    simp
  unfold transplant
  simp only [e1, e2]
  have h3 : i + 1 ≠ i := by omega
  rw [if_neg h3]
  congr 1
  have hf1 : L1.filter (fun x => x.1 != i + 1) = L1 :=
    List.filter_eq_self.mpr fun x hx => by have := h1 x hx; simp; omega
  have hf2 : Z.filter (fun x => x.1 != i + 1) = Z :=
    List.filter_eq_self.mpr fun x hx => by have := h2 x hx; simp; omega
  have hm : ∀ (M : List (Nat × PNode)), (∀ x ∈ M, x.1 ≠ i) →
      M.map (fun x => if x.1 = i then (x.1, .mk lo c.hi .split [.mk lo hi .split old, c]) else x)
        = M := by
    intro M hM
    conv_rhs => rw [← List.map_id M]
    exact List.map_congr_left fun x hx => by simp [hM x hx]
  have h4 : ((i, PNode.mk lo hi .split old).1 != i + 1) = true := by simp
  have h5 : (((i + 1, c) : Nat × PNode).1 != i + 1) = false := by simp
  rw [List.filter_append, hf1, List.filter_cons, if_pos h4, List.filter_cons, h5, hf2,
    List.map_append, hm L1 (fun x hx => by have := h1 x hx; omega), List.map_cons]
  simp only [if_true, Bool.false_eq_true, if_false]
  rw [hm Z (fun x hx => by have := h2 x hx; omega)]

/-- The counts of the siblings. -/
def HitsOk (tokens : List T) (sub : T × T) (c : PNode) (h : Nat) : Prop :=
  (0 < h ↔ ∃ d ∈ c.children, HasBrackets [sub] tokens d)
  ∧ ((∃ l d r, c.children = l ++ d :: r ∧ ∀ x ∈ l ++ r, ¬ HasBrackets [sub] tokens x) → h ≤ 1)

omit [DecidableEq T] in
theorem _root_.RUSure.Spec.Chainless.tail {tokens : List T} {sub : T × T} {c : PNode} {cs : List PNode}
    (h : Chainless tokens sub (c :: cs)) : Chainless tokens sub cs :=
  ⟨fun p d l r e => h.once p d (c :: l) r (by rw [e]; rfl),
    fun p d x l r e => h.apart p d x (c :: l) r (by rw [e]; rfl)⟩

omit [DecidableEq T] in
theorem movesFrom_keep {tokens : List T} {sub : T × T} {p c : PNode} {cs : List PNode} {hp hc i : Nat}
    {hits : List Nat} (hh : HitsOk tokens sub c hc) (hm : ¬ Moves tokens sub p c) :
    movesFrom i (p :: c :: cs) (hp :: hc :: hits) = movesFrom (i + 1) (c :: cs) (hc :: hits) := by
  rw [movesFrom]
  split
  · rename_i h
    have : hc = 0 := by
      by_contra h0
      exact hm ⟨h.2.1, h.1, hh.1.mp (Nat.pos_of_ne_zero h0)⟩
    rw [this]
    rfl
  · rfl

omit [DecidableEq T] in
theorem tile_hi_lo {a b : Nat} {p c : PNode} {cs : List PNode}
    (h : RangesTile a b (p :: c :: cs)) : p.hi = some c.lo := by
  cases h with
  | cons h1 h2 =>
    cases h2 with
    | cons h3 h4 => rfl

omit [DecidableEq T] in
theorem transplants_joined (tokens : List T) (sub : T × T) : ∀ (cs cs' : List PNode) (hits : List Nat)
    (i a b : Nat) (L1 : List (Nat × PNode)), RangesTile a b cs → Chainless tokens sub cs →
    List.Forall₂ (HitsOk tokens sub) cs hits → cs'.map PNode.ann = cs.map PNode.ann →
    (∀ x ∈ L1, x.1 < i) →
    ∃ r L', Joined tokens sub cs cs' r
      ∧ transplants (movesFrom i cs hits) (L1 ++ (List.range' i cs'.length).zip cs') = .ok L'
      ∧ L'.map Prod.snd = L1.map Prod.snd ++ r
  | [], [], [], i, a, b, L1, _, _, _, _, _ => by
    exact ⟨[], L1, .nil, by simp [movesFrom, transplants], by simp⟩
  | [c], [c'], [h], i, a, b, L1, _, _, _, _, _ => by
    exact ⟨[c'], L1 ++ [(i, c')], .single, by simp [movesFrom, transplants], by simp⟩
  | p :: c :: cs, p' :: c' :: cs', hp :: hc :: hits, i, a, b, L1, ht, hch, hF, ha, hL => by
    have ht' : ∃ a' b', RangesTile a' b' (c :: cs) := by
      cases ht with
      | cons _ h => exact ⟨_, _, h⟩
    have ht'' : ∃ a' b', RangesTile a' b' cs := by
      obtain ⟨_, _, h⟩ := ht'
      cases h with
      | cons _ h => exact ⟨_, _, h⟩
    obtain ⟨a1, b1, ht1⟩ := ht'
    obtain ⟨a2, b2, ht2⟩ := ht''
    cases hF with
    | cons _ hF =>
    have hF' := hF
    cases hF with
    | cons hhc hF =>
    simp only [List.map_cons, List.cons.injEq] at ha
    by_cases hm : Moves tokens sub p c
    · -- moved
      have hone : hc = 1 := by
        have h1 : 0 < hc := hhc.1.mpr hm.2.2
        have h2 := hhc.2 (hch.once p c [] cs rfl hm)
        omega
      obtain ⟨lo, hi, ann, old⟩ := p'
      obtain rfl : ann = .split := ha.1.trans hm.1
      obtain ⟨r, L', h1, h2, h3⟩ := transplants_joined tokens sub cs cs' hits (i + 2) a2 b2
        (L1 ++ [(i, .mk lo c'.hi .split [.mk lo hi .split old, c'])]) ht2 hch.tail.tail hF ha.2.2
        (by
          intro x hx
          rcases List.mem_append.mp hx with hx | hx
          · have := hL x hx; omega
          · rw [List.mem_singleton.mp hx]; simp)
      refine ⟨_, L', .move (p' := .mk lo hi .split old) hm h1, ?_, ?_⟩
      · have hmv : movesFrom i (p :: c :: cs) (hp :: hc :: hits)
            = (i + 1, i) :: movesFrom (i + 2) cs hits := by
          have hrest : movesFrom (i + 1) (c :: cs) (hc :: hits) = movesFrom (i + 2) cs hits := by
            cases hF with
            | nil => simp [movesFrom]
            | @cons d hd cs2 hits2 hhd _ =>
              exact movesFrom_keep hhd (hch.apart p c d [] cs2 rfl hm)
          rw [movesFrom, if_pos ⟨hm.2.1, hm.1, tile_hi_lo ht⟩, hone] 
          rw [hone] at hrest
          rw [hrest]
          rfl
        rw [hmv]
        simp only [List.length_cons, List.range'_succ, List.zip_cons_cons, transplants]
        rw [transplant_run hL]
        · rw [← List.append_cons] at h2 
          exact h2
        · intro x hx
          have := (List.of_mem_zip hx).1
          rw [List.mem_range'_1] at this
          omega
      · rw [h3]; simp [PNode.lo, PNode.hi, PNode.children]
    · obtain ⟨r, L', h1, h2, h3⟩ := transplants_joined tokens sub (c :: cs) (c' :: cs') (hc :: hits)
        (i + 1) a1 b1 (L1 ++ [(i, p')]) ht1 hch.tail hF' (by simp [ha.2.1, ha.2.2])
        (by
          intro x hx
          rcases List.mem_append.mp hx with hx | hx
          · have := hL x hx; omega
          · rw [List.mem_singleton.mp hx]; simp)
      refine ⟨_, L', .keep hm h1, ?_, by rw [h3]; simp⟩
      rw [movesFrom_keep hhc hm]
      rw [List.append_assoc] at h2
      simpa [List.range'_succ] using h2
  | [], _ :: _, _, _, _, _, _, _, _, _, ha, _ => by simp at ha
  | _ :: _, [], _, _, _, _, _, _, _, _, ha, _ => by simp at ha
  | [], [], _ :: _, _, _, _, _, _, _, hF, _, _ => by cases hF
  | [_], [_], [], _, _, _, _, _, _, hF, _, _ => by cases hF
  | [_], [_], _ :: _ :: _, _, _, _, _, _, _, hF, _, _ => by cases hF with | cons _ h => cases h
  | [_], _ :: _ :: _, _, _, _, _, _, _, _, _, ha, _ => by simp at ha
  | _ :: _ :: _, [_], _, _, _, _, _, _, _, _, ha, _ => by simp at ha
  | _ :: _ :: _, _ :: _ :: _, [], _, _, _, _, _, _, hF, _, _ => by cases hF
  | _ :: _ :: _, _ :: _ :: _, [_], _, _, _, _, _, _, hF, _, _ => by cases hF with | cons _ h => cases h

theorem mapM_hits {tokens : List T} {sub : T × T} : ∀ {cs : List PNode},
    (∀ c ∈ cs, ∀ x ∈ c.children, LookupOk tokens.length x) →
    ∃ hits, cs.mapM (fun c => subHits tokens sub c.children) = .ok hits
      ∧ List.Forall₂ (HitsOk tokens sub) cs hits
  | [], _ => ⟨[], rfl, .nil⟩
  | c :: cs, h => by
    rw [List.forall_mem_cons] at h
    obtain ⟨n, h1, h2, h3⟩ := subHits_spec (sub := sub) h.1
    obtain ⟨hits, h4, h5⟩ := mapM_hits (sub := sub) h.2
    refine ⟨n :: hits, ?_, .cons ⟨h2, h3⟩ h5⟩
    rw [List.mapM_cons, h1, h4]
    rfl

section
variable (tokens : List T) (sub : T × T)

mutual
theorem subMatch_nested : ∀ (n : PNode), RangeOk n → (∀ x, InTree x n → LookupOk tokens.length x) →
    (∀ x, InTree x n → Chainless tokens sub x.children) →
    ∃ n', n.subMatch tokens sub = .ok n' ∧ Nested tokens sub n n'
  | .mk lo hi ann cs, hr, hp, hc => by
    have ih := subMatchList_nested cs
    obtain ⟨a, b, ht⟩ : ∃ a b, RangesTile a b cs := by
      cases hr with
      | leaf _ => exact ⟨0, 0, .nil _⟩
      | inner _ ht => exact ⟨_, _, ht⟩
    have hp' : LookupsOk tokens.length cs := fun x hx => hp x (.child hx)
    obtain ⟨cs', h1, h2⟩ := ih a b ht hp' (fun x hx => hc x (.child hx))
    have h3 := (subMatchList_same tokens sub _ _ _ _ _ h1 ht hp').2
    obtain ⟨hits, h4, h5⟩ := mapM_hits (tokens := tokens) (sub := sub) (cs := cs) (fun c hcm x hx =>
      inTrees_children (P := LookupOk tokens.length) hp' (inTrees_iff.mpr ⟨c, hcm, .self⟩) x hx)
    obtain ⟨r, L', h6, h7, h8⟩ := transplants_joined tokens sub cs cs' hits 0 a b [] ht
      (hc _ .self) h5 h3 (by simp)
    rw [← subMoves_from h4 ht hp', List.nil_append, ← List.range_eq_range'] at h7
    simp only [List.map_nil, List.nil_append] at h8
    refine ⟨.mk lo hi ann r, ?_, .mk h2 h6⟩
    unfold PNode.subMatch
    by_cases ha : ann = .paired
    · subst ha
      obtain ⟨q, hq⟩ := pairTokens_ok tokens (hp _ .self) rfl
      have hq' : pairTokens tokens cs = .ok q := hq
      simp [hq', h4, h1, h7, h8, bind, Except.bind, pure, Except.pure]
    · simp [ha, h4, h1, h7, h8, bind, Except.bind, pure, Except.pure]

theorem subMatchList_nested : ∀ (cs : List PNode) (a b : Nat), RangesTile a b cs →
    LookupsOk tokens.length cs → (∀ x, InTrees x cs → Chainless tokens sub x.children) →
    ∃ cs', PNode.subMatchList tokens sub cs = .ok cs' ∧ NestedList tokens sub cs cs'
  | [], _, _, _, _, _ => ⟨[], by unfold PNode.subMatchList; rfl, .nil⟩
  | c :: cs, a, b, ht, hp, hc => by
    have ih := subMatch_nested c
    have ih' := subMatchList_nested cs
    rw [LookupsOk.cons] at hp
    cases ht with
    | cons h3 h4 =>
      obtain ⟨c', h1, h2⟩ := ih h3 hp.1 (fun x hx => hc x (.here hx))
      obtain ⟨cs', h5, h6⟩ := ih' _ _ h4 hp.2 (fun x hx => hc x (.there hx))
      refine ⟨c' :: cs', ?_, .cons h2 h6⟩
      unfold PNode.subMatchList
      simp [h1, h5, bind, Except.bind, pure, Except.pure]
end

end

end RUSure.Lemmas
