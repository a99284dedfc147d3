import Verif.Spec.Subtokenizer
import Mathlib.Data.List.Chain
import Mathlib.Tactic.Push

/-! # Loop invariant of the subtokenizer -/

namespace RUSure.Lemmas
open RUSure RUSure.Spec

theorem state_ne_initial (K : CharClass) (c : Char) : K.state c ≠ .initial := by
  unfold CharClass.state
  split
  · simp
  · split
    · simp
    · split <;> simp

theorem SplitReason.snoc {K : CharClass} {a b : Text} (h : SplitReason K a b) (c : Char) :
    SplitReason K a (b ++ [c]) := by
  obtain ⟨a', x, y, b', rfl, rfl, h⟩ := h
  refine ⟨a', x, y, b' ++ [c], rfl, by simp, ?_⟩
  rcases h with h | ⟨h1, h2, z, b'', rfl, h3⟩ | h
  · exact .inl h
  · exact .inr (.inl ⟨h1, h2, z, b'' ++ [c], by simp, h3⟩)
  · exact .inr (.inr h)

/-- What the pending characters look like in each state. -/
def MemShape (K : CharClass) (st : SubState) (m : List Char) : Prop :=
  match st with
  | .initial => m = []
  | .lower => ∃ u ls, m = u :: ls ∧ (K.state u = .upper ∨ K.state u = .lower)
      ∧ (K.state u = .upper → ls ≠ []) ∧ ∀ c ∈ ls, K.state c = .lower
  | st => m ≠ [] ∧ ∀ c ∈ m, K.state c = st

structure SubInv (K : CharClass) (done : Text) (L : SubLoop) : Prop where
  concat : L.tokens.flatten ++ L.memory = done
  toks : ∀ t ∈ L.tokens, TokenShape K t ∧ (K.Sane → SpaceShape K t)
  mem : MemShape K L.state L.memory
  init : L.state = .initial → L.tokens = []
  prev : L.prev = L.memory.getLast?
  last : ∀ x, L.memory.getLast? = some x → K.state x = L.state
  space : K.Sane → SpaceShape K L.memory
  chain : L.memory ≠ [] → List.IsChain (SplitReason K) (L.tokens ++ [L.memory])

theorem memShape_tokenShape {K : CharClass} {st : SubState} {m : List Char}
    (h : MemShape K st m) : TokenShape K m := by
  cases st with
  | initial => left; exact ⟨.upper, by simp [show m = [] from h]⟩
  | upper => exact .inl ⟨_, h.2⟩
  | number => exact .inl ⟨_, h.2⟩
  | special => exact .inl ⟨_, h.2⟩
  | lower =>
    obtain ⟨u, ls, rfl, hu, -, hl⟩ := h
    rcases hu with hu | hu
    · exact .inr ⟨u, ls, rfl, hu, hl⟩
    · refine .inl ⟨.lower, ?_⟩
      simp only [List.mem_cons, forall_eq_or_imp]
      exact ⟨hu, hl⟩

theorem memShape_single (K : CharClass) (c : Char) : MemShape K (K.state c) [c] := by
  have h0 := state_ne_initial K c
  generalize hk : K.state c = k at *
  cases k with
  | lower => exact ⟨c, [], rfl, .inr hk, by simp [hk], by simp⟩
  | _ => simp_all [MemShape]

theorem spaceShape_single (K : CharClass) (c : Char) : SpaceShape K [c] := by
  simp [SpaceShape]

theorem spaceShape_nospace {K : CharClass} {m : Text} (h : ∀ c ∈ m, K.isSpace c = false) :
    SpaceShape K m := by
  refine ⟨?_, ?_, ?_⟩ <;> intro c hc hs <;> simp [h c hc] at hs

theorem not_space_of_state {K : CharClass} (hS : K.Sane) {c : Char} (h : K.state c ≠ .special) :
    K.isSpace c = false := by
  cases hc : K.isSpace c with
  | false => rfl
  | true => exact absurd (hS.special c hc) h

theorem isChain_snoc {α : Type} {R : α → α → Prop} {l : List α} {a b : α}
    (h : List.IsChain R (l ++ [a])) (hr : R a b) : List.IsChain R (l ++ [a] ++ [b]) := by
  rw [List.isChain_append]
  refine ⟨h, by simp, ?_⟩
  intro x hx y hy
  simp at hx hy
  subst hx; subst hy; exact hr

theorem isChain_replace {α : Type} {R : α → α → Prop} {l : List α} {a b : α}
    (h : List.IsChain R (l ++ [a])) (hr : ∀ x, R x a → R x b) : List.IsChain R (l ++ [b]) := by
  rw [List.isChain_append] at h ⊢
  refine ⟨h.1, by simp, ?_⟩
  intro x hx y hy
  simp at hy
  subst hy
  exact hr _ (h.2.2 x hx a (by simp))

/-- Flushing the whole memory. -/
theorem subInv_flush {K : CharClass} {done : Text} {L : SubLoop} (h : SubInv K done L) (c : Char)
    (hs : subSplit K L.state L.memory L.prev c = ([L.memory], []))
    (hr : SplitReason K L.memory [c]) : SubInv K (done ++ [c]) (subStep K L c) := by
  have hne : L.memory ≠ [] := by
    obtain ⟨a', x, y, b', hm, -⟩ := hr
    simp [hm]
  unfold subStep
  rw [hs]
  refine ⟨?_, ?_, ?_, ?_, ?_, ?_, ?_, ?_⟩
  · rw [← h.concat]; simp
  · intro t ht
    simp only [List.mem_append, List.mem_singleton] at ht
    rcases ht with ht | rfl
    · exact h.toks t ht
    · exact ⟨memShape_tokenShape h.mem, h.space⟩
  · exact memShape_single K c
  · intro he; exact absurd he (state_ne_initial K c)
  · simp
  · simp
  · intro _; exact spaceShape_single K c
  · intro _
    simpa using isChain_snoc (h.chain hne) hr

/-- Keeping the whole memory. -/
theorem subInv_keep {K : CharClass} {done : Text} {L : SubLoop} (h : SubInv K done L) (c : Char)
    (hs : subSplit K L.state L.memory L.prev c = ([], L.memory))
    (hm : MemShape K (K.state c) (L.memory ++ [c]))
    (hsp : K.Sane → SpaceShape K (L.memory ++ [c])) : SubInv K (done ++ [c]) (subStep K L c) := by
  unfold subStep
  rw [hs]
  refine ⟨?_, ?_, hm, ?_, ?_, ?_, hsp, ?_⟩
  · rw [← h.concat]; simp
  · simpa using h.toks
  · intro he; exact absurd he (state_ne_initial K c)
  · simp
  · simp
  · intro _
    by_cases hne : L.memory = []
    · have hi : L.state = .initial := by
        have := h.mem
        rw [hne] at this
        revert this
        cases L.state <;> simp [MemShape]
      simp [h.init hi]
    · simpa using isChain_replace (h.chain hne) (fun x hx => SplitReason.snoc hx c)

theorem subInv_step {K : CharClass} {done : Text} {L : SubLoop} (h : SubInv K done L) (c : Char) :
    SubInv K (done ++ [c]) (subStep K L c) := by
  by_cases hnt : normalTransition L.state (K.state c) = true
  · -- class change
    have hne : L.memory ≠ [] := by
      intro hn
      have hmem := h.mem
      rw [hn] at hmem
      revert hmem hnt
      cases L.state <;> simp [MemShape, normalTransition]
    obtain ⟨a', x, hx⟩ := (List.eq_nil_or_concat L.memory).resolve_left hne
    apply subInv_flush h c
    · simp [subSplit, hnt]
    · refine ⟨a', x, c, [], by simpa using hx, rfl, .inl ?_⟩
      have hxs : K.state x = L.state := h.last x (by simp [hx])
      rw [hxs]
      generalize L.state = s at hnt
      generalize K.state c = k at hnt
      cases s <;> cases k <;> simp_all [normalTransition]
  · by_cases hul : L.state = .upper ∧ K.state c = .lower ∧ L.memory.length > 1
    · -- camel case boundary
      obtain ⟨h1, h2, h3⟩ := hul
      have hmem := h.mem
      rw [h1] at hmem
      obtain ⟨hne, hall⟩ := hmem
      obtain ⟨a', x, hx⟩ := (List.eq_nil_or_concat L.memory).resolve_left hne
      simp only [List.concat_eq_append] at hx
      have ha' : a' ≠ [] := by rintro rfl; simp [hx] at h3
      have hs : subSplit K L.state L.memory L.prev c = ([a'], [x]) := by
        unfold subSplit
        simp only [if_neg hnt]
        rw [if_pos ⟨h1, h2, h3⟩, hx]
        simp
      have hxu : K.state x = .upper := hall x (by simp [hx])
      have ha'u : ∀ d ∈ a', K.state d = .upper := fun d hd => hall d (by simp [hx, hd])
      unfold subStep
      rw [hs]
      refine ⟨?_, ?_, ?_, ?_, ?_, ?_, ?_, ?_⟩
      · rw [← h.concat, hx]; simp
      · intro t ht
        simp only [List.mem_append, List.mem_singleton] at ht
        rcases ht with ht | rfl
        · exact h.toks t ht
        · refine ⟨.inl ⟨_, ha'u⟩, fun hS => spaceShape_nospace fun d hd => ?_⟩
          exact not_space_of_state hS (by simp [ha'u d hd])
      · show MemShape K (K.state c) _
        rw [h2]
        exact ⟨x, [c], rfl, .inl hxu, by simp, by simpa using h2⟩
      · intro he; exact absurd he (state_ne_initial K c)
      · simp
      · simp
      · intro hS
        apply spaceShape_nospace
        simp only [List.cons_append, List.nil_append, List.mem_cons, List.not_mem_nil, or_false,
          forall_eq_or_imp, forall_eq]
        exact ⟨not_space_of_state hS (by simp [hxu]), not_space_of_state hS (by simp [h2])⟩
      · intro _
        have hc1 : List.IsChain (SplitReason K) (L.tokens ++ [a']) := by
          refine isChain_replace (h.chain hne) ?_
          rintro t ⟨b0, z, y, b', rfl, hb, hr⟩
          rw [hx] at hb
          cases a' with
          | nil => exact absurd rfl ha'
          | cons y' a'' =>
            simp only [List.cons_append, List.cons.injEq] at hb
            obtain ⟨rfl, rfl⟩ := hb
            refine ⟨b0, z, y', a'', rfl, rfl, ?_⟩
            have hy : K.state y' = .upper := ha'u y' (by simp)
            rcases hr with hr | ⟨-, -, w, b'', hw, hlw⟩ | hr
            · exact .inl hr
            · have : K.state w = .upper := hall w (by simp [hx, hw])
              rw [this] at hlw; simp at hlw
            · rw [hy] at hr; simp at hr
        obtain ⟨a2, w, hw⟩ := (List.eq_nil_or_concat a').resolve_left ha'
        simp only [List.concat_eq_append] at hw
        refine isChain_snoc hc1 ⟨a2, w, x, [c], hw, by simp, .inr (.inl ?_)⟩
        exact ⟨ha'u w (by simp [hw]), hxu, c, [], rfl, h2⟩
    · by_cases hss : L.state = .special ∧ K.state c = .special
      · obtain ⟨h1, h2⟩ := hss
        have hmem := h.mem
        rw [h1] at hmem
        obtain ⟨hne, hall⟩ := hmem
        obtain ⟨a', x, hx⟩ := (List.eq_nil_or_concat L.memory).resolve_left hne
        simp only [List.concat_eq_append] at hx
        have hprev : L.prev = some x := by rw [h.prev, hx]; simp
        have hxs : K.state x = .special := hall x (by simp [hx])
        have hms : MemShape K (K.state c) (L.memory ++ [c]) := by
          rw [h2]
          refine ⟨by simp, ?_⟩
          intro d hd
          simp only [List.mem_append, List.mem_singleton] at hd
          rcases hd with hd | rfl
          · exact hall d hd
          · exact h2
        by_cases hb : (c = ' ' ∨ c = '\t') ∧ x = c
        · obtain ⟨hb1, rfl⟩ := hb
          by_cases hl : L.memory.length ≥ 20
          · apply subInv_flush h x
            · simp [subSplit, hprev, h1, hb1, hl, h2, normalTransition]
            · exact ⟨a', x, x, [], hx, rfl, .inr (.inr ⟨hxs, h2, .inl ⟨rfl, hb1, hl⟩⟩)⟩
          · apply subInv_keep h x _ hms
            · intro hS
              have hsp : K.isSpace x = true := by
                rcases hb1 with rfl | rfl
                · exact hS.blank
                · exact hS.tab
              have hallx : ∀ d ∈ L.memory, d = x :=
                fun d hd => (h.space hS).1 x (by simp [hx]) hsp d hd
              have hallx' : ∀ d ∈ L.memory ++ [x], d = x := by
                intro d hd
                simp only [List.mem_append, List.mem_singleton] at hd
                rcases hd with hd | rfl
                · exact hallx d hd
                · rfl
              refine ⟨fun d hd _ e he => ?_, fun d hd _ => ?_, fun d hd _ => ?_⟩
              · rw [hallx' d hd, hallx' e he]
              · simp; omega
              · right; rw [hallx' d hd]; exact hb1
            · simp [subSplit, hprev, h1, hb1, hl, h2, normalTransition]
        · have hb' : ¬ ((c = ' ' ∨ c = '\t') ∧ some c = L.prev) := by
            rw [hprev]
            intro ⟨h3, h4⟩
            exact hb ⟨h3, by simpa using h4.symm⟩
          by_cases hsp : K.isSpace c = true ∨ K.isSpace x = true
          · apply subInv_flush h c
            · unfold subSplit
              simp only [if_neg hnt, if_neg hul]
              rw [if_pos ⟨h1, h2⟩, if_neg hb', if_pos (by simpa [hprev] using hsp)]
            · refine ⟨a', x, c, [], hx, rfl, .inr (.inr ⟨hxs, h2, .inr ⟨?_, hsp.symm⟩⟩)⟩
              intro ⟨h3, h4⟩
              exact hb ⟨h4, h3⟩
          · apply subInv_keep h c _ hms
            · intro hS
              apply spaceShape_nospace
              push Not at hsp
              intro d hd
              simp only [List.mem_append, List.mem_singleton] at hd
              rcases hd with hd | rfl
              · cases hds : K.isSpace d with
                | false => rfl
                | true =>
                  have := (h.space hS).1 d hd hds x (by simp [hx])
                  subst this
                  exact absurd hds hsp.2
              · simpa using hsp.1
            · unfold subSplit
              simp only [if_neg hnt, if_neg hul]
              rw [if_pos ⟨h1, h2⟩, if_neg hb', if_neg (by simpa [hprev] using hsp)]
      · -- no split
        have hs : subSplit K L.state L.memory L.prev c = ([], L.memory) := by
          unfold subSplit
          simp only [if_neg hnt, if_neg hul]
          rw [if_neg hss]
        have h0 := state_ne_initial K c
        have hmem := h.mem
        have hms : MemShape K (K.state c) (L.memory ++ [c]) := by
          cases hst : L.state with
          | initial =>
            rw [hst] at hmem
            rw [show L.memory = [] from hmem]
            exact memShape_single K c
          | special =>
            exfalso; revert hnt hss h0; rw [hst]
            cases K.state c <;> simp [normalTransition]
          | number =>
            rw [hst] at hmem hnt
            have hk : K.state c = .number := by
              revert hnt h0; cases K.state c <;> simp [normalTransition]
            rw [hk]
            refine ⟨by simp, fun d hd => ?_⟩
            simp only [List.mem_append, List.mem_singleton] at hd
            rcases hd with hd | rfl
            · exact hmem.2 d hd
            · exact hk
          | upper =>
            rw [hst] at hmem hnt
            cases hk : K.state c with
            | initial => exact absurd hk h0
            | number => simp [hk, normalTransition] at hnt
            | special => simp [hk, normalTransition] at hnt
            | upper =>
              refine ⟨by simp, fun d hd => ?_⟩
              simp only [List.mem_append, List.mem_singleton] at hd
              rcases hd with hd | rfl
              · exact hmem.2 d hd
              · exact hk
            | lower =>
              have hl : ¬ L.memory.length > 1 := fun hl => hul ⟨hst, hk, hl⟩
              cases hm : L.memory with
              | nil => exact absurd hm hmem.1
              | cons u ls =>
                cases ls with
                | nil =>
                  exact ⟨u, [c], by simp, .inl (hmem.2 u (by simp [hm])), by simp, by simpa using hk⟩
                | cons v ls => simp [hm] at hl
          | lower =>
            rw [hst] at hmem hnt
            have hk : K.state c = .lower := by
              revert hnt h0; cases K.state c <;> simp [normalTransition]
            rw [hk]
            obtain ⟨u, ls, hm, hu, hul', hls⟩ := hmem
            refine ⟨u, ls ++ [c], by simp [hm], hu, by simp, fun d hd => ?_⟩
            simp only [List.mem_append, List.mem_singleton] at hd
            rcases hd with hd | rfl
            · exact hls d hd
            · exact hk
        apply subInv_keep h c hs hms
        intro hS
        by_cases hsc : K.state c = .special
        · -- only possible from the initial state
          have : L.memory = [] := by
            rw [hsc] at hnt hss
            revert hnt hss hmem
            cases L.state <;> simp [normalTransition, MemShape]
          rw [this]
          exact spaceShape_single K c
        · apply spaceShape_nospace
          intro d hd
          apply not_space_of_state hS
          generalize K.state c = k at hms hsc
          cases k with
          | initial => simp [MemShape] at hms
          | special => exact absurd rfl hsc
          | upper => rw [hms.2 d hd]; simp
          | number => rw [hms.2 d hd]; simp
          | lower =>
            obtain ⟨u, ls, hm, hu, -, hls⟩ := hms
            rw [hm] at hd
            rcases List.mem_cons.1 hd with rfl | hd
            · rcases hu with hu | hu <;> rw [hu] <;> simp
            · rw [hls d hd]; simp

theorem subInv_fold (K : CharClass) (code : Text) :
    SubInv K code (code.foldl (subStep K) ⟨[], .initial, [], none⟩) := by
  suffices H : ∀ (rest done : Text) (L : SubLoop), SubInv K done L →
      SubInv K (done ++ rest) (rest.foldl (subStep K) L) by
    apply H code [] _
    exact ⟨rfl, by simp, rfl, by simp, rfl, by simp, fun _ => by simp [SpaceShape], by simp⟩
  intro rest
  induction rest with
  | nil => intro done L h; simpa using h
  | cons c rest ih =>
    intro done L h
    have := ih _ _ (subInv_step h c)
    simpa using this

end RUSure.Lemmas
