import Verif.Lemmas.Suggestion

/-!
# Sequences in which a set of markers encloses regions
-/

namespace RUSure.Lemmas
open RUSure RUSure.Spec RUSure.Props
variable {M : Type}

/-- The markers of the set enclose disjoint regions with text, each among siblings; and this is what is
shown. -/
inductive Blocks (P : Nat → Bool) : List (Placed M) → List MarkedToken → Prop
  | nil : Blocks P [] []
  | plain {x r out} : P x.idx = false → Blocks P r out → Blocks P (x :: r) (flagged false x.text.toList ++ out)
  | region {s B e r out} : s.node = .rstart → P s.idx = true → (∀ x ∈ B, P x.idx = false) → (∃ x ∈ B, x.text ≠ none) →
      e.node = .rend → P e.idx = true → e.path.dropLast = s.path.dropLast → Blocks P r out →
      Blocks P (s :: (B ++ e :: r)) (flagged true (B.filterMap Placed.text) ++ out)

theorem blocks_plain {P : Nat → Bool} : ∀ (A : List (Placed M)) {r : List (Placed M)} {out : List MarkedToken},
    (∀ x ∈ A, P x.idx = false) → Blocks P r out → Blocks P (A ++ r) (flagged false (A.filterMap Placed.text) ++ out)
  | [], _, _, _, h => h
  | x :: A, r, out, hA, h => by
    have := Blocks.plain (hA x (by simp)) (blocks_plain A (fun y hy => hA y (by simp [hy])) h)
    rw [List.filterMap_cons]
    cases ht : x.text with
    | none => simpa [ht, flagged] using this
    | some t => simpa [ht, flagged] using this

theorem mark_unused {P : Nat → Bool} {x : Placed M} (h : P x.idx = false) : x.mark (usedOnly P) = none := by
  obtain ⟨i, p, n⟩ := x
  cases n <;> simp_all [Placed.mark, usedOnly]

theorem mark_start {P : Nat → Bool} {x : Placed M} (hn : x.node = .rstart) (h : P x.idx = true) :
    x.mark (usedOnly P) = some true := by
  simp [Placed.mark, usedOnly, hn, h]

theorem mark_end {P : Nat → Bool} {x : Placed M} (hn : x.node = .rend) (h : P x.idx = true) :
    x.mark (usedOnly P) = some false := by
  simp [Placed.mark, usedOnly, hn, h]

theorem exits_byMarkers (proto : List (Node M)) (P : Nat → Bool) (x : Placed M) :
    x.exits (byMarkers proto P) = false := by
  obtain ⟨i, p, n⟩ := x
  cases n <;> simp [Placed.exits, byMarkers]

theorem inRegionAfter_unmarked {α : DecisionKey → DecisionValue} : ∀ (B l : List (Placed M)),
    (∀ x ∈ B, x.mark α = none) → inRegionAfter α (l ++ B) = inRegionAfter α l
  | [], l, _ => by simp
  | x :: B, l, h => by
    rw [show l ++ x :: B = (l ++ [x]) ++ B by simp, inRegionAfter_unmarked B _ fun y hy => h y (by simp [hy]),
      inRegionAfter_snoc, h x (by simp)]
    rfl

theorem split_append {A : Type} {B r l r' : List A} {e x : A} (h : B ++ e :: r = l ++ x :: r') :
    (∃ m, B = l ++ x :: m) ∨ (l = B ∧ x = e ∧ r' = r) ∨ ∃ m, l = B ++ e :: m ∧ r = m ++ x :: r' := by
  rcases List.append_eq_append_iff.mp h with ⟨a, h1, h2⟩ | ⟨a, h1, h2⟩
  · cases a with
    | nil =>
      simp only [List.nil_append, List.cons.injEq] at h2
      exact .inr (.inl ⟨by simpa using h1, h2.1.symm, h2.2.symm⟩)
    | cons y a =>
      simp only [List.cons_append, List.cons.injEq] at h2
      exact .inr (.inr ⟨a, by rw [h1, h2.1], h2.2⟩)
  · cases a with
    | nil =>
      simp only [List.nil_append, List.cons.injEq] at h2
      exact .inr (.inl ⟨by simpa using h1.symm, h2.1, h2.2⟩)
    | cons y a =>
      simp only [List.cons_append, List.cons.injEq] at h2
      exact .inl ⟨a, by rw [h1, h2.1]⟩

section
variable {P : Nat → Bool} {R : List (Placed M)} {out : List MarkedToken}

theorem blocks_alternate (h : Blocks P R out) : ∀ l, inRegionAfter (usedOnly P) l = false → ∀ l' x r',
    R = l' ++ x :: r' → P x.idx = true → (x.node = .rstart ∧ inRegionAfter (usedOnly P) (l ++ l') = false)
      ∨ (x.node = .rend ∧ inRegionAfter (usedOnly P) (l ++ l') = true) := by
  induction h with
  | nil => intro l _ l' x r' h; simp at h
  | @plain y r out hy _ ih =>
    intro l hl l' x r' h hx
    cases l' with
    | nil =>
      simp only [List.nil_append, List.cons.injEq] at h
      rw [← h.1, hy] at hx
      cases hx
    | cons z l' =>
      simp only [List.cons_append, List.cons.injEq] at h
      obtain ⟨rfl, h⟩ := h
      have := ih (l ++ [y]) (by rw [inRegionAfter_snoc, mark_unused hy]; exact hl) l' x r' h hx
      simpa using this
  | @region s B e r out hs hps hB _ he hpe _ _ ih =>
    intro l hl l' x r' h hx
    have hin : inRegionAfter (usedOnly P) (l ++ s :: B) = true := by
      rw [show l ++ s :: B = (l ++ [s]) ++ B by simp, inRegionAfter_unmarked B _ fun y hy => mark_unused (hB y hy),
        inRegionAfter_snoc, mark_start hs hps]
      rfl
    cases l' with
    | nil =>
      simp only [List.nil_append, List.cons.injEq] at h
      left
      rw [← h.1]
      exact ⟨hs, by simpa using hl⟩
    | cons z l' =>
      simp only [List.cons_append, List.cons.injEq] at h
      obtain ⟨rfl, h⟩ := h
      rcases split_append h with ⟨m, rfl⟩ | ⟨rfl, rfl, -⟩ | ⟨m, rfl, h'⟩
      · rw [hB x (by simp)] at hx
        cases hx
      · exact .inr ⟨he, hin⟩
      · have := ih (l ++ s :: B ++ [e]) (by rw [inRegionAfter_snoc, mark_end he hpe]; rfl) m x r' h' hx
        simpa using this

theorem blocks_closes (proto : List (Node M)) (h : Blocks P R out) : ∀ l' x r',
    R = l' ++ x :: r' → x.mark (usedOnly P) = some true → x.Closes (byMarkers proto P) r' := by
  induction h with
  | nil => intro l' x r' h; simp at h
  | @plain y r out hy _ ih =>
    intro l' x r' h hx
    cases l' with
    | nil =>
      simp only [List.nil_append, List.cons.injEq] at h
      rw [← h.1, mark_unused hy] at hx
      cases hx
    | cons z l' =>
      simp only [List.cons_append, List.cons.injEq] at h
      exact ih l' x r' h.2 hx
  | @region s B e r out hs hps hB _ he hpe hpath _ ih =>
    intro l' x r' h hx
    cases l' with
    | nil =>
      simp only [List.nil_append, List.cons.injEq] at h
      obtain ⟨rfl, rfl⟩ := h
      refine ⟨B, e, r, rfl, fun y hy => ⟨?_, exits_byMarkers proto P y⟩, .inl ⟨?_, hpath⟩⟩
      · rw [mark_byMarkers, mark_unused (hB y hy)]
        simp
      · rw [mark_byMarkers, mark_end he hpe]
    | cons z l' =>
      simp only [List.cons_append, List.cons.injEq] at h
      obtain ⟨rfl, h⟩ := h
      rcases split_append h with ⟨m, rfl⟩ | ⟨rfl, rfl, -⟩ | ⟨m, rfl, h'⟩
      · rw [mark_unused (hB x (by simp))] at hx
        cases hx
      · rw [mark_end he hpe] at hx
        cases hx
      · exact ih m x r' h' hx

theorem annotated_append {α : DecisionKey → DecisionValue} (marker : Text) : ∀ (r s l : List (Placed M)),
    annotated α marker l (r ++ s) = annotated α marker l r ++ annotated α marker (l ++ r) s
  | [], s, l => by simp [annotated]
  | x :: r, s, l => by
    rw [List.cons_append, annotated, annotated, annotated_append marker r s (l ++ [x])]
    simp

theorem annotated_unmarked {α : DecisionKey → DecisionValue} (marker : Text) : ∀ (r l : List (Placed M)),
    (∀ x ∈ r, x.mark α = none) →
    annotated α marker l r = flagged (inRegionAfter α l) (r.filterMap Placed.text)
  | [], l, _ => rfl
  | x :: r, l, h => by
    rw [annotated, annotated_unmarked marker r _ fun y hy => h y (by simp [hy]), inRegionAfter_snoc, h x (by simp),
      List.filterMap_cons]
    unfold shown
    cases x.text with
    | none => simp [h x (by simp), flagged]
    | some t => simp [flagged]

theorem annotated_congr {α β : DecisionKey → DecisionValue} (marker : Text) (h : ∀ x : Placed M, x.mark α = x.mark β) :
    ∀ (r l : List (Placed M)), annotated α marker l r = annotated β marker l r
  | [], _ => rfl
  | x :: r, l => by
    rw [annotated, annotated, annotated_congr marker h r]
    congr 1
    have hn : noTextAfter α l = noTextAfter β l := by
      unfold noTextAfter
      simp only [h]
    unfold shown
    rw [inRegionAfter_congr fun y _ => h y, h, hn]

theorem noText_false {α : DecisionKey → DecisionValue} {B l : List (Placed M)} (hB : ∀ x ∈ B, x.mark α = none)
    (ht : ∃ x ∈ B, x.text ≠ none) : noTextAfter α (l ++ B) = false := by
  unfold noTextAfter
  rw [List.reverse_append, List.takeWhile_append_of_pos (by simpa using hB), ← Bool.not_eq_true, List.all_eq_true]
  intro h
  obtain ⟨x, hx, hne⟩ := ht
  have := h x (by simp [hx])
  simp_all

theorem blocks_annotated (marker : Text) (h : Blocks P R out) : ∀ l, inRegionAfter (usedOnly P) l = false →
    annotated (usedOnly P) marker l R = out := by
  induction h with
  | nil => intro l _; rfl
  | @plain y r out hy _ ih =>
    intro l hl
    rw [annotated, ih (l ++ [y]) (by rw [inRegionAfter_snoc, mark_unused hy]; exact hl)]
    congr 1
    unfold shown
    rw [hl, mark_unused hy]
    cases y.text <;> simp [flagged]
  | @region s B e r out hs hps hB ht he hpe _ _ ih =>
    intro l hl
    have hmB : ∀ x ∈ B, x.mark (usedOnly P) = none := fun y hy => mark_unused (hB y hy)
    have hse : e.mark (usedOnly P) = some false := mark_end he hpe
    rw [annotated, annotated_append, annotated_unmarked marker B _ hmB, inRegionAfter_snoc, mark_start hs hps, annotated,
      ih _ (by rw [inRegionAfter_snoc, hse]; rfl)]
    have h1 : shown (usedOnly P) marker l s = [] := by
      unfold shown
      rw [mark_start hs hps]
      simp [Placed.text, hs]
    have h2 : shown (usedOnly P) marker (l ++ [s] ++ B) e = [] := by
      unfold shown
      rw [noText_false hmB ht]
      simp [Placed.text, he]
    rw [h1, h2]
    rfl

end

theorem alternate_wellFormed {proto : List (Node M)} {P : Nat → Bool} (halt : Alternate proto P)
    (hc : ∀ l x r, placed proto = l ++ x :: r → x.mark (usedOnly P) = some true → x.Closes (byMarkers proto P) r) :
    WellFormedRegions (byMarkers proto P) proto := by
  refine ⟨fun l x r h _ => ?_, fun l x r h _ hx => hc l x r h (by rw [← mark_byMarkers proto]; exact hx),
    fun l x r h _ hx => ?_⟩
  · rw [inRegionAfter_byMarkers]
    have ht := take_placed h
    have ha := halt l x r h
    obtain ⟨i, p, n⟩ := x
    dsimp only at ht ha
    cases n with
    | deco t => trivial
    | tok t mt => simp only [Placed.Ok, byMarkers, ht]
    | group cs mt => simp only [Placed.Ok, byMarkers, ht]
    | exit => simp [Placed.Ok, byMarkers]
    | rstart =>
      simp only [Placed.Ok, byMarkers, ht]
      by_cases hp : P i = true
      · rcases ha hp with ⟨-, h⟩ | ⟨h, -⟩
        · simp [hp, h]
        · cases h
      · rw [if_neg hp]
        cases inRegionAfter (usedOnly P) l <;> simp
    | rend =>
      simp only [Placed.Ok, byMarkers, ht]
      by_cases hp : P i = true
      · rcases ha hp with ⟨h, -⟩ | ⟨-, h⟩
        · cases h
        · simp [hp, h]
      · rw [if_neg hp]
        cases inRegionAfter (usedOnly P) l <;> simp
  · rw [exits_byMarkers] at hx
    cases hx

/-- Decisions on all markers have at most one completion. -/
theorem wellFormed_unique {proto : List (Node M)} {P : Nat → Bool} {β : DecisionKey → DecisionValue}
    (hx : ∀ x ∈ placed proto, x.node ≠ .exit) (hβ : WellFormedRegions β proto)
    (ha : ∀ k ∈ (placed proto).filterMap markerKey, β k = byMarkers proto P k) :
    ∀ k ∈ seqKeys 0 proto, β k = byMarkers proto P k := by
  intro k hk
  obtain ⟨x, hmem, hkey⟩ := placed_key_of_mem hk
  have hmark : ∀ y ∈ placed proto, y.mark β = y.mark (usedOnly P) := by
    intro y hy
    rw [← mark_byMarkers proto]
    obtain ⟨i, p, n⟩ := y
    have : ∀ k, markerKey (⟨i, p, n⟩ : Placed M) = some k → β k = byMarkers proto P k :=
      fun k hk => ha k (List.mem_filterMap.mpr ⟨_, hy, hk⟩)
    cases n with
    | rstart => simp only [Placed.mark, this _ rfl]
    | rend => simp only [Placed.mark, this _ rfl]
    | _ => rfl
  obtain ⟨l, r, hl⟩ := List.append_of_mem hmem
  have hex : ∀ y ∈ l, y.exits β = false := by
    intro y hy
    have := hx y (by rw [hl]; simp [hy])
    obtain ⟨i, p, n⟩ := y
    cases n <;> simp [Placed.exits] at this ⊢
  have hok := hβ.nodes l x r hl hex
  rw [inRegionAfter_congr fun y hy => hmark y (by rw [hl]; simp [hy])] at hok
  have ht := take_placed hl
  have hne := hx x hmem
  have ham : ∀ k, markerKey x = some k → β k = byMarkers proto P k :=
    fun k hk => ha k (List.mem_filterMap.mpr ⟨_, hmem, hk⟩)
  obtain ⟨i, p, n⟩ := x
  cases n with
  | deco t => simp [Placed.key] at hkey
  | tok t mt =>
    simp only [Placed.key, Option.some.injEq] at hkey
    subst hkey
    simp only [Placed.Ok] at hok
    rw [hok]
    simp only [byMarkers]
    dsimp only at ht
    rw [ht]
  | group cs mt =>
    simp only [Placed.key, Option.some.injEq] at hkey
    subst hkey
    simp only [Placed.Ok] at hok
    rw [hok]
    simp only [byMarkers]
    dsimp only at ht
    rw [ht]
  | rstart => exact ham k hkey
  | rend => exact ham k hkey
  | exit => simp at hne

theorem kept_byMarkers (proto : List (Node M)) (P : Nat → Bool) : kept (byMarkers proto P) proto = placed proto := by
  unfold kept
  exact takeWhile_all fun x _ => by rw [exits_byMarkers]; rfl

/-- Markers that enclose regions determine what is shown. -/
theorem blocks_determine {proto : List (Node CallType)} {P : Nat → Bool} {indices : List Int} {out : List MarkedToken}
    (hb : Blocks P (placed proto) out) (hx : ∀ x ∈ placed proto, x.node ≠ .exit)
    (hP : ∀ n : Nat, (n : Int) ∈ indices ↔ P n = true)
    (hmem : ∀ i ∈ indices, ∃ x ∈ placed proto, i = (x.idx : Int)) :
    ∃ d, makeSuggestion (pack proto) indices = .ok d ∧ Determines proto d out := by
  have halt : Alternate proto P := fun l x r h hp => by
    have := blocks_alternate hb [] rfl l x r h hp
    simpa using this
  obtain ⟨d, h1, hnd, h2⟩ := makeSuggestion_ok halt hP hmem
  have hout : ∀ dag, constructConstraintDag proto = .ok dag → ∀ asg marker,
      (∀ k ∈ seqKeys 0 proto, k.cat ≠ .inRegion → asg k = some (byMarkers proto P k)) →
      extractRegions (pack proto) asg marker = .ok out := by
    intro dag hdag asg marker hasg
    have hacc := (C42_accepts proto dag hdag _).2 (alternate_wellFormed halt (blocks_closes proto hb))
    rw [(C43_accepted proto dag hdag asg _ marker hacc hasg).1, kept_byMarkers,
      annotated_congr marker fun x => mark_byMarkers proto P x, blocks_annotated marker hb [] rfl]
  refine ⟨d, h1, fun dag hdag => ⟨byMarkers proto P, ?_, ?_, ?_, hout dag hdag, ?_⟩⟩
  · exact (C42_accepts proto dag hdag _).2 (alternate_wellFormed halt (blocks_closes proto hb))
  · intro k v hk
    rw [h2] at hk
    split at hk
    · exact Option.some.inj hk
    · cases hk
  · intro β hβ hag
    refine wellFormed_unique hx ((C42_accepts proto dag hdag _).1 hβ) fun k hk => hag k _ ?_
    rw [h2, if_pos hk]
  · have hlook : ∀ kv ∈ d, kv.1 ∈ (placed proto).filterMap markerKey ∧ kv.2 = byMarkers proto P kv.1 := by
      intro kv hkv
      have := lookup_of_mem hnd hkv
      rw [h2] at this
      split at this
      · rename_i hk; exact ⟨hk, (Option.some.inj this).symm⟩
      · cases this
    refine ⟨hnd, fun kv hkv => ?_, fun kv hkv => (hlook kv hkv).2, fun k hk hc => ?_⟩
    · obtain ⟨x, hxm, hxk⟩ := List.mem_filterMap.1 (hlook kv hkv).1
      rw [← filterMap_key_pl proto [] 0 0, ← placed_eq]
      refine List.mem_filterMap.2 ⟨x, hxm, ?_⟩
      obtain ⟨i, pa, n⟩ := x
      cases n <;> simp_all [Placed.key, markerKey]
    · refine ⟨byMarkers proto P k, lookup_mem_codec ?_⟩
      rw [h2, if_pos]
      rw [← filterMap_key_pl proto [] 0 0, ← placed_eq] at hk
      obtain ⟨x, hxm, hxk⟩ := List.mem_filterMap.1 hk
      refine List.mem_filterMap.2 ⟨x, hxm, ?_⟩
      have := hx x hxm
      obtain ⟨i, pa, n⟩ := x
      cases n <;> simp_all [Placed.key, markerKey]
      all_goals subst hxk; simp at hc

end RUSure.Lemmas
