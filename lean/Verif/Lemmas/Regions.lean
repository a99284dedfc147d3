import Verif.Lemmas.ConstraintFlat
import Verif.Props.Pack

/-!
# Extracting annotated sequences
-/

namespace RUSure.Lemmas
open RUSure RUSure.Spec
variable {M : Type} {α : DecisionKey → DecisionValue}

/-- The loop of the extraction, on placed nodes. -/
def planLoop (α : DecisionKey → DecisionValue) (marker : Text) :
    List (Placed M) → Bool → Bool → Except ExtractError (List MarkedToken)
  | [], _, _ => .ok []
  | x :: xs, inr, empty =>
    match x.text with
    | some t => consOk ⟨t, inr⟩ (planLoop α marker xs inr false)
    | none =>
      if x.exits α then .ok []
      else
        match x.mark α with
        | some true => planLoop α marker xs true true
        | some false =>
          if inr then
            if empty then consOk ⟨marker, true⟩ (planLoop α marker xs false false)
            else planLoop α marker xs false false
          else .error .assertion
        | none => planLoop α marker xs inr empty

/-- An id of the storage stands for a placed node whose decision is known. -/
def StandsFor (S : Storage M) (asg : DecisionKey → Option DecisionValue)
    (α : DecisionKey → DecisionValue) (id : NodeId) (x : Placed M) : Prop :=
  id.preorder = x.idx ∧ Represents S id x.node ∧ ∀ k, x.key = some k → k.cat ≠ .inRegion → asg k = some (α k)

theorem regionLoop_plan (S : Storage M) (asg : DecisionKey → Option DecisionValue) (marker : Text)
    {ids : List NodeId} {xs : List (Placed M)} (h : List.Forall₂ (StandsFor S asg α) ids xs) :
    ∀ inr empty, regionLoop S asg marker ids inr empty = planLoop α marker xs inr empty := by
  induction h with
  | nil => intro _ _; rfl
  | @cons id x ids xs hx _ ih =>
    intro inr empty
    obtain ⟨h1, h2, h3⟩ := hx
    obtain ⟨idx, path, node⟩ := x
    have hp : id.preorder.toNat = idx := by rw [h1]; rfl
    cases node with
    | deco t =>
      obtain ⟨c1, c2⟩ := h2
      simp only [regionLoop, c1, c2, planLoop, Placed.text, ih]
    | tok t mt =>
      obtain ⟨c1, c2⟩ := h2
      simp only [regionLoop, c1, c2, planLoop, Placed.text, ih]
    | group cs mt =>
      obtain ⟨c1, -⟩ := h2
      simp only [regionLoop, c1, planLoop, Placed.text, ih]
      rfl
    | rstart =>
      have c1 : id.cat = .rstart := h2
      have h4 := h3 ⟨idx, .start⟩ rfl (by simp)
      simp only [regionLoop, c1, planLoop, Placed.text, hp, h4, ih, Placed.exits, Placed.mark]
      cases α ⟨idx, .start⟩ <;> simp
    | rend =>
      have c1 : id.cat = .rend := h2
      have h4 := h3 ⟨idx, .stop⟩ rfl (by simp)
      simp only [regionLoop, c1, planLoop, Placed.text, hp, h4, ih, Placed.exits, Placed.mark]
      cases α ⟨idx, .stop⟩ <;> simp
    | exit =>
      have c1 : id.cat = .exit := h2
      have h4 := h3 ⟨idx, .exit⟩ rfl (by simp)
      simp only [regionLoop, c1, planLoop, Placed.text, hp, h4, ih, Placed.exits, Placed.mark, decide_eq_true_eq]
      rcases hv : α ⟨idx, .exit⟩ with _ | _ | _ <;> simp

theorem forall₂_of_getElem? {β γ : Type} {R : β → γ → Prop} : ∀ {l : List β} {l' : List γ},
    l.length = l'.length → (∀ (k : Nat) (x : γ), l'[k]? = some x → ∃ y, l[k]? = some y ∧ R y x) →
    List.Forall₂ R l l'
  | [], [], _, _ => .nil
  | y :: l, x :: l', hl, h => by
    refine .cons ?_ (forall₂_of_getElem? (by simpa using hl) fun k x hk => ?_)
    · obtain ⟨y', h1, h2⟩ := h 0 x rfl
      simp only [List.getElem?_cons_zero, Option.some.injEq] at h1
      rw [h1]; exact h2
    · exact h (k + 1) x (by simpa using hk)

theorem placed_key_mem {proto : List (Node M)} {x : Placed M} (hx : x ∈ placed proto)
    {k : DecisionKey} (hk : x.key = some k) : k ∈ seqKeys 0 proto := by
  rw [← filterMap_key_pl proto [] 0 0, ← placed_eq]
  exact List.mem_filterMap.mpr ⟨x, hx, hk⟩

theorem extract_plan (proto : List (Node M)) (asg : DecisionKey → Option DecisionValue)
    (marker : Text) (h : ∀ k ∈ seqKeys 0 proto, k.cat ≠ .inRegion → asg k = some (α k)) :
    extractRegions (pack proto) asg marker = planLoop α marker (placed proto) false false := by
  unfold extractRegions
  apply regionLoop_plan
  obtain ⟨h1, -, -, h2⟩ := Props.C02_preorder proto
  refine forall₂_of_getElem? (by rw [h1]; simp [placed]) fun k x hk => ?_
  have hm : x ∈ placed proto := List.mem_of_getElem? hk
  unfold placed at hk
  rw [List.getElem?_map, List.getElem?_zipIdx, Option.map_map, Option.map_eq_some_iff] at hk
  obtain ⟨⟨n, path, tag⟩, hw, rfl⟩ := hk
  obtain ⟨id, pos, g1, g2, g3, -⟩ := h2 k n path tag hw
  refine ⟨id, g1, by simpa using g2, g3, fun k' hk' => h k' (placed_key_mem hm hk')⟩

theorem noTextAfter_snoc (l : List (Placed M)) (x : Placed M) :
    noTextAfter α (l ++ [x])
      = if (x.mark α).isSome then true else x.text.isNone && noTextAfter α l := by
  unfold noTextAfter
  rw [List.reverse_append, List.reverse_singleton, List.singleton_append, List.takeWhile_cons]
  cases hm : x.mark α <;> simp

theorem inRegionAfter_snoc (l : List (Placed M)) (x : Placed M) :
    inRegionAfter α (l ++ [x]) = (x.mark α).getD (inRegionAfter α l) := by
  rw [inRegionAfter_eq, inRegionAfter_eq, openFrom_append]
  rfl

theorem text_mark {x : Placed M} {t : Text} (h : x.text = some t) :
    x.mark α = none ∧ x.exits α = false := by
  obtain ⟨i, p, n⟩ := x
  cases n <;> simp [Placed.text, Placed.mark, Placed.exits] at h ⊢

theorem planLoop_spec (marker : Text) (r : List (Placed M)) : ∀ (l : List (Placed M)) (empty : Bool),
    (inRegionAfter α l = true → empty = noTextAfter α l) →
    ((¬ (∃ m x r', r.takeWhile (fun x => !x.exits α) = m ++ x :: r' ∧ x.mark α = some false
        ∧ inRegionAfter α (l ++ m) = false)) →
      planLoop α marker r (inRegionAfter α l) empty
        = .ok (annotated α marker l (r.takeWhile fun x => !x.exits α)))
    ∧ ((∃ m x r', r.takeWhile (fun x => !x.exits α) = m ++ x :: r' ∧ x.mark α = some false
        ∧ inRegionAfter α (l ++ m) = false) →
      planLoop α marker r (inRegionAfter α l) empty = .error .assertion) := by
  induction r with
  | nil =>
    intro l empty _
    refine ⟨fun _ => rfl, ?_⟩
    rintro ⟨m, x, r', h, -⟩
    simp at h
  | cons x r ih =>
    intro l empty he
    by_cases hx : x.exits α = true
    · have htx : x.text = none := by
        cases h : x.text with
        | none => rfl
        | some t => simp [(text_mark (α := α) h).2] at hx
      rw [List.takeWhile_cons]
      simp only [hx, Bool.not_true, Bool.false_eq_true, if_false]
      refine ⟨fun _ => ?_, ?_⟩
      · simp [planLoop, htx, hx, annotated]
      · rintro ⟨m, x, r', h, -⟩
        simp at h
    · rw [Bool.not_eq_true] at hx
      rw [List.takeWhile_cons]
      simp only [hx, Bool.not_false, if_true]
      have stray : x.mark α ≠ some false ∨ inRegionAfter α l = true →
          ((∃ m y r', x :: List.takeWhile (fun x => !x.exits α) r = m ++ y :: r'
              ∧ y.mark α = some false ∧ inRegionAfter α (l ++ m) = false)
            ↔ ∃ m y r', List.takeWhile (fun x => !x.exits α) r = m ++ y :: r'
              ∧ y.mark α = some false ∧ inRegionAfter α (l ++ [x] ++ m) = false) := by
        intro hno
        constructor
        · rintro ⟨m, y, r', h1, h2, h3⟩
          cases m with
          | nil =>
            simp only [List.nil_append, List.cons.injEq] at h1
            rw [← h1.1] at h2
            rw [List.append_nil] at h3
            rcases hno with h | h
            · exact absurd h2 h
            · rw [h] at h3; simp at h3
          | cons z m =>
            simp only [List.cons_append, List.cons.injEq] at h1
            obtain ⟨rfl, h1⟩ := h1
            exact ⟨m, y, r', h1, h2, by simpa using h3⟩
        · rintro ⟨m, y, r', h1, h2, h3⟩
          exact ⟨x :: m, y, r', by rw [h1]; rfl, h2, by simpa using h3⟩
      cases htx : x.text with
      | some t =>
        obtain ⟨hm, -⟩ := text_mark (α := α) htx
        have hi : inRegionAfter α (l ++ [x]) = inRegionAfter α l := by
          rw [inRegionAfter_snoc, hm]; rfl
        have hn : noTextAfter α (l ++ [x]) = false := by
          rw [noTextAfter_snoc, hm, htx]; simp
        have := ih (l ++ [x]) false (by rw [hn]; simp)
        rw [hi] at this
        rw [stray (.inl (by rw [hm]; simp))]
        refine ⟨fun h => ?_, fun h => ?_⟩
        · simp only [planLoop, htx, this.1 h, consOk, annotated, shown]
          rfl
        · simp only [planLoop, htx, this.2 h, consOk]
      | none =>
        cases hm : x.mark α with
        | none =>
          have hi : inRegionAfter α (l ++ [x]) = inRegionAfter α l := by
            rw [inRegionAfter_snoc, hm]; rfl
          have hn : noTextAfter α (l ++ [x]) = noTextAfter α l := by
            rw [noTextAfter_snoc, hm, htx]; simp
          have := ih (l ++ [x]) empty (by rw [hn, hi]; exact he)
          rw [hi] at this
          rw [stray (.inl (by rw [hm]; simp))]
          refine ⟨fun h => ?_, fun h => ?_⟩
          · simp [planLoop, htx, hx, hm, this.1 h, annotated, shown]
          · simp [planLoop, htx, hx, hm, this.2 h]
        | some b =>
          have hn : noTextAfter α (l ++ [x]) = true := by
            rw [noTextAfter_snoc, hm]; simp
          cases b with
          | true =>
            have hi : inRegionAfter α (l ++ [x]) = true := by
              rw [inRegionAfter_snoc, hm]; rfl
            have := ih (l ++ [x]) true (by rw [hn]; simp)
            rw [hi] at this
            rw [stray (.inl (by rw [hm]; simp))]
            refine ⟨fun h => ?_, fun h => ?_⟩
            · simp [planLoop, htx, hx, hm, this.1 h, annotated, shown]
            · simp [planLoop, htx, hx, hm, this.2 h]
          | false =>
            have hi : inRegionAfter α (l ++ [x]) = false := by
              rw [inRegionAfter_snoc, hm]; rfl
            have := ih (l ++ [x]) false (by rw [hi]; simp)
            rw [hi] at this
            cases hin : inRegionAfter α l with
            | true =>
              rw [stray (.inr hin)]
              have he' := he hin
              subst he'
              refine ⟨fun h => ?_, fun h => ?_⟩
              · cases hne : noTextAfter α l <;>
                  simp [planLoop, htx, hx, hm, this.1 h, annotated, shown, hne, consOk]
              · cases hne : noTextAfter α l <;>
                  simp [planLoop, htx, hx, hm, this.2 h, consOk]
            | false =>
              refine ⟨fun h => ?_, fun _ => ?_⟩
              · exact absurd ⟨[], x, _, rfl, hm, by simpa using hin⟩ h
              · simp [planLoop, htx, hx, hm]

end RUSure.Lemmas
