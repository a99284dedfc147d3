import Verif.Spec.CallSequence
import Verif.Lemmas.PrefixBaselines
import Verif.Props.PrefixBaselines

/-!
# Decisions that are given by a set of region markers
-/

namespace RUSure.Lemmas
open RUSure RUSure.Spec RUSure.Props
variable {M : Type}

/-! ### The decisions -/

/-- The markers of the set are used. -/
def usedOnly (P : Nat → Bool) (k : DecisionKey) : DecisionValue := if P k.index then .yes else .no

/-- The decisions that are given by a set of markers. -/
def byMarkers (proto : List (Node M)) (P : Nat → Bool) (k : DecisionKey) : DecisionValue :=
  let inside := inRegionAfter (usedOnly P) ((placed proto).take k.index)
  match k.cat with
  | .start => if P k.index then .yes else if inside then .na else .no
  | .stop => if P k.index then .yes else if inside then .no else .na
  | .inRegion => if inside then .yes else .no
  | .exit => .no

/-- The markers of the set alternate between starts and ends, starting outside of regions. -/
def Alternate (proto : List (Node M)) (P : Nat → Bool) : Prop :=
  ∀ l x r, placed proto = l ++ x :: r → P x.idx = true →
    (x.node = .rstart ∧ inRegionAfter (usedOnly P) l = false) ∨ (x.node = .rend ∧ inRegionAfter (usedOnly P) l = true)

theorem mark_byMarkers (proto : List (Node M)) (P : Nat → Bool) (x : Placed M) :
    x.mark (byMarkers proto P) = x.mark (usedOnly P) := by
  obtain ⟨i, p, n⟩ := x
  cases n with
  | rstart =>
    by_cases h : P i = true
    · simp [Placed.mark, byMarkers, usedOnly, h]
    · simp only [Placed.mark, byMarkers, usedOnly, if_neg h]
      generalize inRegionAfter (usedOnly P) _ = b
      cases b <;> simp
  | rend =>
    by_cases h : P i = true
    · simp [Placed.mark, byMarkers, usedOnly, h]
    · simp only [Placed.mark, byMarkers, usedOnly, if_neg h]
      generalize inRegionAfter (usedOnly P) _ = b
      cases b <;> simp
  | _ => rfl

theorem inRegionAfter_congr {α β : DecisionKey → DecisionValue} {l : List (Placed M)}
    (h : ∀ x ∈ l, x.mark α = x.mark β) : inRegionAfter α l = inRegionAfter β l := by
  unfold inRegionAfter
  congr 1
  have h' : ∀ x ∈ l.reverse, x.mark α = x.mark β := by simpa using h
  generalize l.reverse = l' at h'
  induction l' with
  | nil => rfl
  | cons x l' ih =>
    rw [List.findSome?_cons, List.findSome?_cons, h' x (by simp), ih fun y hy => h' y (by simp [hy])]

theorem inRegionAfter_byMarkers (proto : List (Node M)) (P : Nat → Bool) (l : List (Placed M)) :
    inRegionAfter (byMarkers proto P) l = inRegionAfter (usedOnly P) l :=
  inRegionAfter_congr fun x _ => mark_byMarkers proto P x

theorem take_placed {proto : List (Node M)} {l r : List (Placed M)} {x : Placed M}
    (h : placed proto = l ++ x :: r) : (placed proto).take x.idx = l := by
  rw [placed_idx h, h, List.take_left]

/-! ### The loop -/

/-- The decision there is for a marker. -/
def markerKey (x : Placed M) : Option DecisionKey :=
  match x.node with
  | .rstart => some ⟨x.idx, .start⟩
  | .rend => some ⟨x.idx, .stop⟩
  | _ => none

theorem suggestionLoop_eq {proto : List (Node CallType)} {P : Nat → Bool} {indices : List Int} (halt : Alternate proto P)
    (hP : ∀ n : Nat, (n : Int) ∈ indices ↔ P n = true) {S : Storage CallType} {ids : List NodeId}
    {r : List (Placed CallType)} (h : List.Forall₂ (HoldsAt S) ids r) :
    ∀ (l : List (Placed CallType)) (d : Decisions) (seen : List Int), placed proto = l ++ r →
    ∃ d' seen', suggestionLoop indices ids d seen (inRegionAfter (usedOnly P) l) = .ok (d', seen')
      ∧ (∀ k, d'.lookup k = if k ∈ r.filterMap markerKey then some (byMarkers proto P k) else d.lookup k)
      ∧ ∀ i, i ∈ seen' ↔ i ∈ seen ∨ ∃ x ∈ r, (x.node = .rstart ∨ x.node = .rend) ∧ i = (x.idx : Int) := by
  induction h with
  | nil =>
    intro l d seen _
    exact ⟨d, seen, rfl, by simp, by simp⟩
  | @cons id x ids r hx _ ih =>
    intro l d seen hl
    have hpre := hx.1
    have hrep := hx.2
    have htake := take_placed hl
    have hsn := inRegionAfter_snoc (α := usedOnly P) l x
    have step : ∀ (d₁ : Decisions) (seen₁ : List Int),
        suggestionLoop indices (id :: ids) d seen (inRegionAfter (usedOnly P) l)
          = suggestionLoop indices ids d₁ seen₁ (inRegionAfter (usedOnly P) (l ++ [x])) →
        (∀ k, d₁.lookup k = if markerKey x = some k then some (byMarkers proto P k) else d.lookup k) →
        (∀ i, i ∈ seen₁ ↔ i ∈ seen ∨ ((x.node = .rstart ∨ x.node = .rend) ∧ i = (x.idx : Int))) →
        ∃ d' seen', suggestionLoop indices (id :: ids) d seen (inRegionAfter (usedOnly P) l) = .ok (d', seen')
          ∧ (∀ k, d'.lookup k = if k ∈ (x :: r).filterMap markerKey then some (byMarkers proto P k) else d.lookup k)
          ∧ ∀ i, i ∈ seen' ↔ i ∈ seen ∨ ∃ y ∈ x :: r, (y.node = .rstart ∨ y.node = .rend) ∧ i = (y.idx : Int) := by
      intro d₁ seen₁ h1 h2 h3
      obtain ⟨d', seen', g1, g2, g3⟩ := ih (l ++ [x]) d₁ seen₁ (by rw [hl]; simp)
      refine ⟨d', seen', h1.trans g1, ?_, ?_⟩
      · intro k
        rw [g2, h2]
        by_cases hk : k ∈ r.filterMap markerKey
        · rw [if_pos hk, if_pos (by rw [List.filterMap_cons]; split <;> simp [hk])]
        · rw [if_neg hk]
          congr 1
          rw [List.filterMap_cons]
          cases hm : markerKey x with
          | none => simp [hk]
          | some k' => simp [hk, eq_comm]
      · intro i
        rw [g3, h3, or_assoc]
        simp
    obtain ⟨i, p, n⟩ := x
    dsimp only at *
    cases n with
    | rstart =>
      have hc : id.cat = .rstart := hrep
      have hsn' : inRegionAfter (usedOnly P) (l ++ [⟨i, p, .rstart⟩])
          = if P i then true else inRegionAfter (usedOnly P) l := by
        rw [hsn]
        by_cases hp : P i = true <;> simp [Placed.mark, usedOnly, hp]
      rw [suggestionLoop.eq_def] at step ⊢
      dsimp only at step ⊢
      rw [if_pos hc, hpre] at step ⊢
      by_cases hp : P i = true
      · have hin : inRegionAfter (usedOnly P) l = false := by
          rcases halt l _ r hl hp with ⟨-, h⟩ | ⟨h, -⟩
          · exact h
          · cases h
        rw [if_pos ((hP i).mpr hp), hin, if_neg (by simp)] at step ⊢
        refine step (dictSet ⟨i, .start⟩ .yes d) (seen ++ [(i : Int)]) ?_ ?_ ?_
        · rw [hsn', if_pos hp]
          rfl
        · intro k
          rw [lookup_dictSet]
          simp only [markerKey, Int.toNat_natCast, Option.some.injEq, eq_comm (a := k)]
          split
          · rename_i hk
            rw [← hk]
            simp [byMarkers, hp]
          · rfl
        · intro j
          simp
      · rw [if_neg (fun h => hp ((hP i).mp h))] at step ⊢
        refine step (dictSet ⟨i, .start⟩ (if inRegionAfter (usedOnly P) l then .na else .no) d) (seen ++ [(i : Int)]) ?_ ?_ ?_
        · rw [hsn', if_neg hp]
          rfl
        · intro k
          rw [lookup_dictSet]
          simp only [markerKey, Int.toNat_natCast, Option.some.injEq, eq_comm (a := k)]
          split
          · rename_i hk
            rw [← hk]
            simp only [byMarkers, htake]
            rw [if_neg hp]
          · rfl
        · intro j
          simp
    | rend =>
      have hc : id.cat = .rend := hrep
      have hsn' : inRegionAfter (usedOnly P) (l ++ [⟨i, p, .rend⟩])
          = if P i then false else inRegionAfter (usedOnly P) l := by
        rw [hsn]
        by_cases hp : P i = true <;> simp [Placed.mark, usedOnly, hp]
      rw [suggestionLoop.eq_def] at step ⊢
      dsimp only at step ⊢
      rw [if_neg (by rw [hc]; simp), if_pos hc, hpre] at step ⊢
      by_cases hp : P i = true
      · have hin : inRegionAfter (usedOnly P) l = true := by
          rcases halt l _ r hl hp with ⟨h, -⟩ | ⟨-, h⟩
          · cases h
          · exact h
        rw [if_pos ((hP i).mpr hp), hin, if_pos rfl] at step ⊢
        refine step (dictSet ⟨i, .stop⟩ .yes d) (seen ++ [(i : Int)]) ?_ ?_ ?_
        · rw [hsn', if_pos hp]
          rfl
        · intro k
          rw [lookup_dictSet]
          simp only [markerKey, Int.toNat_natCast, Option.some.injEq, eq_comm (a := k)]
          split
          · rename_i hk
            rw [← hk]
            simp [byMarkers, hp]
          · rfl
        · intro j
          simp
      · rw [if_neg (fun h => hp ((hP i).mp h))] at step ⊢
        refine step (dictSet ⟨i, .stop⟩ (if inRegionAfter (usedOnly P) l then .no else .na) d) (seen ++ [(i : Int)]) ?_ ?_ ?_
        · rw [hsn', if_neg hp]
          rfl
        · intro k
          rw [lookup_dictSet]
          simp only [markerKey, Int.toNat_natCast, Option.some.injEq, eq_comm (a := k)]
          split
          · rename_i hk
            rw [← hk]
            simp only [byMarkers, htake]
            rw [if_neg hp]
          · rfl
        · intro j
          simp
    | deco t =>
      have hc : id.cat = .deco := hrep.1
      refine step d seen ?_ (by simp [markerKey]) (by simp)
      rw [suggestionLoop.eq_def, hsn]
      simp [hc, Placed.mark]
    | tok t mt =>
      have hc : id.cat = .tok := hrep.1
      refine step d seen ?_ (by simp [markerKey]) (by simp)
      rw [suggestionLoop.eq_def, hsn]
      simp [hc, Placed.mark]
    | group cs mt =>
      have hc : id.cat = .group := hrep.1
      refine step d seen ?_ (by simp [markerKey]) (by simp)
      rw [suggestionLoop.eq_def, hsn]
      simp [hc, Placed.mark]
    | exit =>
      have hc : id.cat = .exit := hrep
      refine step d seen ?_ (by simp [markerKey]) (by simp)
      rw [suggestionLoop.eq_def, hsn]
      simp [hc, Placed.mark]

/-- The loop succeeds if the markers alternate. -/
theorem suggestionLoop_once {indices : List Int} : ∀ {ids : List NodeId} {d : Decisions} {seen : List Int}
    {inside : Bool} {r : Decisions × List Int}, suggestionLoop indices ids d seen inside = .ok r →
      (d.map Prod.fst).Nodup → (r.1.map Prod.fst).Nodup := by
  intro ids
  induction ids with
  | nil => intro d seen inside r h hd; cases h; exact hd
  | cons id ids ih =>
    intro d seen inside r h hd
    rw [suggestionLoop.eq_def] at h
    dsimp only at h
    split_ifs at h
    all_goals first
      | exact ih h hd
      | exact ih h (dictSet_nodup _ _ _ hd).1

theorem makeSuggestion_ok {proto : List (Node CallType)} {P : Nat → Bool} {indices : List Int}
    (halt : Alternate proto P) (hP : ∀ n : Nat, (n : Int) ∈ indices ↔ P n = true)
    (hmem : ∀ i ∈ indices, ∃ x ∈ placed proto, i = (x.idx : Int)) :
    ∃ d, makeSuggestion (pack proto) indices = .ok d ∧ (d.map Prod.fst).Nodup
      ∧ ∀ k, d.lookup k = if k ∈ (placed proto).filterMap markerKey then some (byMarkers proto P k) else none := by
  obtain ⟨d, seen, h1, h2, h3⟩ := suggestionLoop_eq halt hP (holdsAt_pack proto) [] [] [] rfl
  refine ⟨d, ?_, suggestionLoop_once h1 (by simp), by simpa using h2⟩
  unfold makeSuggestion
  rw [show inRegionAfter (usedOnly P) ([] : List (Placed CallType)) = false from rfl] at h1
  rw [h1, ok_bind_eq]
  dsimp only
  rw [if_pos]
  · rfl
  · rw [List.all_eq_true]
    intro i hi
    rw [List.contains_iff_mem, h3]
    right
    obtain ⟨x, hx, rfl⟩ := hmem i hi
    obtain ⟨l, r, hl⟩ := List.append_of_mem hx
    refine ⟨x, hx, ?_, rfl⟩
    rcases halt l x r hl ((hP _).mp hi) with ⟨h, -⟩ | ⟨h, -⟩
    · exact .inl h
    · exact .inr h

end RUSure.Lemmas
