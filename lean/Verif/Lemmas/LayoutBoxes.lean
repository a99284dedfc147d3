import Verif.Lemmas.LayoutEdges
import Verif.Lemmas.ConstraintMain
import Verif.Lemmas.EditTopo
import Verif.Lemmas.SelectionDag
import Verif.Props.Pipeline
import Verif.Props.Selection
import Verif.Spec.Drawing

/-!
# Boxes of the states of constraint, edit and selection DAGs
-/

namespace RUSure.Draw

variable {M : Type}

/-- A layout is good if a property of states and edges gives it. -/
theorem goodLayout {S K V I : Type} [DecidableEq S] {d : Dag S K V I} {bounds : S → Option Box}
    {forward : Box → Box → Prop} (P : S → Prop) (hP : ∀ e ∈ d.edges, P e.source ∧ P e.dest)
    (all : ∀ s, P s → ∃ b, bounds s = some b ∧ Proper b)
    (apart : ∀ s t, P s → P t → s ≠ t → ∀ b c, bounds s = some b → bounds t = some c → Apart b c)
    (edges : ∀ e ∈ d.edges, ∀ b c, bounds e.source = some b → bounds e.dest = some c → forward b c) :
    GoodLayout d bounds forward := by
  have hs : ∀ s ∈ d.stateList, P s := by
    intro s hs
    obtain ⟨e, he, h⟩ := ((Props.C53_state_list d).2 s).mp hs
    rcases h with rfl | rfl
    · exact (hP e he).1
    · exact (hP e he).2
  exact ⟨fun s h => all s (hs s h), fun s h t h' => apart s t (hs s h) (hs t h'), edges⟩

/-! ## Slots that are found -/

/-- A list of slots as `track` makes it. -/
structure Slots {κ : Type} [DecidableEq κ] (w lo hi : ℚ) (L : List (κ × (ℚ × ℚ))) : Prop where
  nodup : (L.map Prod.fst).Nodup
  order : L.Pairwise (fun a b => a.2.2 ≤ b.2.1)
  width : ∀ s ∈ L, s.2.2 = s.2.1 + w
  low : ∀ s ∈ L, lo ≤ s.2.1
  high : ∀ s ∈ L, s.2.2 ≤ hi

theorem track_slots {w g tail : ℚ} (hw : 0 ≤ w) (hg : 0 ≤ g) (ht : 0 ≤ tail) (x : ℚ)
    (ns : List (Node M)) :
    Slots w x (track w g tail none 0 0 x ns).stop (track w g tail none 0 0 x ns).slots := by
  obtain ⟨h1, h2, h3⟩ := track_bounds hw hg ht ns none 0 0 x
  exact ⟨track_nodup w g tail ns none 0 0 x (by simp), h3, fun s hs => (h2 s hs).2.1,
    fun s hs => (h2 s hs).1, fun s hs => (h2 s hs).2.2⟩

/-- Having a slot. -/
def Has {κ : Type} (L : List (κ × (ℚ × ℚ))) (k : κ) : Prop := ∃ v, (k, v) ∈ L

/-- Slots one after the other. -/
def Next {κ : Type} (L : List (κ × (ℚ × ℚ))) (k k' : κ) : Prop :=
  ∃ v v', (k, v) ∈ L ∧ (k', v') ∈ L ∧ v.2 ≤ v'.1

section
variable {κ : Type} [DecidableEq κ] {w lo hi : ℚ} {L : List (κ × (ℚ × ℚ))}

theorem Slots.find (h : Slots w lo hi L) {k : κ} (hk : Has L k) :
    ∃ a, find L k = some (a, a + w) ∧ (k, (a, a + w)) ∈ L ∧ lo ≤ a ∧ a + w ≤ hi := by
  obtain ⟨⟨a, b⟩, hv⟩ := hk
  have hb : b = a + w := h.width _ hv
  subst hb
  exact ⟨a, find_of_mem h.nodup hv, hv, h.low _ hv, h.high _ hv⟩

theorem Slots.unique (h : Slots w lo hi L) {k : κ} {a : ℚ} {v : ℚ × ℚ}
    (hf : Draw.find L k = some (a, a + w)) (hm : (k, v) ∈ L) : v = (a, a + w) := by
  rw [find_of_mem h.nodup hm] at hf
  exact Option.some.inj hf

theorem Slots.apart (h : Slots w lo hi L) {k k' : κ} (hne : k ≠ k') {a a' : ℚ}
    (ha : (k, (a, a + w)) ∈ L) (ha' : (k', (a', a' + w)) ∈ L) : a + w ≤ a' ∨ a' + w ≤ a :=
  pairwise_cases h.order ha ha' hne

end

/-! ## Constraint DAGs -/

theorem constraint_slots {cfg : Config} (hc : cfg.Sensible) (proto : List (Node M)) :
    Slots cfg.width (cfg.width + cfg.gapX + cfg.gapX) (constraintTrack cfg proto).stop
      (constraintTrack cfg proto).slots :=
  track_slots hc.width.le hc.gapX (add_nonneg hc.gapX hc.width.le) _ proto

theorem constraint_fine {cfg : Config} (hc : cfg.Sensible) (proto : List (Node M)) :
    ∀ e ∈ constraintEdges proto, ConEdge (Has (constraintTrack cfg proto).slots)
      (Next (constraintTrack cfg proto).slots) (depthAt 0 0 proto) e :=
  constraint_ok (track_sub hc.width.le hc.gapX (add_nonneg hc.gapX hc.width.le) _ _ proto none 0 0 0 _
    (fun _ h => h) (fun _ _ _ => rfl))

theorem constraint_box {cfg : Config} (hc : cfg.Sensible) (proto : List (Node M)) {c : ConstraintCat}
    {seq : Option Nat} {pos l : Nat} (h : Has (constraintTrack cfg proto).slots (seq, pos)) :
    ∃ a, ((seq, pos), (a, a + cfg.width)) ∈ (constraintTrack cfg proto).slots
      ∧ a + cfg.width ≤ (constraintTrack cfg proto).stop
      ∧ constraintBox cfg proto (.at c seq pos l)
        = some ⟨a, (2 * cfg.height + cfg.separation + cfg.gapY) * (l : ℚ)
          + constraintOffset (.at c seq pos l) * (cfg.height + cfg.separation), cfg.width, cfg.height⟩ := by
  obtain ⟨a, h1, h2, h3, h4⟩ := (constraint_slots hc proto).find h
  refine ⟨a, h2, h4, ?_⟩
  rw [constraintBox, h1]
  simp [Box.fromBoundary]

theorem has_of_conOk {V : Option Nat × Nat → Prop} {D : Nat → Nat} {c : ConstraintCat}
    {seq : Option Nat} {pos l : Nat} (h : ConOk V D (.at c seq pos l)) : V (seq, pos) := by
  cases c <;> exact h.1

theorem levels_apart {cfg : Config} (hc : cfg.Sensible) {l l' : Nat} (hl : l < l') {o o' : ℚ}
    (ho : o ≤ 1) (ho' : 0 ≤ o') :
    (2 * cfg.height + cfg.separation + cfg.gapY) * (l : ℚ) + o * (cfg.height + cfg.separation) + cfg.height
      ≤ (2 * cfg.height + cfg.separation + cfg.gapY) * (l' : ℚ) + o' * (cfg.height + cfg.separation) := by
  have h1 : (l : ℚ) + 1 ≤ l' := by exact_mod_cast hl
  have h2 := hc.height
  have h3 := hc.separation
  have h4 := hc.gapY
  have h5 : 0 ≤ cfg.height + cfg.separation := by linarith
  have h6 : o * (cfg.height + cfg.separation) ≤ 1 * (cfg.height + cfg.separation) :=
    mul_le_mul_of_nonneg_right ho h5
  have h7 : 0 ≤ o' * (cfg.height + cfg.separation) := mul_nonneg ho' h5
  have h8 : (2 * cfg.height + cfg.separation + cfg.gapY) * ((l : ℚ) + 1)
      ≤ (2 * cfg.height + cfg.separation + cfg.gapY) * (l' : ℚ) :=
    mul_le_mul_of_nonneg_left h1 (by linarith)
  linarith

theorem constraintOffset_range (s : ConstraintState) : 0 ≤ constraintOffset s ∧ constraintOffset s ≤ 1 := by
  cases s with
  | final => simp [constraintOffset]
  | «at» c seq pos l => cases c <;> simp [constraintOffset]

theorem constraint_apart {cfg : Config} (hc : cfg.Sensible) (proto : List (Node M)) {D : Nat → Nat}
    {s t : ConstraintState} (hs : ConOk (Has (constraintTrack cfg proto).slots) D s)
    (ht : ConOk (Has (constraintTrack cfg proto).slots) D t) (hne : s ≠ t) (b c : Box)
    (hb : constraintBox cfg proto s = some b) (hb' : constraintBox cfg proto t = some c) :
    Apart b c := by
  have hw := hc.width
  have hh := hc.height
  have hg := hc.gapX
  have hp := hc.separation
  cases s with
  | final =>
    cases t with
    | final => exact absurd rfl hne
    | «at» c' q' p' l' =>
      obtain ⟨a, _, h1, h2⟩ := constraint_box hc proto (c := c') (l := l') (has_of_conOk ht)
      rw [h2] at hb'
      cases hb'
      cases hb
      refine Or.inr (Or.inl ?_)
      dsimp [Box.fromBoundary]
      linarith
  | «at» c1 q p l =>
    obtain ⟨a, h0, h1, h2⟩ := constraint_box hc proto (c := c1) (l := l) (has_of_conOk hs)
    rw [h2] at hb
    cases hb
    cases t with
    | final =>
      cases hb'
      refine Or.inl ?_
      dsimp [Box.fromBoundary]
      linarith
    | «at» c2 q' p' l' =>
      obtain ⟨a', k0, k1, k2⟩ := constraint_box hc proto (c := c2) (l := l') (has_of_conOk ht)
      rw [k2] at hb'
      cases hb'
      by_cases hk : ((q, p) : Option Nat × Nat) = (q', p')
      · cases hk
        rcases Nat.lt_trichotomy l l' with hl | hl | hl
        · exact Or.inr (Or.inr (Or.inl (levels_apart hc hl (constraintOffset_range _).2
            (constraintOffset_range _).1)))
        · subst hl
          cases c1 <;> cases c2 <;> simp only [ConOk] at hs ht <;>
            first
            | exact absurd rfl hne
            | exact absurd (lt_of_lt_of_eq hs.2 ht.2.symm) (lt_irrefl _)
            | exact absurd (lt_of_lt_of_eq ht.2 hs.2.symm) (lt_irrefl _)
            | (refine Or.inr (Or.inr (Or.inl ?_))
               simp only [constraintOffset]
               linarith)
            | (refine Or.inr (Or.inr (Or.inr ?_))
               simp only [constraintOffset]
               linarith)
        · exact Or.inr (Or.inr (Or.inr (levels_apart hc hl (constraintOffset_range _).2
            (constraintOffset_range _).1)))
      · rcases (constraint_slots hc proto).apart hk h0 k0 with h | h
        · exact Or.inl h
        · exact Or.inr (Or.inl h)

theorem constraint_layout {cfg : Config} (hc : cfg.Sensible) (proto : List (Node M))
    (d : Dag ConstraintState DecisionKey DecisionValue Bool)
    (hd : constructConstraintDag proto = .ok d) :
    GoodLayout d (constraintBox cfg proto) RightOf := by
  rw [Lemmas.constructConstraintDag_ok] at hd
  cases hd
  have hf := constraint_fine hc proto
  refine goodLayout (ConOk (Has (constraintTrack cfg proto).slots) (depthAt 0 0 proto))
    (fun e he => ⟨(hf e he).1, (hf e he).2.1⟩) ?_ ?_ ?_
  · intro s hs
    cases s with
    | final =>
      refine ⟨_, rfl, ?_, ?_⟩
      · dsimp [Box.fromBoundary]; linarith [hc.width]
      · dsimp [Box.fromBoundary]; linarith [hc.height]
    | «at» c q p l =>
      obtain ⟨a, _, _, h⟩ := constraint_box hc proto (c := c) (l := l) (has_of_conOk hs)
      exact ⟨_, h, hc.width, hc.height⟩
  · exact fun s t hs ht hne b c => constraint_apart hc proto hs ht hne b c
  · intro e he b c hb hb'
    obtain ⟨h1, h2, h3⟩ := hf e he
    cases hs : e.source with
    | final => rw [hs] at h3; exact h3.elim
    | «at» c1 q p l =>
      rw [hs] at h1 h3 hb
      obtain ⟨a, h4, h5, h6⟩ := constraint_box hc proto (c := c1) (l := l) (has_of_conOk h1)
      rw [h6] at hb
      cases hb
      cases ht : e.dest with
      | final =>
        rw [ht] at hb'
        cases hb'
        have := hc.gapX
        dsimp [RightOf, Box.fromBoundary]
        linarith
      | «at» c2 q' p' l' =>
        rw [ht] at h2 h3 hb'
        obtain ⟨a', k4, k5, k6⟩ := constraint_box hc proto (c := c2) (l := l') (has_of_conOk h2)
        rw [k6] at hb'
        cases hb'
        obtain ⟨v, v', m1, m2, m3⟩ := h3
        have e1 := (constraint_slots hc proto).unique (find_of_mem (constraint_slots hc proto).nodup h4) m1
        have e2 := (constraint_slots hc proto).unique (find_of_mem (constraint_slots hc proto).nodup k4) m2
        rw [e1, e2] at m3
        exact m3

end RUSure.Draw
