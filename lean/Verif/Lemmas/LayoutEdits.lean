import Verif.Lemmas.LayoutBoxes

/-!
# Boxes of the states of edit and selection DAGs
-/

namespace RUSure.Draw

variable {M : Type}

/-- The number of a state at its place. -/
def editRank : EditState → Nat
  | .at .process .high _ _ _ _ => 0
  | .at .process .low _ _ _ _ => 1
  | .at .mayDelete .high _ _ _ _ => 2
  | .at .mayDelete .low _ _ _ _ => 3
  | .at .mayInsert .high _ _ _ _ => 4
  | .at .mayInsert .low _ _ _ _ => 5
  | .at .matching .high _ _ _ _ => 6
  | .at .matching .low _ _ _ _ => 7
  | .at .recDelete .high _ _ _ _ => 2
  | .at .recDelete .low _ _ _ _ => 3
  | .at .recInsert .high _ _ _ _ => 4
  | .at .recInsert .low _ _ _ _ => 5
  | .final => 0

theorem editOffset_rank (s : EditState) : editOffset s = (editRank s : ℚ) := by
  rcases s with ⟨al, c, q, p, t, u⟩ | _
  · cases al <;> cases c <;> simp [editOffset, editRank]
  · simp [editOffset, editRank]

theorem editRank_le (s : EditState) : editRank s ≤ 7 := by
  rcases s with ⟨al, c, q, p, t, u⟩ | _
  · cases al <;> cases c <;> simp [editRank]
  · simp [editRank]

/-- At the same places, different states have different numbers. -/
theorem editRank_ne {dq dt : Nat} {al al' : EditAlign} {c c' : Conf} {q t : Option Nat} {p u : Nat}
    (h : OkAlign dq dt al) (h' : OkAlign dq dt al')
    (hne : EditState.at al c q p t u ≠ .at al' c' q p t u) :
    editRank (.at al c q p t u) ≠ editRank (.at al' c' q p t u) := by
  cases al <;> cases al' <;> simp only [OkAlign] at h h' <;>
    first
    | (exfalso; omega)
    | (cases c <;> cases c' <;> first | exact absurd rfl hne | simp [editRank])

theorem ranks_apart {cfg : Config} (hc : cfg.Sensible) {r r' : Nat} (h : r < r') (y : ℚ) :
    y + (r : ℚ) * (cfg.height + cfg.separation) + cfg.height
      ≤ y + (r' : ℚ) * (cfg.height + cfg.separation) := by
  have h1 : (r : ℚ) + 1 ≤ r' := by exact_mod_cast h
  have h2 := hc.height
  have h3 := hc.separation
  have h4 : ((r : ℚ) + 1) * (cfg.height + cfg.separation) ≤ (r' : ℚ) * (cfg.height + cfg.separation) :=
    mul_le_mul_of_nonneg_right h1 (by linarith)
  linarith

theorem rank_end {cfg : Config} (hc : cfg.Sensible) {r n : Nat} (h : r ≤ n) (y : ℚ) :
    y + (r : ℚ) * (cfg.height + cfg.separation) + cfg.height
      ≤ y + (((n : ℚ) + 1) * cfg.height + (n : ℚ) * cfg.separation) := by
  have h1 : (r : ℚ) ≤ n := by exact_mod_cast h
  have h2 := hc.height
  have h3 := hc.separation
  have h4 : (r : ℚ) * (cfg.height + cfg.separation) ≤ (n : ℚ) * (cfg.height + cfg.separation) :=
    mul_le_mul_of_nonneg_right h1 (by linarith)
  linarith

/-! ## Boxes in columns and rows

States `at` a slot on both axes with a rank. -/

section
variable {κ : Type} [DecidableEq κ] {cfg : Config} {lo hi lo' hi' : ℚ} {n : Nat}
  {L L' : List (κ × (ℚ × ℚ))}

/-- The box of a state at a column and a row, with a rank. -/
def Cell (cfg : Config) (L L' : List (κ × (ℚ × ℚ))) (w' : ℚ) (k k' : κ) (r : Nat) (b : Box) : Prop :=
  ∃ a y, (k, (a, a + cfg.width)) ∈ L ∧ (k', (y, y + w')) ∈ L'
    ∧ b = ⟨a, y + (r : ℚ) * (cfg.height + cfg.separation), cfg.width, cfg.height⟩

theorem Cell.apart (hc : cfg.Sensible) {w' : ℚ}
    (hw' : w' = ((n : ℚ) + 1) * cfg.height + (n : ℚ) * cfg.separation) (hL : Slots cfg.width lo hi L)
    (hL' : Slots w' lo' hi' L') {k1 k1' k2 k2' : κ} {r1 r2 : Nat} {b c : Box}
    (h1 : Cell cfg L L' w' k1 k1' r1 b) (h2 : Cell cfg L L' w' k2 k2' r2 c) (hr1 : r1 ≤ n) (hr2 : r2 ≤ n)
    (hne : k1 = k2 → k1' = k2' → r1 ≠ r2) : Apart b c := by
  obtain ⟨a1, y1, m1, m1', rfl⟩ := h1
  obtain ⟨a2, y2, m2, m2', rfl⟩ := h2
  by_cases hk : k1 = k2
  · by_cases hk' : k1' = k2'
    · subst hk hk'
      have e2 := hL'.unique (find_of_mem hL'.nodup m1') m2'
      cases e2
      rcases Nat.lt_or_gt_of_ne (hne rfl rfl) with h | h
      · exact Or.inr (Or.inr (Or.inl (ranks_apart hc h _)))
      · exact Or.inr (Or.inr (Or.inr (ranks_apart hc h _)))
    · have hh := hc.height
      have hs := hc.separation
      have p1 : 0 ≤ (r1 : ℚ) * (cfg.height + cfg.separation) := by positivity
      have p2 : 0 ≤ (r2 : ℚ) * (cfg.height + cfg.separation) := by positivity
      rcases hL'.apart hk' m1' m2' with h | h
      · refine Or.inr (Or.inr (Or.inl ?_))
        have := rank_end hc hr1 y1
        dsimp only
        linarith
      · refine Or.inr (Or.inr (Or.inr ?_))
        have := rank_end hc hr2 y2
        dsimp only
        linarith
  · rcases hL.apart hk m1 m2 with h | h
    · exact Or.inl h
    · exact Or.inr (Or.inl h)

theorem Cell.right (hL : Slots cfg.width lo hi L) {w' : ℚ} {k1 k1' k2 k2' : κ} {r1 r2 : Nat} {b c : Box}
    (h1 : Cell cfg L L' w' k1 k1' r1 b) (h2 : Cell cfg L L' w' k2 k2' r2 c) (h : Next L k1 k2) :
    RightOf b c := by
  obtain ⟨a1, y1, m1, m1', rfl⟩ := h1
  obtain ⟨a2, y2, m2, m2', rfl⟩ := h2
  obtain ⟨v, v', n1, n2, n3⟩ := h
  rw [hL.unique (find_of_mem hL.nodup m1) n1, hL.unique (find_of_mem hL.nodup m2) n2] at n3
  exact n3

theorem Cell.below (hc : cfg.Sensible) {w' : ℚ}
    (hw' : w' = ((n : ℚ) + 1) * cfg.height + (n : ℚ) * cfg.separation) (hL : Slots cfg.width lo hi L)
    (hL' : Slots w' lo' hi' L') {k k1' k2' : κ} {r1 r2 : Nat} {b c : Box}
    (h1 : Cell cfg L L' w' k k1' r1 b) (h2 : Cell cfg L L' w' k k2' r2 c) (hr1 : r1 ≤ n)
    (h : Next L' k1' k2' ∨ (k1' = k2' ∧ r1 < r2)) : Below b c := by
  obtain ⟨a1, y1, m1, m1', rfl⟩ := h1
  obtain ⟨a2, y2, m2, m2', rfl⟩ := h2
  have e := hL.unique (find_of_mem hL.nodup m1) m2
  cases e
  refine ⟨rfl, rfl, ?_⟩
  rcases h with ⟨v, v', n1, n2, n3⟩ | ⟨rfl, h⟩
  · rw [hL'.unique (find_of_mem hL'.nodup m1') n1, hL'.unique (find_of_mem hL'.nodup m2') n2] at n3
    have hh := hc.height
    have hs := hc.separation
    have p2 : 0 ≤ (r2 : ℚ) * (cfg.height + cfg.separation) := by positivity
    have := rank_end hc hr1 y1
    dsimp only at n3 ⊢
    linarith
  · have e2 := hL'.unique (find_of_mem hL'.nodup m1') m2'
    cases e2
    exact ranks_apart hc h _

theorem Cell.proper (hc : cfg.Sensible) {w' : ℚ} {k k' : κ} {r : Nat} {b : Box}
    (h : Cell cfg L L' w' k k' r b) : Proper b := by
  obtain ⟨a, y, _, _, rfl⟩ := h
  exact ⟨hc.width, hc.height⟩

theorem Cell.high (hL : Slots cfg.width lo hi L) {w' : ℚ} {k k' : κ} {r : Nat} {b : Box}
    (h : Cell cfg L L' w' k k' r b) : b.left + b.width ≤ hi := by
  obtain ⟨a, y, m, _, rfl⟩ := h
  exact hL.high _ m

end

/-! ## Edit DAGs -/

section
variable {cfg : Config}

theorem editBlock_eq (cfg : Config) :
    editBlock cfg = (((7 : ℕ) : ℚ) + 1) * cfg.height + ((7 : ℕ) : ℚ) * cfg.separation := by
  unfold editBlock
  norm_num

theorem editBlock_nonneg (hc : cfg.Sensible) : 0 ≤ editBlock cfg := by
  have := hc.height
  have := hc.separation
  unfold editBlock
  linarith

theorem proto_slots (hc : cfg.Sensible) (proto : List (Node M)) :
    Slots cfg.width (cfg.width + cfg.gapX + cfg.gapX) (protoTrack cfg proto).stop
      (protoTrack cfg proto).slots :=
  track_slots hc.width.le hc.gapX hc.gapX _ proto

theorem target_slots (hc : cfg.Sensible) (target : List (Node M)) :
    Slots (editBlock cfg) cfg.gapY (targetTrack cfg target).stop (targetTrack cfg target).slots :=
  track_slots (editBlock_nonneg hc) hc.gapY hc.gapY _ target

theorem proto_sub (hc : cfg.Sensible) (proto : List (Node M)) :
    Sub (Has (protoTrack cfg proto).slots) (Next (protoTrack cfg proto).slots) (depthAt 0 0 proto)
      none 0 0 0 proto :=
  track_sub hc.width.le hc.gapX hc.gapX _ _ proto none 0 0 0 _ (fun _ h => h) (fun _ _ _ => rfl)

theorem target_sub (hc : cfg.Sensible) (target : List (Node M)) :
    Sub (Has (targetTrack cfg target).slots) (Next (targetTrack cfg target).slots) (depthAt 0 0 target)
      none 0 0 0 target :=
  track_sub (editBlock_nonneg hc) hc.gapY hc.gapY _ _ target none 0 0 0 _ (fun _ h => h)
    (fun _ _ _ => rfl)

/-- Boxes of edit states. -/
theorem edit_box (hc : cfg.Sensible) (proto target : List (Node M)) {al : EditAlign} {c : Conf}
    {q t : Option Nat} {p u : Nat} (h : Has (protoTrack cfg proto).slots (q, p))
    (h' : Has (targetTrack cfg target).slots (t, u)) :
    ∃ b, editBox cfg proto target (.at al c q p t u) = some b
      ∧ Cell cfg (protoTrack cfg proto).slots (targetTrack cfg target).slots (editBlock cfg) (q, p) (t, u)
        (editRank (.at al c q p t u)) b := by
  obtain ⟨a, h1, h2, _, _⟩ := (proto_slots hc proto).find h
  obtain ⟨y, k1, k2, _, _⟩ := (target_slots hc target).find h'
  refine ⟨_, ?_, a, y, h2, k2, rfl⟩
  rw [editBox, h1, k1]
  simp [Box.fromBoundary, editOffset_rank]

theorem edit_layout [DecidableEq M] (hc : cfg.Sensible) (prm : Params) (proto target : List (Node M))
    (d : Dag EditState DecisionKey DecisionValue (Option EditInfo))
    (hd : constructEditDag prm proto target = .ok d) :
    GoodLayout d (editBox cfg proto target) (fun b c => RightOf b c ∨ Below b c) := by
  rw [Lemmas.constructEditDag_ok] at hd
  cases hd
  have hL := proto_slots hc proto
  have hL' := target_slots hc target
  have hf := edit_ok prm (proto_sub hc proto) (target_sub hc target)
  have hw := hc.width
  have hg := hc.gapX
  refine goodLayout (EditOk (Has (protoTrack cfg proto).slots) (Has (targetTrack cfg target).slots)
    (depthAt 0 0 proto) (depthAt 0 0 target)) (fun e he => ⟨(hf e he).1, (hf e he).2.1⟩) ?_ ?_ ?_
  · intro s hs
    cases s with
    | final =>
      refine ⟨_, rfl, ?_, ?_⟩
      · dsimp [Box.fromBoundary]; linarith
      · dsimp [Box.fromBoundary]; linarith [hc.height]
    | «at» al c q p t u =>
      obtain ⟨b, hb, hcell⟩ := edit_box hc proto target (al := al) (c := c) hs.1 hs.2.1
      exact ⟨b, hb, hcell.proper hc⟩
  · intro s t hs ht hne b c hb hb'
    cases s with
    | final =>
      cases t with
      | final => exact absurd rfl hne
      | «at» al' c' q' p' t' u' =>
        obtain ⟨b', hb1, hcell⟩ := edit_box hc proto target (al := al') (c := c') ht.1 ht.2.1
        rw [hb1] at hb'
        cases hb'
        cases hb
        have := hcell.high hL
        refine Or.inr (Or.inl ?_)
        dsimp [Box.fromBoundary]
        linarith
    | «at» al1 c1 q p t1 u =>
      obtain ⟨b1, hb1, hcell⟩ := edit_box hc proto target (al := al1) (c := c1) hs.1 hs.2.1
      rw [hb1] at hb
      cases hb
      cases t with
      | final =>
        cases hb'
        have := hcell.high hL
        refine Or.inl ?_
        dsimp [Box.fromBoundary]
        linarith
      | «at» al2 c2 q' p' t' u' =>
        obtain ⟨b2, hb2, hcell2⟩ := edit_box hc proto target (al := al2) (c := c2) ht.1 ht.2.1
        rw [hb2] at hb'
        cases hb'
        refine hcell.apart hc (editBlock_eq cfg) hL hL' hcell2 (editRank_le _) (editRank_le _) ?_
        intro h1 h2
        cases h1
        cases h2
        exact editRank_ne hs.2.2 ht.2.2 hne
  · intro e he b c hb hb'
    obtain ⟨h1, h2, h3⟩ := hf e he
    cases hs : e.source with
    | final => rw [hs] at h3; exact h3.elim
    | «at» al1 c1 q p t1 u =>
      rw [hs] at h1 h3 hb
      obtain ⟨b1, hb1, hcell⟩ := edit_box hc proto target (al := al1) (c := c1) h1.1 h1.2.1
      rw [hb1] at hb
      cases hb
      cases ht : e.dest with
      | final =>
        rw [ht] at hb'
        cases hb'
        have := hcell.high hL
        refine Or.inl ?_
        dsimp [RightOf, Box.fromBoundary]
        linarith
      | «at» al2 c2 q' p' t' u' =>
        rw [ht] at h2 h3 hb'
        obtain ⟨b2, hb2, hcell2⟩ := edit_box hc proto target (al := al2) (c := c2) h2.1 h2.2.1
        rw [hb2] at hb'
        cases hb'
        rcases h3 with h3 | ⟨h3, h4⟩
        · exact Or.inl (hcell.right hL hcell2 h3)
        · cases h3
          refine Or.inr (hcell.below hc (editBlock_eq cfg) hL hL' hcell2 (editRank_le _) ?_)
          rcases h4 with h4 | ⟨h4, h5⟩
          · exact Or.inl h4
          · rw [editOffset_rank, editOffset_rank] at h5
            exact Or.inr ⟨h4, by exact_mod_cast h5⟩

end

/-! ## Selection DAGs -/

theorem row_spec {α : Type} (w g : ℚ) (l : List α) : ∀ (pos : Nat) (x : ℚ),
    (row w g pos x l).2 = x + (l.length : ℚ) * (w + g) + w
    ∧ (∀ k v, (k, v) ∈ (row w g pos x l).1 ↔
      pos ≤ k ∧ k ≤ pos + l.length ∧ v = (x + ((k - pos : ℕ) : ℚ) * (w + g),
        x + ((k - pos : ℕ) : ℚ) * (w + g) + w))
    ∧ (row w g pos x l).1.Pairwise (fun a b => a.1 < b.1) := by
  induction l with
  | nil =>
    intro pos x
    refine ⟨by simp [row], fun k v => ?_, by simp [row]⟩
    simp only [row, List.mem_singleton, Prod.mk.injEq, List.length_nil, Nat.add_zero]
    constructor
    · rintro ⟨rfl, rfl⟩
      simp
    · rintro ⟨h1, h2, h3⟩
      have : k = pos := by omega
      subst this
      simp at h3
      exact ⟨rfl, h3⟩
  | cons y l ih =>
    intro pos x
    obtain ⟨h1, h2, h3⟩ := ih (pos + 1) (x + w + g)
    refine ⟨?_, fun k v => ?_, ?_⟩
    · rw [row, h1, List.length_cons]
      push_cast
      ring
    · rw [row]
      simp only [List.mem_cons, Prod.mk.injEq, h2, List.length_cons]
      constructor
      · rintro (⟨rfl, rfl⟩ | ⟨a, b, rfl⟩)
        · simp
        · refine ⟨by omega, by omega, ?_⟩
          have : ((k - pos : ℕ) : ℚ) = ((k - (pos + 1) : ℕ) : ℚ) + 1 := by
            have : k - pos = k - (pos + 1) + 1 := by omega
            rw [this]
            push_cast
            ring
          rw [this, Prod.mk.injEq]
          constructor <;> ring
      · rintro ⟨a, b, rfl⟩
        by_cases hk : k = pos
        · subst hk
          simp
        · refine Or.inr ⟨by omega, by omega, ?_⟩
          have : ((k - pos : ℕ) : ℚ) = ((k - (pos + 1) : ℕ) : ℚ) + 1 := by
            have : k - pos = k - (pos + 1) + 1 := by omega
            rw [this]
            push_cast
            ring
          rw [this, Prod.mk.injEq]
          constructor <;> ring
    · rw [row]
      refine List.pairwise_cons.mpr ⟨fun s hs => ?_, h3⟩
      obtain ⟨k, v⟩ := s
      exact ((h2 k v).mp hs).1

theorem row_slots {α : Type} {w g : ℚ} (hw : 0 ≤ w) (hg : 0 ≤ g) (l : List α) (x : ℚ) :
    Slots w x (row w g 0 x l).2 (row w g 0 x l).1 := by
  obtain ⟨h1, h2, h3⟩ := row_spec w g l 0 x
  have mono : ∀ {a b : Nat}, a < b → x + (a : ℚ) * (w + g) + w ≤ x + (b : ℚ) * (w + g) := by
    intro a b hab
    have h : (a : ℚ) + 1 ≤ b := by exact_mod_cast hab
    have := mul_le_mul_of_nonneg_right h (by linarith : 0 ≤ w + g)
    linarith
  refine ⟨?_, ?_, ?_, ?_, ?_⟩
  · exact List.pairwise_map.mpr (h3.imp fun h => Nat.ne_of_lt h)
  · refine List.Pairwise.imp_of_mem ?_ h3
    rintro ⟨k, v⟩ ⟨k', v'⟩ hm hm' hlt
    obtain ⟨_, _, rfl⟩ := (h2 k v).mp hm
    obtain ⟨_, _, rfl⟩ := (h2 k' v').mp hm'
    exact mono hlt
  · rintro ⟨k, v⟩ hm
    obtain ⟨_, _, rfl⟩ := (h2 k v).mp hm
    rfl
  · rintro ⟨k, v⟩ hm
    obtain ⟨_, _, rfl⟩ := (h2 k v).mp hm
    have : 0 ≤ ((k - 0 : ℕ) : ℚ) * (w + g) := by positivity
    dsimp only
    linarith
  · rintro ⟨k, v⟩ hm
    obtain ⟨_, hk, rfl⟩ := (h2 k v).mp hm
    rw [h1]
    have h : ((k - 0 : ℕ) : ℚ) ≤ l.length := by exact_mod_cast (by omega : k - 0 ≤ l.length)
    have := mul_le_mul_of_nonneg_right h (by linarith : 0 ≤ w + g)
    dsimp only
    linarith

theorem row_has {α : Type} (w g x : ℚ) (l : List α) {k : Nat} (hk : k ≤ l.length) :
    Has (row w g 0 x l).1 k :=
  ⟨_, ((row_spec w g l 0 x).2.1 k _).mpr ⟨by omega, by omega, rfl⟩⟩

theorem row_next {α : Type} {w g : ℚ} (hw : 0 ≤ w) (hg : 0 ≤ g) (x : ℚ) (l : List α) {k k' : Nat}
    (h : k < k') (hk : k' ≤ l.length) : Next (row w g 0 x l).1 k k' := by
  refine ⟨_, _, ((row_spec w g l 0 x).2.1 k _).mpr ⟨by omega, by omega, rfl⟩,
    ((row_spec w g l 0 x).2.1 k' _).mpr ⟨by omega, by omega, rfl⟩, ?_⟩
  have h : ((k - 0 : ℕ) : ℚ) + 1 ≤ ((k' - 0 : ℕ) : ℚ) := by exact_mod_cast h
  have := mul_le_mul_of_nonneg_right h (by linarith : 0 ≤ w + g)
  dsimp only
  linarith

theorem rowMarks_get {α : Type} (w g : ℚ) (l : List α) : ∀ (x : ℚ) (k : Nat),
    (rowMarks w g x l)[k]? = l[k]?.map fun a =>
      (a, (x + (k : ℚ) * (w + g) + w, x + (k : ℚ) * (w + g) + w + g)) := by
  induction l with
  | nil => intro x k; simp [rowMarks]
  | cons a l ih =>
    intro x k
    cases k with
    | zero => simp [rowMarks]
    | succ k =>
      rw [rowMarks, List.getElem?_cons_succ, ih, List.getElem?_cons_succ]
      push_cast
      congr 1
      funext b
      rw [Prod.mk.injEq, Prod.mk.injEq]
      refine ⟨rfl, ?_, ?_⟩ <;> ring

/-- The number of a state at its place. -/
def selRank : SelState → Nat
  | .at .skipProto _ _ => 0
  | .at .skipTarget _ _ => 1
  | .at .matched _ _ => 2
  | .at .unmatched _ _ => 3
  | .final => 0

theorem selOffset_rank (s : SelState) : selOffset s = (selRank s : ℚ) := by
  rcases s with ⟨c, p, u⟩ | _
  · cases c <;> simp [selOffset, selRank]
  · simp [selOffset, selRank]

theorem selRank_le (s : SelState) : selRank s ≤ 3 := by
  rcases s with ⟨c, p, u⟩ | _
  · cases c <;> simp [selRank]
  · simp [selRank]

/-- States within the traversals. -/
def SelOk (n m : Nat) : SelState → Prop
  | .final => True
  | .at _ p u => p ≤ n ∧ u ≤ m

/-- To the right, or downwards. -/
def SelFlow : SelState → SelState → Prop
  | .at c p u, .at c' p' u' => p < p' ∨ (p = p' ∧ (u < u' ∨ (u = u' ∧
      selRank (.at c p u) < selRank (.at c' p' u'))))
  | .at _ _ _, .final => True
  | .final, _ => False

section
variable {cfg : Config} [DecidableEq M]

theorem selCell_fine {f : SelUtility M} {n m p u : Nat} {x : SelItem M} {y : Option (SelItem M)} {b : Bool}
    {e : SelEdge} (hp : p < n) (hu : u ≤ m) (hy : y ≠ none → u < m) (h : e ∈ selCell f p u x y b) :
    SelOk n m e.source ∧ SelOk n m e.dest ∧ SelFlow e.source e.dest := by
  simp only [selCell, List.mem_append] at h
  have hp' : p ≤ n := by omega
  have hp1 : p + 1 ≤ n := by omega
  rcases h with (((((h | h) | h) | h) | h) | h) | h
  · cases x <;> simp [selSkip] at h <;> subst h <;> simp [SelOk, SelFlow, hp', hp1, hu]
  · cases x <;> simp [selStart] at h <;> rcases h with rfl | rfl <;> simp [SelOk, SelFlow, hp', hp1, hu]
  · unfold selTarget at h
    split at h <;> simp at h
    rename_i j hj
    have hu1 : u + 1 ≤ m := hy (by rintro rfl; simp at hj)
    rcases h with rfl | rfl <;> simp [SelOk, SelFlow, hp', hu, hu1, selRank]
  · unfold selMatch at h
    split at h <;> try split at h
    all_goals simp at h
    · have hu1 : u + 1 ≤ m := hy (by simp)
      subst h
      simp [SelOk, SelFlow, hp', hp1, hu, hu1]
    · have hu1 : u + 1 ≤ m := hy (by simp)
      subst h
      simp [SelOk, SelFlow, hp', hp1, hu, hu1]
    · have hu1 : u + 1 ≤ m := hy (by simp)
      subst h
      simp [SelOk, SelFlow, hp', hp1, hu, hu1]
    · subst h
      simp [SelOk, SelFlow, hp', hp1, hu]
  · cases x <;> simp [selEndMatch] at h <;> rcases h with rfl | rfl <;>
      simp [SelOk, SelFlow, hp', hp1, hu]
  · split at h <;> simp at h
    subst h
    cases x <;> simp [selPass, SelOk, SelFlow, hp', hp1, hu]
  · cases x <;> simp [selEndPass] at h <;> subst h <;> simp [SelOk, SelFlow, hp', hp1, hu]

theorem sel_fine {f : SelUtility M} {xs ys : List (SelItem M)} {e : SelEdge}
    (he : e ∈ Lemmas.goodEdges f xs ys) :
    SelOk xs.length ys.length e.source ∧ SelOk xs.length ys.length e.dest
      ∧ SelFlow e.source e.dest := by
  rcases Lemmas.mem_goodEdges.mp he with ⟨p, x, u, hp, hu, h⟩ | ⟨u, hu, rfl⟩
  · refine selCell_fine (List.getElem?_eq_some_iff.mp hp).1 hu (fun hy => ?_) h
    by_contra hlt
    exact hy (List.getElem?_eq_none (by omega))
  · exact ⟨⟨le_refl _, hu⟩, trivial, trivial⟩

end

section
variable {cfg : Config}

theorem selBlock_eq (cfg : Config) :
    selBlock cfg = (((3 : ℕ) : ℚ) + 1) * cfg.height + ((3 : ℕ) : ℚ) * cfg.separation := by
  unfold selBlock
  norm_num

theorem selBlock_nonneg (hc : cfg.Sensible) : 0 ≤ selBlock cfg := by
  have := hc.height
  have := hc.separation
  unfold selBlock
  linarith

theorem sel_box {α : Type} (hc : cfg.Sensible) (proto target : List α) {c : SelCat} {p u : Nat}
    (hp : p ≤ proto.length) (hu : u ≤ target.length) :
    ∃ b, selBox cfg proto target (.at c p u) = some b
      ∧ Cell cfg (row cfg.width cfg.gapX 0 0 proto).1
        (row (selBlock cfg) cfg.gapY 0 (cfg.height + cfg.gapY) target).1 (selBlock cfg) p u
        (selRank (.at c p u)) b := by
  obtain ⟨a, h1, h2, _, _⟩ := (row_slots hc.width.le hc.gapX proto 0).find (row_has _ _ _ proto hp)
  obtain ⟨y, k1, k2, _, _⟩ := (row_slots (selBlock_nonneg hc) hc.gapY target
    (cfg.height + cfg.gapY)).find (row_has _ _ _ target hu)
  refine ⟨_, ?_, a, y, h2, k2, rfl⟩
  rw [selBox, h1, k1]
  simp [Box.fromBoundary, selOffset_rank]

theorem sel_box_final {α : Type} (hc : cfg.Sensible) (proto target : List α) :
    ∃ y, selBox cfg proto target .final
      = some ⟨(row cfg.width cfg.gapX 0 0 proto).2 + cfg.gapX, y, cfg.width, cfg.height⟩ := by
  obtain ⟨y, k1, _, _, _⟩ := (row_slots (selBlock_nonneg hc) hc.gapY target
    (cfg.height + cfg.gapY)).find (row_has _ _ _ target (Nat.zero_le _))
  refine ⟨y, ?_⟩
  rw [selBox, k1]
  simp [Box.fromBoundary]

theorem sel_layout [DecidableEq M] (hc : cfg.Sensible) (f : SelUtility M) (proto target : List (Node M))
    (d : Dag SelState DecisionKey DecisionValue (Option SelInfo))
    (hd : constructSelectionDag f (pack proto) (pack target) = .ok d) :
    GoodLayout d (selBox cfg (Spec.items 0 proto) (Spec.items 0 target))
      (fun b c => RightOf b c ∨ Below b c) := by
  obtain ⟨_, rfl⟩ := Props.selection_built f proto target d hd
  generalize Spec.items 0 proto = xs
  generalize Spec.items 0 target = ys
  have hL := row_slots hc.width.le hc.gapX xs 0
  have hL' := row_slots (selBlock_nonneg hc) hc.gapY ys (cfg.height + cfg.gapY)
  have hw := hc.width
  have hg := hc.gapX
  refine goodLayout (SelOk xs.length ys.length) (fun e he => ⟨(sel_fine he).1, (sel_fine he).2.1⟩)
    ?_ ?_ ?_
  · intro s hs
    cases s with
    | final =>
      obtain ⟨y, h⟩ := sel_box_final hc xs ys
      exact ⟨_, h, hc.width, hc.height⟩
    | «at» c p u =>
      obtain ⟨b, hb, hcell⟩ := sel_box hc xs ys (c := c) hs.1 hs.2
      exact ⟨b, hb, hcell.proper hc⟩
  · intro s t hs ht hne b c hb hb'
    obtain ⟨y, hfin⟩ := sel_box_final hc xs ys
    cases s with
    | final =>
      cases t with
      | final => exact absurd rfl hne
      | «at» c' p' u' =>
        obtain ⟨b', hb1, hcell⟩ := sel_box hc xs ys (c := c') ht.1 ht.2
        rw [hb1] at hb'
        cases hb'
        rw [hfin] at hb
        cases hb
        have := hcell.high hL
        refine Or.inr (Or.inl ?_)
        dsimp only
        linarith
    | «at» c1 p u =>
      obtain ⟨b1, hb1, hcell⟩ := sel_box hc xs ys (c := c1) hs.1 hs.2
      rw [hb1] at hb
      cases hb
      cases t with
      | final =>
        rw [hfin] at hb'
        cases hb'
        have := hcell.high hL
        refine Or.inl ?_
        dsimp only
        linarith
      | «at» c2 p' u' =>
        obtain ⟨b2, hb2, hcell2⟩ := sel_box hc xs ys (c := c2) ht.1 ht.2
        rw [hb2] at hb'
        cases hb'
        refine hcell.apart hc (selBlock_eq cfg) hL hL' hcell2 (selRank_le _) (selRank_le _) ?_
        rintro rfl rfl h
        cases c1 <;> cases c2 <;> first | exact hne rfl | simp [selRank] at h
  · intro e he b c hb hb'
    obtain ⟨h1, h2, h3⟩ := sel_fine he
    obtain ⟨y, hfin⟩ := sel_box_final hc xs ys
    cases hs : e.source with
    | final => rw [hs] at h3; exact h3.elim
    | «at» c1 p u =>
      rw [hs] at h1 h3 hb
      obtain ⟨b1, hb1, hcell⟩ := sel_box hc xs ys (c := c1) h1.1 h1.2
      rw [hb1] at hb
      cases hb
      cases ht : e.dest with
      | final =>
        rw [ht, hfin] at hb'
        cases hb'
        have := hcell.high hL
        refine Or.inl ?_
        dsimp only [RightOf]
        linarith
      | «at» c2 p' u' =>
        rw [ht] at h2 h3 hb'
        obtain ⟨b2, hb2, hcell2⟩ := sel_box hc xs ys (c := c2) h2.1 h2.2
        rw [hb2] at hb'
        cases hb'
        rcases h3 with h3 | ⟨rfl, h4⟩
        · exact Or.inl (hcell.right hL hcell2 (row_next hc.width.le hc.gapX 0 xs h3 h2.1))
        · refine Or.inr (hcell.below hc (selBlock_eq cfg) hL hL' hcell2 (selRank_le _) ?_)
          rcases h4 with h4 | h4
          · exact Or.inl (row_next (selBlock_nonneg hc) hc.gapY _ ys h4 h2.2)
          · exact Or.inr h4

end

end RUSure.Draw
