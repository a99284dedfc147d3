import Verif.Lemmas.LayoutMarks
import Verif.Lemmas.RenderDag
import Verif.Lemmas.Svg

/-!
# Lemmas on annotations of states, edges and nodes
-/

namespace RUSure.Draw
open RUSure.Spec RUSure.Lemmas

section
variable {S K V I : Type} [DecidableEq S] [DecidableEq K] [DecidableEq V]

omit [DecidableEq K] [DecidableEq V] [DecidableEq S] in
theorem stateNote_bounds (cfg : Config) (words : Words S K V I) (box : S → Option Box) (s : S) :
    (stateNote cfg words box s).map StateNote.bounds = box s := by
  unfold stateNote
  cases box s <;> rfl

/-- Drawings with annotations for everything exist. -/
theorem render_exists (css : Text) {d : Dag S K V I} {a : Annotator S K V I} {extras : List Extra}
    (hx : a.extras = some extras) (hs : ∀ s ∈ d.stateList, ∃ b, a.bounds s = some b)
    (he : ∀ e ∈ d.edges, ∃ n, a.edge e = some n) (emphasized : List (Edge S K V I)) :
    ∃ calls, renderDag css d a emphasized = some calls := by
  have hstate : ∀ s ∈ d.stateList, ∃ n, a.state s = some n := by
    intro s h
    obtain ⟨b, hb⟩ := hs s h
    rw [Annotator.bounds, Option.map_eq_some_iff] at hb
    exact ⟨hb.choose, hb.choose_spec.1⟩
  obtain ⟨states, h1⟩ := collect_exists (f := stateCall a d.isReachable) (xs := d.stateList) (by
    intro s h
    obtain ⟨n, hn⟩ := hstate s h
    exact ⟨_, by rw [stateCall, hn]⟩)
  obtain ⟨edges, h2⟩ := collect_exists (f := edgeCalls a d.isReachable emphasized) (xs := d.edges) (by
    intro e h
    obtain ⟨n, hn⟩ := he e h
    obtain ⟨s, hs⟩ := hstate e.source ((Props.C53_state_list d).2 _ |>.mpr ⟨e, h, .inl rfl⟩)
    obtain ⟨t, ht⟩ := hstate e.dest ((Props.C53_state_list d).2 _ |>.mpr ⟨e, h, .inr rfl⟩)
    exact ⟨_, by rw [edgeCalls, hn, hs, ht]⟩)
  exact ⟨_, by rw [renderDag, hx, h1, h2]⟩

theorem balanced_append {cs ds : List Call} (h1 : Balanced cs) (h2 : Balanced ds) :
    Balanced (cs ++ ds) := by
  induction h1 with
  | nil => exact h2
  | draw c cs a b _ ih => exact .draw c _ a b ih
  | group h ts inner cs hi _ _ ih =>
    rw [List.cons_append, List.append_assoc, List.cons_append]
    exact .group h ts inner _ hi ih

theorem balanced_draws {cs : List Call} (h : ∀ c ∈ cs, (∀ h ts, c ≠ .openGroup h ts) ∧ c ≠ .closeGroup) :
    Balanced cs := by
  induction cs with
  | nil => exact .nil
  | cons c cs ih =>
    exact .draw c cs (h c (List.mem_cons_self ..)).1 (h c (List.mem_cons_self ..)).2
      (ih fun d hd => h d (List.mem_cons_of_mem _ hd))

theorem balanced_flatten {ls : List (List Call)} (h : ∀ l ∈ ls, Balanced l) : Balanced ls.flatten := by
  induction ls with
  | nil => exact .nil
  | cons l ls ih =>
    exact balanced_append (h l (List.mem_cons_self ..)) (ih fun k hk => h k (List.mem_cons_of_mem _ hk))

theorem forall2_right {α β : Type} {P : α → β → Prop} {xs : List α} {ys : List β}
    (h : List.Forall₂ P xs ys) {y : β} (hy : y ∈ ys) : ∃ x ∈ xs, P x y := by
  induction h with
  | nil => cases hy
  | cons h1 _ ih =>
    rcases List.mem_cons.mp hy with rfl | hy
    · exact ⟨_, List.mem_cons_self .., h1⟩
    · obtain ⟨x, hx, h⟩ := ih hy
      exact ⟨x, List.mem_cons_of_mem _ hx, h⟩

theorem forall2_left {α β : Type} {P : α → β → Prop} {xs : List α} {ys : List β}
    (h : List.Forall₂ P xs ys) {x : α} (hx : x ∈ xs) : ∃ y ∈ ys, P x y := by
  induction h with
  | nil => cases hx
  | cons h1 _ ih =>
    rcases List.mem_cons.mp hx with rfl | hx
    · exact ⟨_, List.mem_cons_self .., h1⟩
    · obtain ⟨y, hy, h⟩ := ih hx
      exact ⟨y, List.mem_cons_of_mem _ hy, h⟩

theorem render_parts {css : Text} {d : Dag S K V I} {a : Annotator S K V I}
    {emphasized : List (Edge S K V I)} {calls : List Call}
    (h : renderDag css d a emphasized = some calls) :
    ∃ extras states edges, a.extras = some extras
      ∧ List.Forall₂ (fun s c => stateCall a d.isReachable s = some c) d.stateList states
      ∧ List.Forall₂ (fun e cs => edgeCalls a d.isReachable emphasized e = some cs) d.edges edges
      ∧ calls = (a.styles.map .style ++ [.style css, .custom hoverFilter]) ++ extras.map extraCall ++ states
        ++ edges.flatten := by
  unfold renderDag at h
  split at h
  · rename_i extras states edges h1 h2 h3
    cases h
    exact ⟨extras, states, edges, h1, collect_some h2, collect_some h3, rfl⟩
  · cases h

theorem extra_drawn (x : Extra) : ExtraDrawn x (extraCall x) := by
  cases x <;> exact ⟨_, rfl⟩

theorem render_balanced {css : Text} {d : Dag S K V I} {a : Annotator S K V I}
    {emphasized : List (Edge S K V I)} {calls : List Call}
    (h : renderDag css d a emphasized = some calls) : Balanced calls := by
  obtain ⟨extras, states, edges, -, h1, h2, rfl⟩ := render_parts h
  refine balanced_append (balanced_append (balanced_append (balanced_draws ?_) (balanced_draws ?_))
    (balanced_draws ?_)) (balanced_flatten ?_)
  · intro c hc
    rcases List.mem_append.mp hc with hc | hc
    · obtain ⟨t, -, rfl⟩ := List.mem_map.mp hc
      exact ⟨nofun, nofun⟩
    · rcases List.mem_pair.mp hc with rfl | rfl <;> exact ⟨nofun, nofun⟩
  · intro c hc
    obtain ⟨x, -, rfl⟩ := List.mem_map.mp hc
    cases x <;> exact ⟨nofun, nofun⟩
  · intro c hc
    obtain ⟨s, -, hs⟩ := forall2_right h1 hc
    unfold stateCall at hs
    split at hs
    · cases hs
    · cases hs
      exact ⟨nofun, nofun⟩
  · intro l hl
    obtain ⟨e, -, he⟩ := forall2_right h2 hl
    unfold edgeCalls at he
    split at he
    · cases he
      exact .group _ _ [_, _, _] [] (.draw _ _ nofun nofun (.draw _ _ nofun nofun
        (.draw _ _ nofun nofun .nil))) .nil
    · cases he

end

/-! ## Edges of edit DAGs and selection DAGs -/

theorem editLine_range (e : EditEdge) : 0 ≤ editLine e ∧ editLine e ≤ 1 := by
  have h1 : (editRank e.source : ℚ) ≤ 7 := by exact_mod_cast editRank_le e.source
  have h2 : (editRank e.dest : ℚ) ≤ 7 := by exact_mod_cast editRank_le e.dest
  have h3 : (0 : ℚ) ≤ editRank e.source := Nat.cast_nonneg _
  have h4 : (0 : ℚ) ≤ editRank e.dest := Nat.cast_nonneg _
  have hk : ∀ k, editKnown e.source e.dest = some k → 1 ≤ k ∧ k ≤ 5 := by
    intro k h
    unfold editKnown at h
    split at h <;> cases h <;> norm_num
  unfold editLine
  split
  · rename_i k h
    obtain ⟨h5, h6⟩ := hk k h
    split <;> constructor <;> linarith
  · rw [editOffset_rank, editOffset_rank]
    constructor <;> linarith

theorem selLine_range (e : SelEdge) : 0 ≤ selLine e ∧ selLine e ≤ 1 := by
  unfold selLine
  split
  · norm_num
  · norm_num
  · rename_i s t _ _
    have h1 : (selRank e.source : ℚ) ≤ 3 := by exact_mod_cast selRank_le e.source
    have h2 : (selRank e.dest : ℚ) ≤ 3 := by exact_mod_cast selRank_le e.dest
    have h3 : (0 : ℚ) ≤ selRank e.source := Nat.cast_nonneg _
    have h4 : (0 : ℚ) ≤ selRank e.dest := Nat.cast_nonneg _
    rw [selOffset_rank, selOffset_rank]
    constructor <;> linarith

theorem proper_axis {b c : Box} (hb : Proper b) (h : RightOf b c ∨ Below b c) :
    (b.left = c.left → Below b c) ∧ (b.left ≠ c.left → RightOf b c) := by
  refine ⟨fun e => ?_, fun e => ?_⟩
  · rcases h with h | h
    · have := hb.1
      unfold RightOf at h
      linarith
    · exact h
  · rcases h with h | h
    · exact h
    · exact (e h.1).elim

/-! ## Texts of nodes -/

theorem mem_of_lookup {α β : Type} [DecidableEq α] {l : List (α × β)} {k : α} {v : β}
    (h : l.lookup k = some v) : (k, v) ∈ l := by
  induction l with
  | nil => cases h
  | cons x l ih =>
    rw [List.lookup_cons] at h
    split at h
    · rename_i hk
      cases h
      rw [beq_iff_eq] at hk
      subst hk
      exact List.mem_cons_self ..
    · exact List.mem_cons_of_mem _ (ih h)

theorem mem_of_find {α β : Type} [DecidableEq α] {l : List (α × β)} {k : α} {v : β}
    (h : find l k = some v) : (k, v) ∈ l := List.mem_reverse.mp (mem_of_lookup h)

variable {M : Type} {cfg : Config}

theorem constraint_top (hc : cfg.Sensible) (proto : List (Node M)) {s : ConstraintState} {c : Box}
    (h : constraintBox cfg proto s = some c) : -cfg.gapY - cfg.height ≤ c.top := by
  have h1 := hc.height
  have h2 := hc.separation
  have h3 := hc.gapY
  cases s with
  | final =>
    cases h
    simp [Box.fromBoundary]
  | «at» cat seq pos level =>
    unfold constraintBox at h
    dsimp only at h
    split at h
    · cases h
    · cases h
      have h4 := (constraintOffset_range (.at cat seq pos level)).1
      have h5 : 0 ≤ (2 * cfg.height + cfg.separation + cfg.gapY) * (level : ℚ) :=
        mul_nonneg (by linarith) (Nat.cast_nonneg _)
      have h6 := mul_nonneg h4 (by linarith : 0 ≤ cfg.height + cfg.separation)
      simp only [Box.fromBoundary]
      linarith

theorem constraint_at (hc : cfg.Sensible) (proto : List (Node M)) {s : ConstraintState} {c : Box}
    {k : Option Nat × Nat} {v : ℚ × ℚ} (hk : conPlace s = some k)
    (hv : (k, v) ∈ (constraintTrack cfg proto).slots) (h : constraintBox cfg proto s = some c) :
    c.left = v.1 ∧ c.left + c.width = v.2 := by
  cases s with
  | final => cases hk
  | «at» cat seq pos level =>
    cases hk
    obtain ⟨a, h1, _, h2⟩ := constraint_box hc proto (c := cat) (l := level) ⟨v, hv⟩
    rw [h] at h2
    cases h2
    rw [(constraint_slots hc proto).unique (find_of_mem (constraint_slots hc proto).nodup h1) hv]
    exact ⟨rfl, rfl⟩

theorem edit_corner (hc : cfg.Sensible) (proto target : List (Node M)) {s : EditState} {c : Box}
    (h : editBox cfg proto target s = some c) : 0 ≤ c.left ∧ 0 ≤ c.top := by
  have h0 := hc.width
  have h1 := hc.height
  have h2 := hc.separation
  have h3 := hc.gapY
  have h4 := hc.gapX
  have hL := proto_slots hc proto
  have hL' := target_slots hc target
  unfold editBox at h
  split at h
  · cases h
    obtain ⟨e1, _⟩ := track_bounds hc.width.le hc.gapX hc.gapX proto none 0 0 (cfg.width + cfg.gapX + cfg.gapX)
    obtain ⟨e2, _⟩ := track_bounds (editBlock_nonneg hc) hc.gapY hc.gapY target none 0 0 cfg.gapY
    have e3 := editBlock_nonneg hc
    simp only [Box.fromBoundary, protoTrack, targetTrack]
    constructor <;> linarith
  · split at h
    · cases h
      rename_i al cf q p t u _ _ left right y _ f1 f2
      have g1 := hL.low _ (mem_of_find f1)
      have g2 := hL'.low _ (mem_of_find f2)
      have g3 : 0 ≤ editOffset (.at al cf q p t u) := by rw [editOffset_rank]; exact Nat.cast_nonneg _
      have g4 := mul_nonneg g3 (by linarith : 0 ≤ cfg.height + cfg.separation)
      simp only at g1 g2
      simp only [Box.fromBoundary]
      constructor <;> linarith
    · cases h

theorem edit_at (hc : cfg.Sensible) (proto target : List (Node M)) {s : EditState} {c : Box}
    {k : Option Nat × Nat} {v : ℚ × ℚ} (hk : protoPlace s = some k)
    (hv : (k, v) ∈ (protoTrack cfg proto).slots) (h : editBox cfg proto target s = some c) :
    c.left = v.1 ∧ c.left + c.width = v.2 := by
  cases s with
  | final => cases hk
  | «at» al cf q p t u =>
    cases hk
    have hL := proto_slots hc proto
    unfold editBox at h
    dsimp only at h
    rw [find_of_mem hL.nodup hv] at h
    split at h
    · rename_i left right y _ e1 e2
      cases e1
      cases h
      simp [Box.fromBoundary]
    · cases h

theorem edit_down (hc : cfg.Sensible) (proto target : List (Node M)) {s : EditState} {c : Box}
    {k : Option Nat × Nat} {v : ℚ × ℚ} (hk : targetPlace s = some k)
    (hv : (k, v) ∈ (targetTrack cfg target).slots) (h : editBox cfg proto target s = some c) :
    v.1 ≤ c.top ∧ c.top + c.height ≤ v.2 := by
  cases s with
  | final => cases hk
  | «at» al cf q p t u =>
    cases hk
    have hL' := target_slots hc target
    have hw := hL'.width _ hv
    unfold editBox at h
    dsimp only at h
    rw [find_of_mem hL'.nodup hv] at h
    dsimp only at h hw
    split at h
    · rename_i left right y y' e1 e2
      cases e2
      cases h
      rw [editOffset_rank]
      have h1 := hc.height
      have h2 := hc.separation
      have g4 := mul_nonneg (Nat.cast_nonneg (α := ℚ) (editRank (.at al cf q p t u)))
        (by linarith : 0 ≤ cfg.height + cfg.separation)
      have g5 := rank_end hc (editRank_le (.at al cf q p t u)) y
      rw [← editBlock_eq, ← hw] at g5
      simp only [Box.fromBoundary]
      constructor <;> linarith
    · cases h

theorem forall2_map {α β γ : Type} {P : α → β → Prop} {Q : α → γ → Prop} {f : β → γ} {xs : List α}
    {ys : List β} (h : List.Forall₂ P xs ys) (hq : ∀ x y, P x y → Q x (f y)) :
    List.Forall₂ Q xs (ys.map f) := by
  induction h with
  | nil => exact .nil
  | cons h1 _ ih => exact .cons (hq _ _ h1) ih

/-! ## Pairs of sequences -/

theorem overNodes_range {β : Type} {body : Nat → Node M → List β} (R : Nat → Nat → β → Prop)
    (h : ∀ j m, ∀ b ∈ body j m, R j (j + nodeSize m) b)
    (mono : ∀ a a' b b' x, a' ≤ a → b ≤ b' → R a b x → R a' b' x) (ms : List (Node M)) :
    ∀ j, ∀ b ∈ overNodes body j ms, R j (j + seqSize ms) b := by
  induction ms with
  | nil =>
    intro j b hb
    cases hb
  | cons m ms ih =>
    intro j b hb
    rw [overNodes] at hb
    have e : seqSize (m :: ms) = nodeSize m + seqSize ms := by simp [seqSize]
    rcases List.mem_append.mp hb with hb | hb
    · exact mono _ _ _ _ _ (le_refl _) (by omega) (h j m b hb)
    · exact mono _ _ _ _ _ (by omega) (by omega) (ih _ b hb)

theorem overNodes_nodup {β : Type} {body : Nat → Node M → List β} (R : Nat → Nat → β → Prop)
    (h : ∀ j m, ∀ b ∈ body j m, R j (j + nodeSize m) b)
    (mono : ∀ a a' b b' x, a' ≤ a → b ≤ b' → R a b x → R a' b' x)
    (apart : ∀ a b a' b' x, b ≤ a' → R a b x → ¬ R a' b' x)
    (hn : ∀ j m, (body j m).Nodup) (ms : List (Node M)) : ∀ j, (overNodes body j ms).Nodup := by
  induction ms with
  | nil =>
    intro j
    exact List.nodup_nil
  | cons m ms ih =>
    intro j
    rw [overNodes, List.nodup_append]
    refine ⟨hn j m, ih _, fun x hx y hy e => ?_⟩
    subst e
    exact apart _ _ _ _ _ (le_refl _) (h j m x hx) (overNodes_range R h mono ms _ x hy)

/-- Pairs within intervals. -/
def PairIn (i i' j j' : Nat) (s : Option Nat × Option Nat) : Prop :=
  ∃ a b, s = (some a, some b) ∧ i ≤ a ∧ a < i' ∧ j ≤ b ∧ b < j'

theorem PairIn.mono {i1 i2 i1' i2' j1 j2 j1' j2' : Nat} {s : Option Nat × Option Nat}
    (h : PairIn i1 i1' j1 j1' s) (h1 : i2 ≤ i1) (h2 : i1' ≤ i2') (h3 : j2 ≤ j1) (h4 : j1' ≤ j2') :
    PairIn i2 i2' j2 j2' s := by
  obtain ⟨a, b, rfl, h5, h6, h7, h8⟩ := h
  exact ⟨a, b, rfl, by omega, by omega, by omega, by omega⟩

theorem subproblems_leaf [DecidableEq M] (i j : Nat) (target : List (Node M)) {n : Node M}
    (ns : List (Node M)) (h : ∀ cs mt, n ≠ .group cs mt) :
    subproblems i j target (n :: ns) = subproblems (i + nodeSize n) j target ns := by
  cases n with
  | group cs mt => exact absurd rfl (h cs mt)
  | _ => simp [subproblems]

/-- The pairs that begin at a group of the prototype. -/
def pairsOf [DecidableEq M] (i : Nat) (cs : List (Node M)) (mt : M) (j' : Nat) (m : Node M) :
    List (Option Nat × Option Nat) :=
  match m with
  | .group cs' mt' => if mt' = mt then (some i, some j') :: subproblems (i + 1) (j' + 1) cs' cs else []
  | _ => []

theorem subproblems_group [DecidableEq M] (i j : Nat) (target : List (Node M)) (cs : List (Node M))
    (mt : M) (ns : List (Node M)) :
    subproblems i j target (.group cs mt :: ns)
      = overNodes (pairsOf i cs mt) j target ++ subproblems (i + (1 + seqSize cs)) j target ns := by
  rw [subproblems]
  simp only [nodeSize]
  rfl

theorem subproblems_range [DecidableEq M] (ns : List (Node M)) : ∀ (i j : Nat) (target : List (Node M)),
    ∀ s ∈ subproblems i j target ns, PairIn i (i + seqSize ns) j (j + seqSize target) s := by
  induction ns using seq_induction with
  | nil =>
    intro i j target s hs
    simp [subproblems] at hs
  | leaf n ns hn ih =>
    intro i j target s hs
    rw [subproblems_leaf _ _ _ _ hn] at hs
    have e : seqSize (n :: ns) = nodeSize n + seqSize ns := by simp [seqSize]
    exact (ih _ _ _ s hs).mono (by omega) (by omega) (le_refl _) (le_refl _)
  | group cs mt ns ih1 ih2 =>
    intro i j target s hs
    rw [subproblems_group] at hs
    have e : seqSize (.group cs mt :: ns) = 1 + seqSize cs + seqSize ns := by simp [seqSize, nodeSize]
    rcases List.mem_append.mp hs with hs | hs
    · refine overNodes_range (body := pairsOf i cs mt)
        (fun a b s => PairIn i (i + seqSize (.group cs mt :: ns)) a b s)
        ?_ (fun a a' b b' x h1 h2 h => h.mono (le_refl _) (le_refl _) h1 h2) target j s hs
      intro j' m b hb
      cases m with
      | group cs' mt' =>
        simp only [pairsOf] at hb
        split at hb
        · rcases List.mem_cons.mp hb with rfl | hb
          · exact ⟨i, j', rfl, le_refl _, by omega, le_refl _, by simp [nodeSize]⟩
          · exact (ih1 _ _ _ b hb).mono (by omega) (by omega) (by omega) (by simp only [nodeSize]; omega)
        · cases hb
      | _ => cases hb
    · exact (ih2 _ _ _ s hs).mono (by omega) (by omega) (le_refl _) (le_refl _)

theorem subproblems_nodup [DecidableEq M] (ns : List (Node M)) : ∀ (i j : Nat) (target : List (Node M)),
    (subproblems i j target ns).Nodup := by
  induction ns using seq_induction with
  | nil =>
    intro i j target
    simp [subproblems]
  | leaf n ns hn ih =>
    intro i j target
    rw [subproblems_leaf _ _ _ _ hn]
    exact ih _ _ _
  | group cs mt ns ih1 ih2 =>
    intro i j target
    rw [subproblems_group]
    have hr : ∀ j' m, ∀ b ∈ pairsOf i cs mt j' m,
        PairIn i (i + (1 + seqSize cs)) j' (j' + nodeSize m) b := by
      intro j' m b hb
      cases m with
      | group cs' mt' =>
        simp only [pairsOf] at hb
        split at hb
        · rcases List.mem_cons.mp hb with rfl | hb
          · exact ⟨i, j', rfl, le_refl _, by omega, le_refl _, by simp [nodeSize]⟩
          · exact (subproblems_range cs _ _ _ b hb).mono (by omega) (by omega) (by omega)
              (by simp only [nodeSize]; omega)
        · cases hb
      | _ => cases hb
    have mono : ∀ a a' b b' (x : Option Nat × Option Nat), a' ≤ a → b ≤ b' →
        PairIn i (i + (1 + seqSize cs)) a b x → PairIn i (i + (1 + seqSize cs)) a' b' x :=
      fun a a' b b' x h1 h2 h => h.mono (le_refl _) (le_refl _) h1 h2
    rw [List.nodup_append]
    refine ⟨?_, ih2 _ _ _, fun x hx y hy e => ?_⟩
    · refine overNodes_nodup (fun a b s => PairIn i (i + (1 + seqSize cs)) a b s) hr mono ?_ ?_ target j
      · rintro a b a' b' x hab ⟨p, q, rfl, _, _, _, h1⟩ ⟨p', q', e, _, _, h2, _⟩
        cases e
        omega
      · intro j' m
        cases m with
        | group cs' mt' =>
          simp only [pairsOf]
          split
          · rw [List.nodup_cons]
            refine ⟨fun h => ?_, ih1 _ _ _⟩
            obtain ⟨a, b, e, h1, _⟩ := subproblems_range cs _ _ _ _ h
            cases e
            omega
          · exact List.nodup_nil
        | _ => exact List.nodup_nil
    · subst e
      obtain ⟨a, b, rfl, _, h1, _⟩ := overNodes_range (body := pairsOf i cs mt)
        (fun a b s => PairIn i (i + (1 + seqSize cs)) a b s) hr mono target j x hx
      obtain ⟨a', b', e, h2, _⟩ := subproblems_range ns _ _ _ _ hy
      cases e
      omega

/-- Where the box of a state is. -/
theorem sel_box_place {α : Type} {cfg : Config} (hc : cfg.Sensible) (proto target : List α) (s : SelState) (c : Box)
    (h : selBox cfg proto target s = some c) :
    0 ≤ c.left ∧ cfg.height + cfg.gapY ≤ c.top
    ∧ (∀ p, selProtoPlace s = some p → c.left = (p : ℚ) * (cfg.width + cfg.gapX) ∧ c.width = cfg.width)
    ∧ ∀ u, selTargetPlace s = some u →
      cfg.height + cfg.gapY + (u : ℚ) * (selBlock cfg + cfg.gapY) ≤ c.top
      ∧ c.top + c.height ≤ cfg.height + cfg.gapY + (u : ℚ) * (selBlock cfg + cfg.gapY) + selBlock cfg := by
  have hx := row_slots hc.width.le hc.gapX proto 0
  have hy := row_slots (selBlock_nonneg hc) hc.gapY target (cfg.height + cfg.gapY)
  have w0 := hc.width
  have h0 := hc.height
  have s0 := hc.separation
  have gx := hc.gapX
  have gy := hc.gapY
  have b0 := selBlock_nonneg hc
  have found : ∀ {w g x : ℚ} {l : List α} {k : Nat} {v : ℚ × ℚ}, find (row w g 0 x l).1 k = some v →
      v = (x + (k : ℚ) * (w + g), x + (k : ℚ) * (w + g) + w) := by
    intro w g x l k v hv
    have hm : (k, v) ∈ (row w g 0 x l).1 := List.mem_reverse.1 (mem_of_lookup hv)
    have := ((row_spec w g l 0 x).2.1 k v).mp hm
    simpa using this.2.2
  cases s with
  | final =>
    simp only [selBox] at h
    split at h
    · rename_i y y' hv
      have hv := found hv
      cases h
      simp only [Nat.cast_zero, zero_mul, add_zero, Prod.mk.injEq] at hv
      refine ⟨?_, ?_, by simp [selProtoPlace], by simp [selTargetPlace]⟩
      · simp only [Box.fromBoundary, (row_spec cfg.width cfg.gapX proto 0 0).1]
        positivity
      · simp only [Box.fromBoundary]
        linarith [hv.1]
    · cases h
  | «at» ca p u =>
    simp only [selBox] at h
    split at h
    · rename_i left right y y' hv hv'
      have hv := found hv
      have hv' := found hv'
      cases h
      simp only [Prod.mk.injEq] at hv hv'
      obtain ⟨rfl, rfl⟩ := hv
      obtain ⟨rfl, rfl⟩ := hv'
      have r0 : (0 : ℚ) ≤ selOffset (.at ca p u) ∧ selOffset (.at ca p u) ≤ 3 := by
        cases ca <;> constructor <;> norm_num [selOffset]
      have m0 : 0 ≤ selOffset (.at ca p u) * (cfg.height + cfg.separation) := by
        apply mul_nonneg r0.1; linarith
      have m1 : selOffset (.at ca p u) * (cfg.height + cfg.separation) ≤ 3 * (cfg.height + cfg.separation) := by
        apply mul_le_mul_of_nonneg_right r0.2; linarith
      have pu : 0 ≤ (u : ℚ) * (selBlock cfg + cfg.gapY) := by positivity
      refine ⟨?_, ?_, fun p' hp' => ?_, fun u' hu' => ?_⟩
      · simp only [Box.fromBoundary]
        positivity
      · simp only [Box.fromBoundary]
        linarith
      · cases hp'
        simp only [Box.fromBoundary]
        constructor <;> ring
      · cases hu'
        simp only [Box.fromBoundary, selBlock] at *
        constructor <;> linarith
    · cases h

end RUSure.Draw
