import Verif.Lemmas.LayoutNotes
import Verif.Props.DebugView

/-!
# C73: drawings of DAGs show everything, each state in a box of its own
-/

namespace RUSure.Props
open RUSure.Draw RUSure.Spec RUSure.Lemmas

section
variable {S K V I : Type} [DecidableEq S] [DecidableEq K] [DecidableEq V]

/-- C73: a drawing consists of styles, of the annotations, of the states and of the edges of the DAG,
each of them once. Tags tell which states are on solutions, which edges are between such states, and
which edges are emphasised. -/
theorem C73_shown (css : Text) (d : Dag S K V I) (ht : DagTopo d) (a : Annotator S K V I)
    (emphasized : List (Edge S K V I)) (calls : List Draw.Call)
    (h : renderDag css d a emphasized = some calls) :
    ∃ extras setup notes states edges, calls = setup ++ notes ++ states ++ edges.flatten
      ∧ a.extras = some extras
      ∧ (∀ c ∈ setup, corners c = [])
      ∧ List.Forall₂ ExtraDrawn extras notes
      ∧ List.Forall₂ (StateDrawn d a) d.stateList states
      ∧ List.Forall₂ (EdgeDrawn d a emphasized) d.edges edges := by
  obtain ⟨extras, states, edges, h1, h2, h3, rfl⟩ := render_parts h
  refine ⟨extras, _, _, states, edges, rfl, h1, ?_, ?_, ?_, ?_⟩
  · intro c hc
    rcases List.mem_append.mp hc with hc | hc
    · obtain ⟨t, -, rfl⟩ := List.mem_map.mp hc
      rfl
    · rcases List.mem_pair.mp hc with rfl | rfl <;> rfl
  · exact forall2_map (List.forall₂_same.mpr fun _ _ => rfl) fun x y (e : x = y) => e ▸ extra_drawn x
  · exact Forall₂.of_mem h2 fun s _ c hc => stateCall_drawn ht hc
  · exact Forall₂.of_mem h3 fun e _ cs hc => edgeCalls_drawn ht hc

/-- C73: there is a drawing if there are annotations of all states and edges. -/
theorem C73_total (css : Text) (d : Dag S K V I) (a : Annotator S K V I) (hx : a.extras ≠ none)
    (hs : ∀ s ∈ d.stateList, a.state s ≠ none) (he : ∀ e ∈ d.edges, a.edge e ≠ none)
    (emphasized : List (Edge S K V I)) : ∃ calls, renderDag css d a emphasized = some calls := by
  obtain ⟨extras, hx⟩ := Option.ne_none_iff_exists'.mp hx
  refine render_exists css hx (fun s h => ?_) (fun e h => Option.ne_none_iff_exists'.mp (he e h)) emphasized
  obtain ⟨n, hn⟩ := Option.ne_none_iff_exists'.mp (hs s h)
  exact ⟨n.bounds, by rw [Annotator.bounds, hn]; rfl⟩

/-- C73: groups are closed. -/
theorem C73_balanced (css : Text) (d : Dag S K V I) (a : Annotator S K V I)
    (emphasized : List (Edge S K V I)) (calls : List Draw.Call)
    (h : renderDag css d a emphasized = some calls) : Draw.Balanced calls := render_balanced h

end

section
variable {M : Type} {cfg : Config}

/-! ## Constraint DAGs -/

/-- C73: the states of a constraint DAG have boxes that do not overlap, edges lead to the right, from
the side of a box to the side of another. -/
theorem C73_constraint (hc : cfg.Sensible) (words : Words ConstraintState DecisionKey DecisionValue Bool)
    (nodeWords : NodeWords M) (styles : List Text) (proto : List (Node M))
    (d : Dag ConstraintState DecisionKey DecisionValue Bool)
    (hd : constructConstraintDag proto = .ok d) :
    GoodLayout d (constraintAnnotator cfg words nodeWords styles proto).bounds RightOf
      ∧ GoodLines d (constraintAnnotator cfg words nodeWords styles proto)
      ∧ ∀ css emphasized, ∃ calls,
        renderDag css d (constraintAnnotator cfg words nodeWords styles proto) emphasized = some calls := by
  have hb : (constraintAnnotator cfg words nodeWords styles proto).bounds = constraintBox cfg proto :=
    funext fun s => stateNote_bounds cfg words (constraintBox cfg proto) s
  have hl := constraint_layout hc proto d hd
  refine ⟨hb ▸ hl, ?_, fun css emphasized => ?_⟩
  · intro e he
    refine ⟨_, rfl, ?_, ?_, ?_, ?_⟩
    · have := constraintOffset_range e.dest
      simp only [constraintNote]
      constructor <;> linarith
    · have := constraintOffset_range e.source
      simp only [constraintNote]
      constructor <;> linarith
    · simp only [constraintNote]
      split <;> norm_num
    · intro b c h1 h2
      rw [hb] at h1 h2
      exact hl.edges e he b c h1 h2
  · refine render_exists css (extras := _) rfl (fun s hs => ?_) (fun e _ => ⟨_, rfl⟩) emphasized
    rw [hb]
    obtain ⟨b, h, _⟩ := hl.all s hs
    exact ⟨b, h⟩

/-- C73: the texts of the nodes that are not groups are shown once and in order, each between the boxes
of the states before and after the node, and apart from all states. -/
theorem C73_constraint_texts (hc : cfg.Sensible)
    (words : Words ConstraintState DecisionKey DecisionValue Bool) (nodeWords : NodeWords M)
    (styles : List Text) (proto : List (Node M)) :
    ∃ texts, (constraintAnnotator cfg words nodeWords styles proto).extras = some texts
      ∧ List.Forall₂ (fun l x => ∃ b, TextIn (nodeWords.node l.1.2) b x
        ∧ ∀ s c, (constraintAnnotator cfg words nodeWords styles proto).bounds s = some c →
          Apart b c ∧ (conPlace s = some l.2 → RightOf c b)
          ∧ (conPlace s = some (l.2.1, l.2.2 + 1) → RightOf b c))
        (leaves none 0 0 proto) texts := by
  have hb : (constraintAnnotator cfg words nodeWords styles proto).bounds = constraintBox cfg proto :=
    funext fun s => stateNote_bounds cfg words (constraintBox cfg proto) s
  refine ⟨_, rfl, ?_⟩
  rw [hb]
  refine forall2_map (track_marks cfg.width cfg.gapX (cfg.gapX + cfg.width)
    (constraintTrack cfg proto).slots proto none 0 0 _ fun _ h => h) ?_
  rintro l m ⟨h1, h2, a, b, h3, h4⟩
  refine ⟨_, ⟨rfl, by rw [h2]⟩, fun s c hs => ⟨?_, fun hk => ?_, fun hk => ?_⟩⟩
  · have e1 := constraint_top hc proto hs
    have e2 := hc.separation
    have e3 := hc.height
    refine .inr (.inr (.inl ?_))
    simp only [Box.fromBoundary]
    linarith
  · exact le_of_eq (constraint_at hc proto hk h3 hs).2
  · refine le_of_eq ?_
    rw [(constraint_at hc proto hk h4 hs).1]
    simp [Box.fromBoundary]

/-! ## Edit DAGs -/

/-- Annotations of edit DAGs, by parts. -/
theorem edit_extras [DecidableEq M] (hc : cfg.Sensible)
    (words : Words EditState DecisionKey DecisionValue (Option EditInfo)) (nodeWords : NodeWords M)
    (styles : List Text) (proto target : List (Node M)) :
    ∃ regions, (editAnnotator cfg words nodeWords styles proto target).extras = some (regions
      ++ textNotes cfg nodeWords (fun m => .fromBoundary m.lo (-cfg.gapY - cfg.height) m.hi (-cfg.gapY))
        (protoTrack cfg proto).marks
      ++ textNotes cfg nodeWords (fun m => .fromBoundary (-cfg.width) m.lo 0 m.hi)
        (targetTrack cfg target).marks)
      ∧ List.Forall₂ (fun k x => ∃ b, RegionIn b x ∧ ∀ s c, editBox cfg proto target s = some c →
          editPair s = some k → Inside c b)
        ((none, none) :: subproblems 0 0 target proto) regions := by
  have hw := hc.width.le
  have hx := hc.gapX
  have hy := hc.gapY
  have hB := editBlock_nonneg hc
  have hroot : ∀ (w g tail x : ℚ) (ns : List (Node M)), Has (track w g tail none 0 0 x ns).slots (none, 0) := by
    intro w g tail x ns
    cases ns with
    | nil => exact ⟨_, by rw [track]; exact List.mem_cons_self ..⟩
    | cons n ns => exact ⟨_, by rw [track.eq_def]; exact List.mem_cons_self ..⟩
  have hok : ∀ k ∈ (none, none) :: subproblems 0 0 target proto,
      Has (protoTrack cfg proto).slots (k.1, 0) ∧ Has (targetTrack cfg target).slots (k.2, 0) := by
    intro k hk
    rcases List.mem_cons.mp hk with rfl | hk
    · exact ⟨hroot .., hroot ..⟩
    · exact subproblems_ok proto none 0 0 0 none 0 0 0 target (proto_sub hc proto) (target_sub hc target) k hk
  have hspan := fun k (hk : k ∈ (none, none) :: subproblems 0 0 target proto) =>
    span_found hw hx hx proto (cfg.width + cfg.gapX, (protoTrack cfg proto).stop + cfg.gapX)
      (by dsimp only; linarith) (by dsimp only [protoTrack]; linarith) (hok k hk).1
  have hspan' := fun k (hk : k ∈ (none, none) :: subproblems 0 0 target proto) =>
    span_found hB hy hy target (0, (targetTrack cfg target).stop + cfg.gapY)
      (by dsimp only; linarith) (by dsimp only [targetTrack]; linarith) (hok k hk).2
  obtain ⟨regions, hr⟩ : ∃ regions, regionNotes (protoTrack cfg proto) (targetTrack cfg target)
        (cfg.width + cfg.gapX, (protoTrack cfg proto).stop + cfg.gapX)
        (0, (targetTrack cfg target).stop + cfg.gapY)
        ((none, none) :: subproblems 0 0 target proto) = some regions := by
    refine collect_exists fun k hk => ?_
    obtain ⟨sp, h1, -⟩ := hspan k hk
    obtain ⟨sp', h2, -⟩ := hspan' k hk
    exact ⟨_, by rw [show find ((protoTrack cfg proto).spans ++ _) k.1 = _ from h1,
      show find ((targetTrack cfg target).spans ++ _) k.2 = _ from h2]⟩
  refine ⟨regions, by simp only [editAnnotator, hr], ?_⟩
  refine Forall₂.of_mem (collect_some hr) fun k hk x hx' => ?_
  obtain ⟨sp, h1, h2⟩ := hspan k hk
  obtain ⟨sp', h3, h4⟩ := hspan' k hk
  rw [show find ((protoTrack cfg proto).spans ++ _) k.1 = _ from h1,
    show find ((targetTrack cfg target).spans ++ _) k.2 = _ from h3] at hx'
  cases hx'
  refine ⟨_, rfl, fun s c hs hp => ?_⟩
  cases s with
  | final => cases hp
  | «at» al cf q p t u =>
    cases hp
    have hs' := hs
    unfold editBox at hs'
    dsimp only at hs'
    split at hs'
    · rename_i left right y y' e1 e2
      have m1 := mem_of_find e1
      have m2 := mem_of_find e2
      have a1 := edit_at hc proto target (s := .at al cf q p t u) rfl m1 hs
      have a2 := edit_down hc proto target (s := .at al cf q p t u) rfl m2 hs
      have b1 := h2 _ _ m1
      have b2 := h4 _ _ m2
      dsimp only at a1 a2 b1 b2
      refine ⟨?_, ?_, ?_, ?_⟩ <;> simp only [Box.fromBoundary] <;> linarith [a1.1, a1.2, a2.1, a2.2, b1.1, b1.2, b2.1, b2.2]
    · cases hs'

/-- C73: the states of an edit DAG have boxes that do not overlap, edges lead to the right or
downwards. -/
theorem C73_edit [DecidableEq M] (hc : cfg.Sensible)
    (words : Words EditState DecisionKey DecisionValue (Option EditInfo)) (nodeWords : NodeWords M)
    (styles : List Text) (prm : Params) (proto target : List (Node M))
    (d : Dag EditState DecisionKey DecisionValue (Option EditInfo))
    (hd : constructEditDag prm proto target = .ok d) :
    GoodLayout d (editAnnotator cfg words nodeWords styles proto target).bounds
        (fun b c => RightOf b c ∨ Below b c)
      ∧ GoodLines d (editAnnotator cfg words nodeWords styles proto target)
      ∧ ∀ css emphasized, ∃ calls,
        renderDag css d (editAnnotator cfg words nodeWords styles proto target) emphasized = some calls := by
  have hb : (editAnnotator cfg words nodeWords styles proto target).bounds = editBox cfg proto target :=
    funext fun s => stateNote_bounds cfg words (editBox cfg proto target) s
  have hl := edit_layout hc prm proto target d hd
  have hlines : GoodLines d (editAnnotator cfg words nodeWords styles proto target) := by
    intro e he
    obtain ⟨b, h1, p1⟩ := hl.all e.source ((C53_state_list d).2 _ |>.mpr ⟨e, he, .inl rfl⟩)
    obtain ⟨c, h2, _⟩ := hl.all e.dest ((C53_state_list d).2 _ |>.mpr ⟨e, he, .inr rfl⟩)
    have r := editLine_range e
    have g1 : (editRank e.source : ℚ) ≤ 7 := by exact_mod_cast editRank_le e.source
    have g2 : (editRank e.dest : ℚ) ≤ 7 := by exact_mod_cast editRank_le e.dest
    have g3 : (0 : ℚ) ≤ editRank e.source := Nat.cast_nonneg _
    have g4 : (0 : ℚ) ≤ editRank e.dest := Nat.cast_nonneg _
    refine ⟨_, by simp only [editAnnotator, editNote, h1, h2]; rfl, ?_, ?_, ?_, ?_⟩
    · dsimp only
      split
      · exact r
      · rw [editOffset_rank]
        constructor <;> linarith
    · dsimp only
      split
      · exact r
      · rw [editOffset_rank]
        constructor <;> linarith
    · dsimp only
      split <;> norm_num
    · intro b' c' k1 k2
      rw [hb, h1] at k1
      rw [hb, h2] at k2
      cases k1
      cases k2
      have ax := proper_axis p1 (hl.edges e he b c h1 h2)
      dsimp only
      by_cases hs : b.left = c.left
      · rw [if_pos hs]
        exact ax.1 hs
      · rw [if_neg hs]
        exact ax.2 hs
  refine ⟨hb ▸ hl, hlines, fun css emphasized => ?_⟩
  obtain ⟨regions, hx, -⟩ := edit_extras hc words nodeWords styles proto target
  refine render_exists css hx (fun s hs => ?_) (fun e he => ?_) emphasized
  · rw [hb]
    obtain ⟨b, h, _⟩ := hl.all s hs
    exact ⟨b, h⟩
  · obtain ⟨n, hn, _⟩ := hlines e he
    exact ⟨n, hn⟩

/-- C73: the texts of the nodes that are not groups are shown above the states (the prototype) and on
the left (the target), once and in order, each between the boxes of the states before and after the
node. There is a region for each pair of sequences of which nodes are compared, around the boxes of its
states. -/
theorem C73_edit_extras [DecidableEq M] (hc : cfg.Sensible)
    (words : Words EditState DecisionKey DecisionValue (Option EditInfo)) (nodeWords : NodeWords M)
    (styles : List Text) (prm : Params) (proto target : List (Node M))
    (d : Dag EditState DecisionKey DecisionValue (Option EditInfo))
    (hd : constructEditDag prm proto target = .ok d) :
    ∃ pairs regions texts texts',
      (editAnnotator cfg words nodeWords styles proto target).extras = some (regions ++ texts ++ texts')
      ∧ pairs.Nodup
      ∧ (∀ q t, (q, t) ∈ pairs ↔ ∃ e ∈ d.edges, ∃ c p u, e.source = .at .process c q p t u)
      ∧ List.Forall₂ (fun k x => ∃ b, RegionIn b x ∧ ∀ s c,
          (editAnnotator cfg words nodeWords styles proto target).bounds s = some c →
          editPair s = some k → Inside c b)
        pairs regions
      ∧ List.Forall₂ (fun l x => ∃ b, TextIn (nodeWords.node l.1.2) b x
        ∧ ∀ s c, (editAnnotator cfg words nodeWords styles proto target).bounds s = some c →
          Apart b c ∧ (protoPlace s = some l.2 → RightOf c b)
          ∧ (protoPlace s = some (l.2.1, l.2.2 + 1) → RightOf b c))
        (leaves none 0 0 proto) texts
      ∧ List.Forall₂ (fun l x => ∃ b, TextIn (nodeWords.node l.1.2) b x
        ∧ ∀ s c, (editAnnotator cfg words nodeWords styles proto target).bounds s = some c →
          Apart b c ∧ (targetPlace s = some l.2 → c.top + c.height ≤ b.top)
          ∧ (targetPlace s = some (l.2.1, l.2.2 + 1) → b.top + b.height ≤ c.top))
        (leaves none 0 0 target) texts' := by
  have hb : (editAnnotator cfg words nodeWords styles proto target).bounds = editBox cfg proto target :=
    funext fun s => stateNote_bounds cfg words (editBox cfg proto target) s
  obtain ⟨regions, hx, hr⟩ := edit_extras hc words nodeWords styles proto target
  rw [Lemmas.constructEditDag_ok] at hd
  cases hd
  rw [hb]
  refine ⟨_, regions, _, _, hx, ?_, fun q t => subproblems_iff prm proto target q t, hr, ?_, ?_⟩
  · rw [List.nodup_cons]
    refine ⟨fun h => ?_, subproblems_nodup proto 0 0 target⟩
    obtain ⟨a, b, e, _⟩ := subproblems_range proto 0 0 target _ h
    cases e
  · refine forall2_map (track_marks cfg.width cfg.gapX cfg.gapX
      (protoTrack cfg proto).slots proto none 0 0 _ fun _ h => h) ?_
    rintro l m ⟨h1, h2, a, b, h3, h4⟩
    refine ⟨_, ⟨rfl, by rw [h2]⟩, fun s c hs => ⟨?_, fun hk => ?_, fun hk => ?_⟩⟩
    · have e1 := (edit_corner hc proto target hs).2
      have e2 := hc.gapY
      refine .inr (.inr (.inl ?_))
      simp only [Box.fromBoundary]
      linarith
    · exact le_of_eq (edit_at hc proto target hk h3 hs).2
    · refine le_of_eq ?_
      rw [(edit_at hc proto target hk h4 hs).1]
      simp [Box.fromBoundary]
  · refine forall2_map (track_marks (editBlock cfg) cfg.gapY cfg.gapY
      (targetTrack cfg target).slots target none 0 0 _ fun _ h => h) ?_
    rintro l m ⟨h1, h2, a, b, h3, h4⟩
    refine ⟨_, ⟨rfl, by rw [h2]⟩, fun s c hs => ⟨?_, fun hk => ?_, fun hk => ?_⟩⟩
    · have e1 := (edit_corner hc proto target hs).1
      refine .inl ?_
      simp only [Box.fromBoundary]
      linarith
    · exact (edit_down hc proto target hk h3 hs).2
    · have := (edit_down hc proto target hk h4 hs).1
      simp only [Box.fromBoundary] at this ⊢
      linarith

/-! ## Selection DAGs -/

/-- C73: the states of a selection DAG have boxes that do not overlap, edges lead to the right or
downwards. -/
theorem C73_selection [DecidableEq M] (hc : cfg.Sensible)
    (words : Words SelState DecisionKey DecisionValue (Option SelInfo)) (itemWords : ItemWords M)
    (styles : List Text) (f : SelUtility M) (proto target : List (Node M))
    (d : Dag SelState DecisionKey DecisionValue (Option SelInfo))
    (hd : constructSelectionDag f (pack proto) (pack target) = .ok d) :
    GoodLayout d (selAnnotator cfg words itemWords styles (items 0 proto) (items 0 target)).bounds
        (fun b c => RightOf b c ∨ Below b c)
      ∧ GoodLines d (selAnnotator cfg words itemWords styles (items 0 proto) (items 0 target))
      ∧ ∀ css emphasized, ∃ calls,
        renderDag css d (selAnnotator cfg words itemWords styles (items 0 proto) (items 0 target)) emphasized
          = some calls := by
  have hb : (selAnnotator cfg words itemWords styles (items 0 proto) (items 0 target)).bounds
      = selBox cfg (items 0 proto) (items 0 target) :=
    funext fun s => stateNote_bounds cfg words (selBox cfg (items 0 proto) (items 0 target)) s
  have hl := sel_layout hc f proto target d hd
  have hlines : GoodLines d (selAnnotator cfg words itemWords styles (items 0 proto) (items 0 target)) := by
    intro e he
    obtain ⟨b, h1, p1⟩ := hl.all e.source ((C53_state_list d).2 _ |>.mpr ⟨e, he, .inl rfl⟩)
    obtain ⟨c, h2, _⟩ := hl.all e.dest ((C53_state_list d).2 _ |>.mpr ⟨e, he, .inr rfl⟩)
    have r := selLine_range e
    have g1 : (selRank e.source : ℚ) ≤ 3 := by exact_mod_cast selRank_le e.source
    have g2 : (selRank e.dest : ℚ) ≤ 3 := by exact_mod_cast selRank_le e.dest
    have g3 : (0 : ℚ) ≤ selRank e.source := Nat.cast_nonneg _
    have g4 : (0 : ℚ) ≤ selRank e.dest := Nat.cast_nonneg _
    refine ⟨_, by simp only [selAnnotator, selNote, h1, h2]; rfl, ?_, ?_, ?_, ?_⟩
    · dsimp only
      split
      · exact r
      · rw [selOffset_rank]
        constructor <;> linarith
    · dsimp only
      split
      · exact r
      · rw [selOffset_rank]
        constructor <;> linarith
    · norm_num
    · intro b' c' k1 k2
      rw [hb, h1] at k1
      rw [hb, h2] at k2
      cases k1
      cases k2
      have ax := proper_axis p1 (hl.edges e he b c h1 h2)
      dsimp only
      by_cases hs : b.left = c.left
      · rw [if_pos hs]
        exact ax.1 hs
      · rw [if_neg hs]
        exact ax.2 hs
  refine ⟨hb ▸ hl, hlines, fun css emphasized => ?_⟩
  refine render_exists css rfl (fun s hs => ?_) (fun e he => ?_) emphasized
  · rw [hb]
    obtain ⟨b, h, _⟩ := hl.all s hs
    exact ⟨b, h⟩
  · obtain ⟨n, hn, _⟩ := hlines e he
    exact ⟨n, hn⟩

theorem token_literal (printable : Char → Bool) (t : Text) :
    ∃ q, Debug.Literal (q :: (((Debug.pyRepr printable t).drop 1).dropLast ++ [q])) t := by
  refine ⟨Debug.quote t, ?_⟩
  have h : ∀ (q : Char) (l : Text), q :: (((q :: (l ++ [q])).drop 1).dropLast ++ [q]) = q :: (l ++ [q]) := by
    intro q l
    simp
  rw [Debug.pyRepr, h]
  exact (C74_repr printable t).1

/-- C73: the texts of the items of the traversals are shown above the states (the prototype) and on the left (the
target), once and in order, each between the boxes of the states before and after the item, and apart from all
states. -/
theorem C73_selection_texts (hc : cfg.Sensible)
    (words : Words SelState DecisionKey DecisionValue (Option SelInfo)) (itemWords : ItemWords M)
    (styles : List Text) (proto target : List (Node M)) :
    ∃ texts texts', (selAnnotator cfg words itemWords styles (items 0 proto) (items 0 target)).extras
        = some (texts ++ texts')
      ∧ texts.length = (items 0 proto).length ∧ texts'.length = (items 0 target).length
      ∧ (∀ k item, (items 0 proto)[k]? = some item → ∃ x b shown, texts[k]? = some x ∧ TextIn shown b x
        ∧ ItemText true item shown
        ∧ ∀ s c, (selAnnotator cfg words itemWords styles (items 0 proto) (items 0 target)).bounds s = some c →
          Apart b c ∧ (selProtoPlace s = some k → RightOf c b) ∧ (selProtoPlace s = some (k + 1) → RightOf b c))
      ∧ ∀ k item, (items 0 target)[k]? = some item → ∃ x b shown, texts'[k]? = some x ∧ TextIn shown b x
        ∧ ItemText false item shown
        ∧ ∀ s c, (selAnnotator cfg words itemWords styles (items 0 proto) (items 0 target)).bounds s = some c →
          Apart b c ∧ (selTargetPlace s = some k → c.top + c.height ≤ b.top)
          ∧ (selTargetPlace s = some (k + 1) → b.top + b.height ≤ c.top) := by
  have hb : (selAnnotator cfg words itemWords styles (items 0 proto) (items 0 target)).bounds
      = selBox cfg (items 0 proto) (items 0 target) :=
    funext fun s => stateNote_bounds cfg words (selBox cfg (items 0 proto) (items 0 target)) s
  have hlen : ∀ (w g : ℚ) (l : List (SelItem M)) (x : ℚ), (rowMarks w g x l).length = l.length := by
    intro w g l
    induction l with
    | nil => intro x; rfl
    | cons a l ih => intro x; rw [rowMarks, List.length_cons, ih, List.length_cons]
  have hw := hc.width
  have hh := hc.height
  have hgx := hc.gapX
  have hgy := hc.gapY
  refine ⟨_, _, rfl, by rw [List.length_map, hlen], by rw [List.length_map, hlen], fun k item hk => ?_,
    fun k item hk => ?_⟩
  · refine ⟨_, ⟨0 + (k : ℚ) * (cfg.width + cfg.gapX) + cfg.width, 0, _, cfg.height⟩, protoItemText itemWords item,
      by rw [List.getElem?_map, rowMarks_get, hk]; rfl, by exact ⟨rfl, rfl⟩, ?_, fun s c hs => ?_⟩
    · cases item with
      | tok i t mt =>
        exact token_literal itemWords.printable t
      | opens i mt => rfl
      | closes i mt => rfl
      | start i => exact fun _ => rfl
      | stop i => exact fun _ => rfl
      | other i => trivial
    · rw [hb] at hs
      obtain ⟨h1, h2, h3, -⟩ := sel_box_place hc _ _ s c hs
      refine ⟨.inr (.inr (.inl ?_)), fun hp => ?_, fun hp => ?_⟩
      · dsimp only; linarith
      · obtain ⟨e1, e2⟩ := h3 _ hp
        rw [RightOf, e1, e2]
        dsimp only; linarith
      · obtain ⟨e1, e2⟩ := h3 _ hp
        rw [RightOf, e1]
        dsimp only; push_cast; linarith
  · refine ⟨_, ⟨-(cfg.width + cfg.gapX), cfg.height + cfg.gapY + (k : ℚ) * (selBlock cfg + cfg.gapY) + selBlock cfg,
        cfg.width, _⟩, targetItemText itemWords item,
      by rw [List.getElem?_map, rowMarks_get, hk]; rfl, by exact ⟨rfl, rfl⟩, ?_, fun s c hs => ?_⟩
    · cases item with
      | tok i t mt =>
        exact token_literal itemWords.printable t
      | opens i mt => rfl
      | closes i mt => rfl
      | start i => intro h; cases h
      | stop i => intro h; cases h
      | other i => trivial
    · rw [hb] at hs
      obtain ⟨h1, -, -, h4⟩ := sel_box_place hc _ _ s c hs
      refine ⟨.inl ?_, fun hp => ?_, fun hp => ?_⟩
      · dsimp only; linarith
      · have := (h4 _ hp).2
        dsimp only; linarith
      · have := (h4 _ hp).1
        dsimp only; push_cast at this; linarith

end

/-! ## Documents -/

/-- C73: the view box is the smallest box around everything that has been drawn, with a margin; the
texts of labels at points may go beyond. -/
theorem C73_view_box (num : ℚ → Text) (s s' : SvgState) (hs : s.Fresh) (cs : List Draw.Call)
    (hsize : ∀ c ∈ cs, SizesOk c) (h : s.calls num cs = some s') (padding : ℚ) :
    (cs.flatMap corners = [] ∧ s'.viewBox padding
        = ⟨-padding, -padding, 10 + 2 * padding, 10 + 2 * padding⟩)
      ∨ ∃ b, Hull (cs.flatMap corners) b ∧ s'.viewBox padding
        = ⟨b.left - padding, b.top - padding, b.width + 2 * padding, b.height + 2 * padding⟩ := by
  have h1 : HullOf ([] ++ cs.flatMap corners) s'.bounds :=
    hull_calls (by rw [hs.2.1]; rfl) hsize h
  rw [List.nil_append] at h1
  cases hb : s'.bounds with
  | none =>
    rw [hb] at h1
    refine .inl ⟨h1, ?_⟩
    simp only [SvgState.viewBox, hb, Option.getD_none, Box.fromBoundary, Box.right, Box.bottom, Box.mk.injEq]
    refine ⟨?_, ?_, ?_, ?_⟩ <;> ring
  | some b =>
    rw [hb] at h1
    refine .inr ⟨b, h1, ?_⟩
    simp only [SvgState.viewBox, hb, Option.getD_some, Box.fromBoundary, Box.right, Box.bottom, Box.mk.injEq]
    exact ⟨trivial, trivial, by ring, by ring⟩

/-- C73: calls whose lines have points never fail. -/
theorem C73_calls_total (num : ℚ → Text) (s : SvgState) (cs : List Draw.Call)
    (h : ∀ ps, Draw.Call.line ps ∈ cs → ps ≠ []) : ∃ s', s.calls num cs = some s' :=
  calls_exist s h

/-- C73: documents are well formed: every element is closed, in the right order. -/
theorem C73_well_formed (num : ℚ → Text) (hn : ∀ q, '>' ∉ num q) (s s' : SvgState) (hs : s.Fresh)
    (cs : List Draw.Call) (hb : Draw.Balanced cs) (ht : ∀ c ∈ cs, Tame c)
    (h : s.calls num cs = some s') (padding : ℚ) :
    Draw.nest [] (tagsOf none (s'.toHtml num padding)) = some [] := by
  obtain ⟨h1, h2, -⟩ := calls_items h
  have hm := moves_document hn (s := s') padding (by
    intro css hc
    rw [h2] at hc
    rcases List.mem_append.mp hc with hc | hc
    · exact hs.2.2 css hc
    · obtain ⟨c, hc1, hc2⟩ := List.mem_flatMap.mp hc
      cases c with
      | style t =>
        rw [stylesOf, List.mem_singleton] at hc2
        subst hc2
        exact ht _ hc1
      | _ => cases hc2) (by
    intro st
    rw [h1, hs.1, List.nil_append]
    exact moves_calls hn s.withHover hb ht st)
  rw [SvgState.toHtml, tags_pieces hm.ok]
  exact hm.nested

/-- C73: the lines of all texts are in the document, escaped. -/
theorem C73_texts_written (num : ℚ → Text) (s s' : SvgState) (cs : List Draw.Call)
    (h : s.calls num cs = some s') (padding : ℚ) (c : Draw.Call) (hc : c ∈ cs) (t : Text)
    (ht : labelOf c = some t) :
    ∃ lines, List.intercalate ['\n'] lines = t ∧ (∀ l ∈ lines, '\n' ∉ l)
      ∧ ∀ l ∈ lines, '>' :: htmlEscape l ++ "</text>".toList <:+: s'.toHtml num padding := by
  obtain ⟨e1, e2⟩ := RUSure.Draw.split_lines t
  refine ⟨splitLines t, e1, e2, fun l hl => ?_⟩
  obtain ⟨h1, -, -⟩ := calls_items h
  have key : ∀ (ps : List Draw.Piece) (x : Text), ps ∈ itemOf num s.withHover c →
      [Draw.Piece.tag x, .shown l, .tag "/text".toList] <:+: ps →
      '>' :: htmlEscape l ++ "</text>".toList <:+: s'.toHtml num padding := by
    intro ps x hps hx
    have i1 : ps <:+: joinPieces (.layout ['\n']) s'.items := by
      refine infix_join ?_
      rw [h1]
      exact List.mem_append_right _ (List.mem_flatMap.mpr ⟨c, hc, hps⟩)
    have i2 : joinPieces (.layout ['\n']) s'.items <:+: s'.document num padding := by
      unfold SvgState.document
      exact ⟨_, _, rfl⟩
    have i3 := infix_write ((hx.trans i1).trans i2)
    refine List.IsInfix.trans ?_ i3
    have e : "</text>".toList = '<' :: ("/text".toList ++ ['>']) := by decide +kernel
    rw [e]
    refine ⟨'<' :: x, [], ?_⟩
    simp [Draw.Piece.write]
  obtain ⟨i, hi⟩ := List.mem_iff_getElem?.mp hl
  have hz : (l, i) ∈ (splitLines t).zipIdx := by
    rw [List.mem_zipIdx_iff_getElem?]
    exact hi
  cases c with
  | boxLabel b t' ho size tags =>
    cases ht
    refine key (boxLabelItem num s.withHover b t ho size tags) _ (List.mem_singleton.mpr rfl)
      ((texts_infix (fun l => boxTextTag num b.center.x (b.center.y
        + -size * (((splitLines t).length : ℚ) - 1) / 2 + size * l.2) size) hz).trans ?_)
    unfold boxLabelItem
    exact ⟨_, _, rfl⟩
  | pointLabel p t' size dir =>
    cases ht
    refine key (pointLabelItem num p t size dir) _ (List.mem_singleton.mpr rfl)
      ((texts_infix (fun l => pointTextTag num (p.x + (horizontalOffset size dir).2)
        (p.y + verticalOffset size (splitLines t).length dir + size * l.2) size
        (horizontalOffset size dir).1) hz).trans ?_)
    unfold pointLabelItem
    exact ⟨_, _, rfl⟩
  | _ => cases ht

/-- C73: the texts to be shown when the mouse is over something are in the document, escaped, if they
are wanted. -/
theorem C73_hover_written (num : ℚ → Text) (s s' : SvgState) (cs : List Draw.Call)
    (h : s.calls num cs = some s') (padding : ℚ) (hw : s.withHover = true) (c : Draw.Call) (hc : c ∈ cs)
    (t : Text) (ht : hoverOf c = some t) :
    "<title>".toList ++ htmlEscape t ++ "</title>".toList <:+: s'.toHtml num padding := by
  obtain ⟨h1, -, -⟩ := calls_items h
  have key : ∀ (ps : List Draw.Piece), ps ∈ itemOf num s.withHover c →
      hoverTitle true (some t) <:+: ps →
      "<title>".toList ++ htmlEscape t ++ "</title>".toList <:+: s'.toHtml num padding := by
    intro ps hps hx
    have i1 : ps <:+: joinPieces (.layout ['\n']) s'.items := by
      refine infix_join ?_
      rw [h1]
      exact List.mem_append_right _ (List.mem_flatMap.mpr ⟨c, hc, hps⟩)
    have i2 : joinPieces (.layout ['\n']) s'.items <:+: s'.document num padding := by
      unfold SvgState.document
      exact ⟨_, _, rfl⟩
    have i3 := infix_write ((hx.trans i1).trans i2)
    refine List.IsInfix.trans ?_ i3
    have e1 : "<title>".toList = '<' :: ("title".toList ++ ['>']) := by decide +kernel
    have e2 : "</title>".toList = '<' :: ("/title".toList ++ ['>']) := by decide +kernel
    rw [e1, e2]
    refine ⟨[], [], ?_⟩
    simp [Draw.Piece.write, hoverTitle]
  cases c with
  | boxLabel b t' ho size tags =>
    have ho' : ho = some t := ht
    refine key (boxLabelItem num s.withHover b t' ho size tags) (List.mem_singleton.mpr rfl) ?_
    rw [ho', hw]
    unfold boxLabelItem
    dsimp only
    exact (((List.suffix_append _ _).isInfix.trans (List.prefix_append _ _).isInfix).trans
      (List.prefix_append _ _).isInfix).trans (List.prefix_append _ _).isInfix
  | openGroup ho tags =>
    have ho' : ho = some t := ht
    refine key _ (List.mem_singleton.mpr rfl) ?_
    rw [ho', hw]
    exact ⟨_, _, rfl⟩
  | _ => cases ht

/-! ## Documents of DAGs -/

section
variable {S K V I : Type} [DecidableEq S] [DecidableEq K] [DecidableEq V]

/-- What is drawn for a DAG, call by call. -/
theorem render_cases {css : Text} {d : Dag S K V I} {a : Annotator S K V I}
    {emphasized : List (Edge S K V I)} {calls : List Draw.Call}
    (h : renderDag css d a emphasized = some calls) (P : Draw.Call → Prop)
    (hstyle : ∀ t ∈ a.styles, P (.style t)) (hcss : P (.style css)) (hfilter : P (.custom hoverFilter))
    (hextra : ∀ xs, a.extras = some xs → ∀ x ∈ xs, P (extraCall x))
    (hstate : ∀ s n, a.state s = some n → ∀ r : Bool, P (.boxLabel n.bounds n.text n.hover n.size
      (n.tags ++ ["state-annotation".toList]
        ++ [if r then "reachable-state".toList else "unreachable-state".toList])))
    (hedge : ∀ e n, a.edge e = some n → ∀ r : Bool, P (.openGroup n.hover (n.tags
      ++ ["edge-annotation".toList] ++ emphasisTags emphasized e
      ++ [if r then "reachable-edge".toList else "unreachable-edge".toList] ++ ["hover_to_top".toList])))
    (hline : ∀ p ps, P (.line (p :: ps))) (hdot : ∀ p, P (.dot p))
    (hlabel : ∀ p t size dir, P (.pointLabel p t size dir)) (hclose : P .closeGroup) :
    ∀ c ∈ calls, P c := by
  obtain ⟨extras, states, edges, h1, h2, h3, rfl⟩ := render_parts h
  intro c hc
  rcases List.mem_append.mp hc with hc | hc
  · rcases List.mem_append.mp hc with hc | hc
    · rcases List.mem_append.mp hc with hc | hc
      · rcases List.mem_append.mp hc with hc | hc
        · obtain ⟨t, ht, rfl⟩ := List.mem_map.mp hc
          exact hstyle t ht
        · rcases List.mem_pair.mp hc with rfl | rfl
          · exact hcss
          · exact hfilter
      · obtain ⟨x, hx, rfl⟩ := List.mem_map.mp hc
        exact hextra _ h1 x hx
    · obtain ⟨s, _, hs⟩ := forall2_right h2 hc
      unfold stateCall at hs
      split at hs
      · cases hs
      · rename_i n hn
        cases hs
        exact hstate s n hn _
  · obtain ⟨cs, hcs, hc⟩ := List.mem_flatten.mp hc
    obtain ⟨e, _, he⟩ := forall2_right h3 hcs
    unfold edgeCalls at he
    split at he
    · rename_i n s t hn hs ht
      cases he
      have hps : ∃ p ps, (edgePoints n s.bounds t.bounds).1 = p :: ps := by
        unfold edgePoints
        split <;> exact ⟨_, _, rfl⟩
      obtain ⟨p, ps, hps⟩ := hps
      simp only [List.mem_cons, List.not_mem_nil, or_false] at hc
      rcases hc with rfl | rfl | rfl | rfl | rfl
      · exact hedge e n hn _
      · rw [hps]
        exact hline p ps
      · exact hdot _
      · exact hlabel ..
      · exact hclose
    · cases he

/-- C73: every drawing of a DAG becomes a well-formed document. -/
theorem C73_document (num : ℚ → Text) (hn : ∀ q, '>' ∉ num q) (s : SvgState) (hs : s.Fresh)
    (css : Text) (hcss : '<' ∉ css) (d : Dag S K V I) (a : Annotator S K V I) (ha : a.TagsOk)
    (emphasized : List (Edge S K V I)) (calls : List Draw.Call)
    (h : renderDag css d a emphasized = some calls) :
    ∃ s', s.calls num calls = some s'
      ∧ ∀ padding, Draw.nest [] (tagsOf none (s'.toHtml num padding)) = some [] := by
  have hl : ∀ ps, Draw.Call.line ps ∈ calls → ps ≠ [] := by
    intro ps hps
    have := render_cases h (fun c => ∀ ps, c = .line ps → ps ≠ [])
      (fun _ _ => nofun) nofun nofun
      (fun _ _ x _ => by cases x <;> exact nofun)
      (fun _ _ _ _ => nofun) (fun _ _ _ _ => nofun)
      (fun p ps qs e => by cases e; exact nofun) (fun _ => nofun)
      (fun _ _ _ _ => nofun) nofun
    exact this _ hps ps rfl
  obtain ⟨s', hs'⟩ := calls_exist (num := num) s hl
  refine ⟨s', hs', fun padding => C73_well_formed num hn s s' hs calls (render_balanced h) ?_ hs' padding⟩
  have more : ∀ {x y : List Text}, (∀ t ∈ x, '>' ∉ t) → (∀ t ∈ y, '>' ∉ t) → ∀ t ∈ x ++ y, '>' ∉ t :=
    fun h1 h2 t ht => (List.mem_append.mp ht).elim (h1 t) (h2 t)
  have one : ∀ {x : Text}, '>' ∉ x → ∀ t ∈ [x], '>' ∉ t := fun h t ht => by
    rw [List.mem_singleton.mp ht]
    exact h
  refine render_cases h Tame ha.styles hcss rfl (fun xs hxs x hx => ?_) (fun s n hn r => ?_)
    (fun e n hn r => ?_) (fun _ _ => trivial) (fun _ => trivial) (fun _ _ _ _ => trivial) trivial
  · cases x with
    | region b tags => exact more (ha.extras xs hxs _ hx) (one (by decide +kernel))
    | text b t size hover tags => exact more (ha.extras xs hxs _ hx) (one (by decide +kernel))
  · refine more (more (ha.states s n hn) (one (by decide +kernel))) (one ?_)
    cases r <;> decide +kernel
  · refine more (more (more (more (ha.edges e n hn) (one (by decide +kernel))) ?_) (one ?_))
      (one (by decide +kernel))
    · unfold emphasisTags
      split
      · exact fun _ => nofun
      · split <;> exact one (by decide +kernel)
    · cases r <;> decide +kernel

/-- C73: all states of a DAG are inside the view box of the document. -/
theorem C73_in_view (num : ℚ → Text) (s s' : SvgState) (hs : s.Fresh) (css : Text) (d : Dag S K V I)
    (a : Annotator S K V I) (ha : a.SizesOk) (emphasized : List (Edge S K V I)) (calls : List Draw.Call)
    (h : renderDag css d a emphasized = some calls) (hs' : s.calls num calls = some s') (padding : ℚ)
    (hp : 0 ≤ padding) (st : S) (hst : st ∈ d.stateList) (n : StateNote) (hn : a.state st = some n) :
    Inside n.bounds (s'.viewBox padding) := by
  have hsize : ∀ c ∈ calls, SizesOk c := by
    refine render_cases h SizesOk (fun _ _ => trivial) trivial trivial (fun xs hxs x hx => ?_)
      (fun s n hn _ => ha.states s n hn) (fun _ _ _ _ => trivial) (fun _ _ => trivial)
      (fun _ => trivial) (fun _ _ _ _ => trivial) trivial
    cases x with
    | region b tags => exact ha.extras xs hxs _ hx
    | text b t size hover tags => exact ha.extras xs hxs _ hx
  have hc : ∃ t h' size tags, Draw.Call.boxLabel n.bounds t h' size tags ∈ calls := by
    obtain ⟨extras, states, edges, h1, h2, h3, rfl⟩ := render_parts h
    obtain ⟨c, hc, e⟩ := forall2_left h2 hst
    unfold stateCall at e
    rw [hn] at e
    cases e
    exact ⟨_, _, _, _, List.mem_append_left _ (List.mem_append_right _ hc)⟩
  obtain ⟨t, h', size, tags, hc⟩ := hc
  have m1 : (⟨n.bounds.left, n.bounds.top⟩ : Point) ∈ calls.flatMap corners :=
    List.mem_flatMap.mpr ⟨_, hc, List.mem_cons_self ..⟩
  have m2 : (⟨n.bounds.left + n.bounds.width, n.bounds.top + n.bounds.height⟩ : Point)
      ∈ calls.flatMap corners :=
    List.mem_flatMap.mpr ⟨_, hc, List.mem_cons_of_mem _ (List.mem_cons_self ..)⟩
  rcases C73_view_box num s s' hs calls hsize hs' padding with ⟨e, _⟩ | ⟨b, hb, e⟩
  · rw [e] at m1
    cases m1
  · rw [e]
    have g1 := hb.1 _ m1
    have g2 := hb.1 _ m2
    dsimp only at g1 g2
    refine ⟨?_, ?_, ?_, ?_⟩ <;> dsimp only <;> linarith [g1.1, g1.2.1, g1.2.2.1, g1.2.2.2, g2.1, g2.2.1, g2.2.2.1, g2.2.2.2]

end

/-! ## Labels at points -/

/-- C73 (a disagreement): a label above a point is drawn below it (the vertical axis points
downwards). -/
theorem C73_up_is_below (p : Point) (size : ℚ) (lines i : Nat) (hs : 0 < size) (hl : 0 < lines) :
    p.y < p.y + verticalOffset size lines .up + size * i := by
  have h1 : (1 : ℚ) ≤ lines := by exact_mod_cast hl
  have h2 : (0 : ℚ) ≤ size * i := mul_nonneg hs.le (Nat.cast_nonneg _)
  have h3 : size ≤ (lines : ℚ) * size := by nlinarith
  simp only [verticalOffset]
  linarith

/-- C73 (a disagreement): labels to the left and to the right of a point are level with it (their first
and last lines at the same distance from it) only if they have one line. -/
theorem C73_level_iff (p : Point) (size : ℚ) (lines : Nat) (hs : 0 < size) (hl : 0 < lines)
    (dir : Draw.Direction) (hd : dir = .left ∨ dir = .right) :
    p.y - (p.y + verticalOffset size lines dir)
        = (p.y + verticalOffset size lines dir + size * ((lines : ℚ) - 1)) - p.y ↔ lines = 1 := by
  have e : verticalOffset size lines dir = size * ((lines : ℚ) - 1) / 2 := by
    rcases hd with rfl | rfl <;> simp [verticalOffset]
  rw [e]
  constructor
  · intro h
    have h1 : size * ((lines : ℚ) - 1) = 0 := by linarith
    rcases mul_eq_zero.mp h1 with h2 | h2
    · exact absurd h2 hs.ne'
    · have : (lines : ℚ) = 1 := by linarith
      exact_mod_cast this
  · rintro rfl
    norm_num

/-! ## Examples -/

namespace DrawExamples

/-- The default sizes of the drawings of constraint DAGs. -/
def sizes : Config := ⟨12, 170, 20, 130, 60, 36⟩

theorem sizes_sensible : sizes.Sensible := by
  constructor <;> norm_num [sizes]

def names : NodeWords String := ⟨fun n => match n with
  | .tok t _ => t
  | _ => "other".toList, fun _ _ => [], fun _ => []⟩

def words {S K V I : Type} : Words S K V I :=
  ⟨fun _ => "state".toList, fun _ => [], fun _ => "edge".toList, fun _ => "a<b".toList, fun _ => ["edit".toList]⟩

def proto : List (Node String) :=
  [.tok ['a'] "n", .group [.rstart, .tok ['b'] "n", .rend] "g", .exit]

def target : List (Node String) := [.tok ['a'] "n", .group [.tok ['c'] "n"] "g"]

def num (q : ℚ) : Text := if q < 0 then ['-', '1'] else ['2']

theorem num_ok (q : ℚ) : '>' ∉ num q := by
  unfold num
  split <;> decide

def fresh : SvgState := ⟨[], ["text {}".toList], none, true⟩

theorem fresh_ok : fresh.Fresh := ⟨rfl, rfl, fun css h => by
  rw [List.mem_singleton.mp h]
  decide +kernel⟩

theorem conAnnotator_tags : (constraintAnnotator sizes words names [] proto).TagsOk where
  styles := fun _ => nofun
  states := by
    intro s n h t ht
    simp only [constraintAnnotator, stateNote] at h
    split at h
    · cases h
    · cases h
      cases ht
  edges := by
    intro e n h t ht
    cases h
    rw [List.mem_singleton.mp ht]
    decide +kernel
  extras := by
    intro xs h x hx t ht
    cases h
    obtain ⟨m, _, rfl⟩ := List.mem_map.mp hx
    cases ht

/-- C73: a constraint DAG with a group and an early exit is drawn; there is an edge that is emphasised,
and the drawing becomes a well-formed document. -/
example : ∃ d calls s', constructConstraintDag proto = .ok d ∧ d.edges ≠ []
    ∧ renderDag "a {}".toList d (constraintAnnotator sizes words names [] proto) (d.edges.take 1) = some calls
    ∧ fresh.calls num calls = some s'
    ∧ Draw.nest [] (tagsOf none (s'.toHtml num 10)) = some [] := by
  obtain ⟨calls, hc⟩ := (C73_constraint sizes_sensible words names [] proto _
    (constructConstraintDag_ok proto)).2.2 "a {}".toList ((constraintEdges proto).take 1)
  obtain ⟨s', h1, h2⟩ := C73_document num num_ok fresh fresh_ok "a {}".toList (by decide +kernel) _ _
    conAnnotator_tags _ calls hc
  refine ⟨_, calls, s', constructConstraintDag_ok proto, ?_, hc, h1, h2 10⟩
  simp [constraintEdges]

/-- C73: the order that drawings need is that of the DAGs that are built. -/
example : DagTopo (⟨constraintInitial, constraintEdges proto, .final⟩ :
    Dag ConstraintState DecisionKey DecisionValue Bool) := (constraint_topo proto).1

example (prm : Params) : DagTopo (⟨editInitial, editEdges prm proto target, .final⟩ :
    Dag EditState DecisionKey DecisionValue (Option EditInfo)) := (editEdges_topo prm proto target).1

/-- C73: an edit DAG is drawn. The nodes of two pairs of sequences are compared: those at the top, and
those of the groups. -/
example (prm : Params) : ∃ d calls, constructEditDag prm proto target = .ok d
    ∧ renderDag [] d (editAnnotator sizes words names [] proto target) [] = some calls := by
  obtain ⟨calls, hc⟩ := (C73_edit sizes_sensible words names [] prm proto target _
    (Lemmas.constructEditDag_ok prm proto target)).2.2 [] []
  exact ⟨_, calls, Lemmas.constructEditDag_ok prm proto target, hc⟩

example : (none, none) :: subproblems 0 0 target proto = [(none, none), (some 1, some 1)] := by
  simp [proto, target, subproblems, overNodes, nodeSize, seqSize]

/-- C73: the texts of the prototype and their places. -/
example : (leaves none 0 0 proto).map (fun l => (l.1.1, l.2))
    = [(0, (none, 0)), (2, (some 1, 0)), (3, (some 1, 1)), (4, (some 1, 2)), (5, (none, 2))] := by
  simp [proto, Draw.leaves, nodeSize, seqSize]

def itemNames : ItemWords String := ⟨fun _ => false, fun _ => [], fun _ => [], fun _ => []⟩

/-- C73: a selection DAG is drawn. -/
example (f : SelUtility String) : ∃ d calls, constructSelectionDag f (pack proto) (pack target) = .ok d
    ∧ renderDag [] d (selAnnotator sizes words itemNames [] (items 0 proto) (items 0 target)) [] = some calls := by
  obtain ⟨d, hd⟩ := (C50_builds f proto target).1.2 (by simp [items, proto])
  obtain ⟨calls, hc⟩ := (C73_selection sizes_sensible words itemNames [] f proto target d hd).2.2 [] []
  exact ⟨d, calls, hd, hc⟩

/-- C73: the items of the prototype whose texts are shown above the states. -/
example : (items 0 proto).length = 7 := by simp [proto, items]

/-- A box with a text of two lines, and a group with a line, a dot and a label. -/
def drawn : List Draw.Call :=
  [.boxLabel ⟨0, 0, 170, 20⟩ "a<b\nc".toList (some "x&y".toList) 12 ["state".toList],
    .openGroup none ["edge".toList], .line [⟨170, 10⟩, ⟨200, 10⟩, ⟨200, -30⟩, ⟨300, -30⟩], .dot ⟨200, -10⟩,
    .pointLabel ⟨200, -10⟩ "1".toList 12 .right, .closeGroup]

theorem drawn_balanced : Draw.Balanced drawn :=
  .draw _ _ (fun _ _ => nofun) nofun (.group _ _ [_, _, _] [] (.draw _ _ (fun _ _ => nofun) nofun
    (.draw _ _ (fun _ _ => nofun) nofun (.draw _ _ (fun _ _ => nofun) nofun .nil))) .nil)

/-- C73: the view box of this drawing with a margin of 10. -/
example : ∃ s', fresh.calls num drawn = some s' ∧ s'.viewBox 10 = ⟨-10, -40, 320, 70⟩ :=
  ⟨_, rfl, by
    simp only [SvgState.viewBox, SvgState.grow, fresh, Option.getD_some, Box.union, Box.fromBoundary, Box.right,
      Box.bottom, List.foldl_cons, List.foldl_nil, Box.mk.injEq]
    norm_num⟩

/-- C73: the document of this drawing is well formed, and it has the texts, escaped. -/
example : ∃ s', fresh.calls num drawn = some s'
    ∧ Draw.nest [] (tagsOf none (s'.toHtml num 10)) = some []
    ∧ "<title>x&amp;y</title>".toList <:+: s'.toHtml num 10 := by
  refine ⟨_, rfl, C73_well_formed num num_ok fresh _ fresh_ok drawn drawn_balanced ?_ rfl 10, ?_⟩
  · intro c hc
    simp only [drawn, List.mem_cons, List.not_mem_nil, or_false] at hc
    rcases hc with rfl | rfl | rfl | rfl | rfl | rfl
    · intro t ht
      rw [List.mem_singleton.mp ht]
      decide +kernel
    · intro t ht
      rw [List.mem_singleton.mp ht]
      decide +kernel
    all_goals trivial
  · have := C73_hover_written num fresh _ drawn rfl 10 rfl _ (List.mem_cons_self ..) "x&y".toList rfl
    have e : "<title>x&amp;y</title>".toList = "<title>".toList ++ htmlEscape "x&y".toList
        ++ "</title>".toList := by decide +kernel
    rw [e]
    exact this

/-- C73: a label of two lines "above" the origin is below it. -/
example : verticalOffset 12 2 .up = 24 := by norm_num [verticalOffset]

end DrawExamples

end RUSure.Props
