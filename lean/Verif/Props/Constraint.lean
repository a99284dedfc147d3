import Verif.Lemmas.Regions
import Verif.Props.Pipeline

/-!
# Properties of region decisions: C42, C43, C44, C45 (constraint DAG)
-/

namespace RUSure.Props
open RUSure RUSure.Spec RUSure.Lemmas
variable {M : Type}

/-! ### C42: the constraint DAG accepts exactly the well-formed region choices -/

/-- C42: building the constraint DAG never fails. -/
theorem C42_builds (proto : List (Node M)) : ∃ d, constructConstraintDag proto = .ok d :=
  ⟨_, constructConstraintDag_ok proto⟩

/-- C42: what the solutions of the constraint DAG decide, in order, is exactly what the region
grammar allows. -/
theorem C42_grammar (proto : List (Node M))
    (d : Dag ConstraintState DecisionKey DecisionValue Bool)
    (h : constructConstraintDag proto = .ok d) (ds : List Decision) :
    (∃ p, DagSolution d p ∧ p.flatMap (fun e => e.req.toList) = ds)
      ↔ ∃ x, RegionSeq false x 0 proto ds := by
  rw [constructConstraintDag_ok, Except.ok.injEq] at h
  subst h
  rw [← constraint_language]
  constructor
  · rintro ⟨p, ⟨hw, -⟩, hp⟩
    exact ⟨p, hw, hp⟩
  · rintro ⟨p, hw, hp⟩
    refine ⟨p, ⟨hw, fun e he => ?_⟩, hp⟩
    rw [constraintEdges_cost proto e (Walk.mem hw e he)]
    exact WithTop.coe_lt_top 0

/-- C42: an assignment is accepted by the constraint DAG iff it describes well-formed regions. -/
theorem C42_accepts (proto : List (Node M))
    (d : Dag ConstraintState DecisionKey DecisionValue Bool)
    (h : constructConstraintDag proto = .ok d) (α : DecisionKey → DecisionValue) :
    Accepts d (seqKeys 0 proto) α ↔ WellFormedRegions α proto := by
  rw [← validRegions_iff]
  constructor
  · rintro ⟨p, hp, hα⟩
    obtain ⟨x, hx⟩ := (C42_grammar proto d h _).1 ⟨p, hp, rfl⟩
    exact ⟨x, _, hx, fun k hk => by rw [hα k hk, valueOn_lookup]; rfl⟩
  · rintro ⟨x, ds, hx, hα⟩
    obtain ⟨p, hp, rfl⟩ := (C42_grammar proto d h ds).2 ⟨x, hx⟩
    exact ⟨p, hp, fun k hk => by rw [hα k hk, valueOn_lookup]; rfl⟩

/-! ### C45: keys are in increasing order, and packing succeeds -/

/-- C45 (constraint DAG): edges are listed in topological order, without self loops; and on every
solution the keys are strictly increasing. -/
theorem C45_constraint (proto : List (Node M))
    (d : Dag ConstraintState DecisionKey DecisionValue Bool)
    (h : constructConstraintDag proto = .ok d) :
    Topo Edge.source Edge.dest d.edges
    ∧ ∀ p, DagSolution d p → (assignedKeys p).Pairwise (· < ·)
        ∧ ∀ k ∈ assignedKeys p, k ∈ seqKeys 0 proto := by
  have h' := h
  rw [constructConstraintDag_ok, Except.ok.injEq] at h'
  refine ⟨by rw [← h']; exact constraint_topo proto, fun p hp => ?_⟩
  obtain ⟨x, hx⟩ := (C42_grammar proto d h _).1 ⟨p, hp, rfl⟩
  have hpre := (regionSeq_keys hx).1
  rw [← assignedKeys_eq] at hpre
  exact ⟨(seqKeys_sorted proto 0).sublist hpre.sublist, fun k hk => hpre.subset hk⟩

/-- Choosing no regions and no exit is always possible. -/
theorem regionSeq_none : ∀ (ns : List (Node M)) (b : Bool) (i : Nat),
    ∃ ds, RegionSeq b false i ns ds
  | [], b, i => ⟨_, .nil b i⟩
  | n :: ns, b, i => by
    cases n with
    | deco t => exact ⟨_, .deco (regionSeq_none ns b (i + 1)).choose_spec⟩
    | tok t mt => exact ⟨_, .tok (regionSeq_none ns b (i + 1)).choose_spec⟩
    | rstart => exact ⟨_, .skipStart (regionSeq_none ns b (i + 1)).choose_spec⟩
    | rend => exact ⟨_, .skipEnd (regionSeq_none ns b (i + 1)).choose_spec⟩
    | exit => exact ⟨_, .skipExit (regionSeq_none ns b (i + 1)).choose_spec⟩
    | group cs mt =>
      exact ⟨_, .group (regionSeq_none cs b (i + 1)).choose_spec
        (regionSeq_none ns b (i + 1 + seqSize cs)).choose_spec⟩

/-- Strictly increasing lists with the same elements are equal. -/
theorem sorted_ext {K : Type} [LinearOrder K] {l l' : List K} (h : l.Pairwise (· < ·))
    (h' : l'.Pairwise (· < ·)) (hm : ∀ k, k ∈ l ↔ k ∈ l') : l = l' := by
  have n1 : l.Nodup := h.imp fun h => ne_of_lt h
  have n2 : l'.Nodup := h'.imp fun h => ne_of_lt h
  exact ((List.perm_ext_iff_of_nodup n1 n2).2 hm).eq_of_pairwise
    (fun a b _ _ h1 h2 => absurd h1 (lt_asymm h2)) h h'

/-- C45 (constraint DAG): packing the pruned DAG never fails, and its variables are the decisions
there are for the prototype, in increasing order. -/
theorem C45_constraint_packs (proto : List (Node M))
    (d : Dag ConstraintState DecisionKey DecisionValue Bool)
    (h : constructConstraintDag proto = .ok d) :
    (∃ c, d.prune.convert .na (some [.no, .yes, .na]) = .ok c)
    ∧ ∀ c, d.prune.convert .na (some [.no, .yes, .na]) = .ok c → c.keys = seqKeys 0 proto := by
  obtain ⟨ht, hk⟩ := C45_constraint proto d h
  obtain ⟨ds, hds⟩ := regionSeq_none proto false 0
  obtain ⟨p, hp, hpd⟩ := (C42_grammar proto d h ds).2 ⟨false, hds⟩
  constructor
  · refine C54_succeeds d ht _ _ ?_ ⟨p, hp⟩ (fun p hp => (hk p hp).1) ?_
    · rw [constructConstraintDag_ok, Except.ok.injEq] at h
      rw [← h]
      simp [constraintInitial]
    · intro o ho
      obtain rfl := Option.some.inj ho
      refine ⟨by simp, fun e _ k x _ => ?_⟩
      cases x <;> simp
  · intro c hc
    obtain ⟨-, -, hs, hm, -⟩ := C27_convert d.prune (prune_topo d ht) _ _ c hc
    refine sorted_ext hs (seqKeys_sorted proto 0) fun k => ?_
    rw [hm]
    constructor
    · rintro ⟨e, he, x, hx⟩
      obtain ⟨p, hs, hep⟩ := ((C23_keeps_exactly d ht.1).1 e).1 he
      refine (hk p hs).2 k ?_
      exact List.mem_filterMap.mpr ⟨e, hep, by rw [hx]; rfl⟩
    · intro hkk
      rw [← (regionSeq_keys hds).2 rfl, ← hpd, ← assignedKeys_eq] at hkk
      obtain ⟨e, hep, he⟩ := List.mem_filterMap.mp hkk
      have hw := ((C23_solutions d ht.1 p).2 hp).1
      refine ⟨e, Walk.mem hw e hep, ?_⟩
      obtain ⟨⟨k', x⟩, hx, rfl⟩ := Option.map_eq_some_iff.mp he
      exact ⟨x, hx⟩

theorem valueOn_inst {S K V I : Type} (i₁ i₂ : DecidableEq K) (p : List (Edge S K V I)) (k : K) :
    @valueOn S K V I i₁ p k = @valueOn S K V I i₂ p k := by
  rw [Subsingleton.elim i₁ i₂]

/-- C42: the assignments that the packed form of the pruned constraint DAG reports for its complete
paths are exactly the well-formed region choices. -/
theorem C42_packed (proto : List (Node M))
    (d : Dag ConstraintState DecisionKey DecisionValue Bool)
    (h : constructConstraintDag proto = .ok d) (c : Conversion ConstraintState DecisionKey DecisionValue)
    (hc : d.prune.convert .na (some [.no, .yes, .na]) = .ok c) (α : DecisionKey → DecisionValue) :
    (∃ q, IndexedPath c.packed q ∧ Complete c.packed (q.map Prod.snd)
        ∧ c.pathAssignments q = (seqKeys 0 proto).map fun k => (k, α k))
      ↔ WellFormedRegions α proto := by
  rw [← C42_accepts proto d h]
  have ht := (C45_constraint proto d h).1
  have hkeys := (C45_constraint_packs proto d h).2 c hc
  have htp := prune_topo d ht
  constructor
  · rintro ⟨q, h1, h2, h3⟩
    obtain ⟨b1, -, b3, -⟩ := C26_backward d.prune htp _ _ c hc q h1 h2
    refine ⟨_, (C23_solutions d ht.1 _).1 b1, fun k hk => ?_⟩
    rw [b3, hkeys] at h3
    have := (List.map_inj_left.mp h3) k hk
    rw [Prod.mk.injEq] at this
    rw [← this.2, valueOn_inst]
  · rintro ⟨p, hp, hα⟩
    obtain ⟨q, h1, h2, h3⟩ := C26_forward d.prune htp _ _ c hc p ((C23_solutions d ht.1 p).2 hp)
    refine ⟨q, h1, h2, ?_⟩
    obtain ⟨-, -, b3, -⟩ := C26_backward d.prune htp _ _ c hc q h1 h2
    rw [b3, hkeys, h3]
    exact List.map_inj_left.mpr fun k hk => by rw [hα k hk, valueOn_inst]

/-! ### C43: extracting annotated sequences -/

/-- C43: if every decision about a region start, region end or exit has a value, extraction shows the nodes before the early
exit, and it fails, with an assertion, exactly if a region end is used there outside of any
region. -/
theorem C43_extract (proto : List (Node M)) (asg : DecisionKey → Option DecisionValue)
    (α : DecisionKey → DecisionValue) (marker : Text)
    (h : ∀ k ∈ seqKeys 0 proto, k.cat ≠ .inRegion → asg k = some (α k)) :
    (¬ StrayEnd α (kept α proto) →
      extractRegions (pack proto) asg marker = .ok (annotated α marker [] (kept α proto)))
    ∧ (StrayEnd α (kept α proto) → extractRegions (pack proto) asg marker = .error .assertion) := by
  rw [extract_plan proto asg marker h]
  have := planLoop_spec (α := α) marker (placed proto) [] false (by simp [inRegionAfter])
  simpa [StrayEnd, kept, inRegionAfter] using this

theorem kept_split {α : DecisionKey → DecisionValue} {proto : List (Node M)} {l r : List (Placed M)}
    {x : Placed M} (h : kept α proto = l ++ x :: r) :
    ∃ r', placed proto = l ++ x :: r' ∧ ∀ y ∈ l, y.exits α = false := by
  have h1 := List.takeWhile_append_dropWhile (p := fun x => !x.exits α) (l := placed proto)
  unfold kept at h
  refine ⟨r ++ (placed proto).dropWhile fun x => !x.exits α, ?_, fun y hy => ?_⟩
  · conv_lhs => rw [← h1, h]
    simp
  · have : y ∈ (placed proto).takeWhile fun x => !x.exits α := by rw [h]; simp [hy]
    simpa using (List.all_eq_true.mp (List.all_takeWhile (p := fun x => !Placed.exits α x)
      (l := placed proto))) y this

/-- C43: on decisions accepted by the constraint DAG, extraction never fails, whether or
not the membership of nodes in regions is given. It shows the nodes before the early exit, in order; a token is marked iff its in-region decision is true. -/
theorem C43_accepted (proto : List (Node M))
    (d : Dag ConstraintState DecisionKey DecisionValue Bool)
    (hd : constructConstraintDag proto = .ok d) (asg : DecisionKey → Option DecisionValue)
    (α : DecisionKey → DecisionValue) (marker : Text) (hα : Accepts d (seqKeys 0 proto) α)
    (h : ∀ k ∈ seqKeys 0 proto, k.cat ≠ .inRegion → asg k = some (α k)) :
    extractRegions (pack proto) asg marker = .ok (annotated α marker [] (kept α proto))
    ∧ ∀ l x r t mt, kept α proto = l ++ x :: r → x.node = .tok t mt →
        shown α marker l x = [⟨t, decide (α ⟨x.idx, .inRegion⟩ = .yes)⟩] := by
  have hw := (C42_accepts proto d hd α).1 hα
  constructor
  · refine (C43_extract proto asg α marker h).1 ?_
    rintro ⟨l, x, r, h1, h2, h3⟩
    obtain ⟨r', h4, h5⟩ := kept_split h1
    have := hw.nodes l x r' h4 h5
    rw [h3] at this
    obtain ⟨i, pa, n⟩ := x
    cases n <;> simp [Placed.mark, Placed.Ok] at h2 this
    rw [this] at h2
    simp at h2
  · intro l x r t mt h1 h2
    obtain ⟨r', h4, h5⟩ := kept_split h1
    have := hw.nodes l x r' h4 h5
    obtain ⟨i, pa, n⟩ := x
    subst h2
    simp only [Placed.Ok] at this
    simp only [shown, Placed.text, this]
    cases inRegionAfter α l <;> simp

/-- C43: the shown text is the text of the nodes before the early exit, if empty regions have no
marker (the default). -/
theorem C43_text (proto : List (Node M)) (α : DecisionKey → DecisionValue) :
    (annotated α [] [] (kept α proto)).flatMap MarkedToken.text
      = (kept α proto).flatMap fun x => x.text.getD [] := by
  have : ∀ (r l : List (Placed M)), (annotated α [] l r).flatMap MarkedToken.text
      = r.flatMap fun x => x.text.getD [] := by
    intro r
    induction r with
    | nil => intro l; rfl
    | cons x r ih =>
      intro l
      rw [annotated, List.flatMap_append, ih, List.flatMap_cons]
      congr 1
      unfold shown
      cases x.text with
      | some t => simp
      | none => dsimp only; split <;> simp
  exact this _ _

/-! ### C44: HTML -/

theorem escape_no_lt (t : Text) : '<' ∉ htmlEscape t := by
  unfold htmlEscape
  rw [List.mem_flatMap]
  rintro ⟨c, -, hc⟩
  split at hc
  · simp at hc
  split at hc
  · simp at hc
  split at hc
  · simp at hc
  split at hc
  · simp at hc
  split at hc
  · simp at hc
  · rename_i h _ _ _
    simp only [List.mem_singleton] at hc
    exact h hc.symm

theorem strip_text {l : Text} (h : '<' ∉ l) (r : Text) :
    stripTags false (l ++ r) = l ++ stripTags false r := by
  induction l with
  | nil => rfl
  | cons c l ih =>
    simp only [List.mem_cons, not_or] at h
    rw [List.cons_append, stripTags, if_neg (Ne.symm h.1), ih h.2, List.cons_append]

theorem tags_text {l : Text} (h : '<' ∉ l) (r : Text) :
    tagsOf none (l ++ r) = tagsOf none r := by
  induction l with
  | nil => rfl
  | cons c l ih =>
    simp only [List.mem_cons, not_or] at h
    rw [List.cons_append, tagsOf, if_neg (Ne.symm h.1), ih h.2]

theorem escapes_no_lt (ts : List Text) : '<' ∉ ts.flatMap htmlEscape := by
  rw [List.mem_flatMap]
  rintro ⟨t, -, h⟩
  exact escape_no_lt t h

theorem strip_run (run : Bool × List Text) (r : Text) :
    stripTags false (renderRun run ++ r) = run.2.flatMap htmlEscape ++ stripTags false r := by
  unfold renderRun
  split
  · rw [show "<span class=\"in_region\">".toList ++ run.2.flatMap htmlEscape ++ "</span>".toList ++ r
      = "<span class=\"in_region\">".toList ++ (run.2.flatMap htmlEscape ++ ("</span>".toList ++ r))
      by simp]
    have h1 : ∀ r, stripTags false ("<span class=\"in_region\">".toList ++ r) = stripTags false r := by
      intro r; simp [stripTags]
    have h2 : ∀ r, stripTags false ("</span>".toList ++ r) = stripTags false r := by
      intro r; simp [stripTags]
    rw [h1, strip_text (escapes_no_lt _), h2]
  · rw [strip_text (escapes_no_lt _)]

theorem tags_run (run : Bool × List Text) (r : Text) :
    tagsOf none (renderRun run ++ r) = runTags run ++ tagsOf none r := by
  unfold renderRun runTags
  split
  · rw [show "<span class=\"in_region\">".toList ++ run.2.flatMap htmlEscape ++ "</span>".toList ++ r
      = "<span class=\"in_region\">".toList ++ (run.2.flatMap htmlEscape ++ ("</span>".toList ++ r))
      by simp]
    have h1 : ∀ r, tagsOf none ("<span class=\"in_region\">".toList ++ r)
        = "span class=\"in_region\"".toList :: tagsOf none r := by
      intro r; simp [tagsOf]
    have h2 : ∀ r, tagsOf none ("</span>".toList ++ r) = "/span".toList :: tagsOf none r := by
      intro r; simp [tagsOf]
    rw [h1, tags_text (escapes_no_lt _), h2]
    rfl
  · rw [tags_text (escapes_no_lt _)]
    rfl

theorem htmlLoop_runs (ts : List MarkedToken) : ∀ b : Bool,
    ∃ (part : List Text) (runs : List (Bool × List Text)),
      ts = part.map (fun t => ⟨t, b⟩) ++ runs.flatMap (fun run => run.2.map fun t => ⟨t, run.1⟩)
      ∧ (∀ run ∈ runs, run.2 ≠ [])
      ∧ List.IsChain (fun r r' => r.1 ≠ r'.1) ((b, part) :: runs)
      ∧ (htmlLoop ts b).flatten = part.flatMap htmlEscape ++ (if b then "</span>".toList else [])
          ++ runs.flatMap renderRun ++ "</span>".toList := by
  induction ts with
  | nil =>
    intro b
    refine ⟨[], [], rfl, by simp, by simp, ?_⟩
    cases b <;> simp [htmlLoop]
  | cons t ts ih =>
    intro b
    obtain ⟨text, f⟩ := t
    obtain ⟨part, runs, h1, h2, h3, h4⟩ := ih f
    have hrun : List.IsChain (fun r r' : Bool × List Text => r.1 ≠ r'.1) ((f, text :: part) :: runs) := by
      cases runs with
      | nil => simp
      | cons r runs => simpa [List.isChain_cons_cons] using h3
    by_cases hfb : f = b
    · subst hfb
      refine ⟨text :: part, runs, by rw [h1]; rfl, h2, hrun, ?_⟩
      cases f <;> simp [htmlLoop, h4]
    · refine ⟨[], (f, text :: part) :: runs, by rw [h1]; simp, ?_, ?_, ?_⟩
      · intro r hr
        rcases List.mem_cons.mp hr with rfl | hr
        · simp
        · exact h2 r hr
      · rw [List.isChain_cons_cons]
        exact ⟨Ne.symm hfb, hrun⟩
      · cases f <;> cases b <;> simp [htmlLoop, h4, renderRun] at hfb ⊢

theorem htmlHeader_split (a b c : Text) :
    ∃ style, htmlHeader a b c = style ++ "<span class=\"regions_root\">".toList := by
  unfold htmlHeader
  rw [show ";
        }
      </style><span class=\"regions_root\">".toList = ";
        }
      </style>".toList ++ "<span class=\"regions_root\">".toList by decide]
  rw [← List.append_assoc]
  exact ⟨_, rfl⟩

/-- C44: if the annotated sequence can be extracted, the HTML is a style sheet followed by one root
span; in it, each maximal run of tokens in regions is put in one span (so spans are balanced and
region spans are neither nested nor empty), and other tokens are outside of these spans. Its visible
text is the concatenation of the escaped tokens. -/
theorem C44_html (S : Storage M) (asg : DecisionKey → Option DecisionValue)
    (textColor borderColor backgroundColor : Text) (ts : List MarkedToken)
    (h : extractRegions S asg ['︙'] = .ok ts) :
    ∃ (style body : Text) (runs : List (Bool × List Text)),
      renderRegionsHtml S asg textColor borderColor backgroundColor = .ok (style ++ body)
      ∧ htmlHeader textColor borderColor backgroundColor
          = style ++ "<span class=\"regions_root\">".toList
      ∧ body = "<span class=\"regions_root\">".toList ++ runs.flatMap renderRun ++ "</span>".toList
      ∧ ts = runs.flatMap (fun run => run.2.map fun t => ⟨t, run.1⟩)
      ∧ (∀ run ∈ runs, run.2 ≠ []) ∧ List.IsChain (fun r r' => r.1 ≠ r'.1) runs
      ∧ stripTags false body = ts.flatMap (fun t => htmlEscape t.text)
      ∧ tagsOf none body
          = ["span class=\"regions_root\"".toList] ++ runs.flatMap runTags ++ ["/span".toList] := by
  obtain ⟨part, runs, h1, h2, h3, h4⟩ := htmlLoop_runs ts false
  have main : ∃ runs : List (Bool × List Text),
      ts = runs.flatMap (fun run => run.2.map fun t => ⟨t, run.1⟩)
      ∧ (∀ run ∈ runs, run.2 ≠ []) ∧ List.IsChain (fun r r' => r.1 ≠ r'.1) runs
      ∧ (htmlLoop ts false).flatten = runs.flatMap renderRun ++ "</span>".toList := by
    cases part with
    | nil =>
      refine ⟨runs, by simpa using h1, h2, ?_, by simpa using h4⟩
      cases runs with
      | nil => simp
      | cons r runs => rw [List.isChain_cons_cons] at h3; exact h3.2
    | cons t part =>
      refine ⟨(false, t :: part) :: runs, by simpa using h1, ?_, h3, ?_⟩
      · intro r hr
        rcases List.mem_cons.mp hr with rfl | hr
        · simp
        · exact h2 r hr
      · rw [h4]; simp [renderRun]
  obtain ⟨runs, g1, g2, g3, g4⟩ := main
  have hs : ∀ (runs : List (Bool × List Text)) (r : Text),
      stripTags false (runs.flatMap renderRun ++ r)
        = runs.flatMap (fun run => run.2.flatMap htmlEscape) ++ stripTags false r := by
    intro runs r
    induction runs with
    | nil => rfl
    | cons run runs ih => simp only [List.flatMap_cons, List.append_assoc, strip_run, ih]
  have htg : ∀ (runs : List (Bool × List Text)) (r : Text),
      tagsOf none (runs.flatMap renderRun ++ r) = runs.flatMap runTags ++ tagsOf none r := by
    intro runs r
    induction runs with
    | nil => rfl
    | cons run runs ih => simp only [List.flatMap_cons, List.append_assoc, tags_run, ih]
  obtain ⟨style, hst⟩ := htmlHeader_split textColor borderColor backgroundColor
  refine ⟨style, _, runs, ?_, hst, rfl, g1, g2, g3, ?_, ?_⟩
  · unfold renderRegionsHtml
    rw [h]
    simp only [g4, hst, List.append_assoc]
  · have e1 : ∀ r, stripTags false ("<span class=\"regions_root\">".toList ++ r) = stripTags false r := by
      intro r; simp [stripTags]
    have e2 : stripTags false "</span>".toList = [] := by simp [stripTags]
    rw [List.append_assoc, e1, hs, e2, List.append_nil, g1]
    clear g1 g2 g3 g4
    induction runs with
    | nil => rfl
    | cons run runs ih =>
      rw [List.flatMap_cons, List.flatMap_cons, List.flatMap_append, ← ih, List.flatMap_map]
  · have e1 : ∀ r, tagsOf none ("<span class=\"regions_root\">".toList ++ r)
        = "span class=\"regions_root\"".toList :: tagsOf none r := by
      intro r; simp [tagsOf]
    have e2 : tagsOf none "</span>".toList = ["/span".toList] := by simp [tagsOf]
    rw [List.append_assoc, e1, htg, e2]
    rfl

/-- C44: rendering fails exactly when extraction does, with the same error. -/
theorem C44_error (S : Storage M) (asg : DecisionKey → Option DecisionValue)
    (textColor borderColor backgroundColor : Text) (e : ExtractError) :
    renderRegionsHtml S asg textColor borderColor backgroundColor = .error e
      ↔ extractRegions S asg ['︙'] = .error e := by
  unfold renderRegionsHtml
  split
  · rename_i e' h; rw [h]; simp
  · rename_i ts h; rw [h]; simp

/-- The escaped form of one character. -/
def escapeChar (c : Char) : Text :=
  if c = '&' then "&amp;".toList
  else if c = '<' then "&lt;".toList
  else if c = '>' then "&gt;".toList
  else if c = '"' then "&quot;".toList
  else if c = '\'' then "&#x27;".toList
  else [c]

/-- C44: escaping loses nothing: different texts are shown differently. -/
theorem C44_escape_injective (t t' : Text) (h : htmlEscape t = htmlEscape t') : t = t' := by
  have hcons : ∀ c t, htmlEscape (c :: t) = escapeChar c ++ htmlEscape t := fun c t => rfl
  have hne : ∀ c, escapeChar c ≠ [] := by
    intro c; unfold escapeChar; split_ifs <;> simp
  have hinj : ∀ (c c' : Char) (r r' : Text), escapeChar c ++ r = escapeChar c' ++ r' → c = c' := by
    intro c c' r r' h
    unfold escapeChar at h
    split_ifs at h <;> simp_all <;> exact absurd h.1.symm (by assumption)
  induction t generalizing t' with
  | nil =>
    cases t' with
    | nil => rfl
    | cons c' t' =>
      rw [hcons] at h
      exact absurd (List.append_eq_nil_iff.mp h.symm).1 (hne c')
  | cons c t ih =>
    cases t' with
    | nil =>
      rw [hcons] at h
      exact absurd (List.append_eq_nil_iff.mp h).1 (hne c)
    | cons c' t' =>
      rw [hcons, hcons] at h
      obtain rfl := hinj _ _ _ _ h
      rw [ih _ (List.append_cancel_left h)]

/-! ### Concrete cases -/

/-- `⟦start a end ( start b end ) exit c⟧`. -/
def regionSample : List (Node Nat) :=
  [.rstart, .tok ['a'] 0, .rend, .group [.rstart, .tok ['b'] 0, .rend] 0, .exit, .tok ['<'] 0]

/-- A region around `a`, and an early exit before the last token. -/
def sampleChoice (k : DecisionKey) : DecisionValue :=
  if k = ⟨0, .start⟩ ∨ k = ⟨1, .inRegion⟩ ∨ k = ⟨2, .stop⟩ ∨ k = ⟨7, .exit⟩ then .yes
  else if k = ⟨6, .stop⟩ ∨ k = ⟨8, .inRegion⟩ then .na
  else .no

example : WellFormedRegions sampleChoice regionSample := by
  rw [← validRegions_iff]
  refine ⟨true, _, .region (mid := [.tok ['a'] 0]) (.tok (.nil _ _))
    (.group (.skipStart (.tok (.skipEnd (.nil _ _)))) .exit), ?_⟩
  decide

/-- Leaving a region open is not accepted. -/
example : ¬ WellFormedRegions (fun k => if k = ⟨1, .stop⟩ ∨ k = ⟨0, .start⟩ then .yes else .no)
    ([.rstart, .group [.rend] 0] : List (Node Nat)) := by
  intro h
  obtain ⟨m, z, r, h1, h2, h3⟩ := h.regions [] ⟨0, [0], .rstart⟩ _ rfl (by simp) rfl
  change ([⟨1, [1], .group [.rend] 0⟩, ⟨2, [1, 0], .rend⟩] : List (Placed Nat)) = _ at h1
  match m, h1 with
  | [], h1 =>
    simp only [List.nil_append, List.cons.injEq] at h1
    rw [← h1.1] at h3
    simp [Placed.mark, Placed.exits] at h3
  | [_], h1 =>
    simp only [List.cons_append, List.nil_append, List.cons.injEq] at h1
    rw [← h1.2.1] at h3
    simp [Placed.mark, Placed.exits] at h3
  | _ :: _ :: m, h1 => simp at h1

example : extractRegions (pack regionSample) (fun k => some (sampleChoice k)) []
    = .ok [⟨['a'], true⟩, ⟨['b'], false⟩] := by decide

example : extractRegions (pack regionSample)
      (fun k => some (if k.cat = .start then .no else .yes)) [] = .error .assertion
    ∧ extractRegions (pack regionSample) (fun _ => none) [] = .error .key := by decide

/-- Regions that follow each other directly are shown in one span, and an empty region that is open
at the early exit is not shown. -/
example : extractRegions (pack ([.rstart, .tok ['a'] 0, .rend, .rstart, .tok ['b'] 0, .rend, .rstart,
      .exit] : List (Node Nat))) (fun _ => some .yes) ['︙']
    = .ok [⟨['a'], true⟩, ⟨['b'], true⟩] := by decide

end RUSure.Props
