import Verif.Lemmas.EditShown
import Verif.Props.Solution

/-!
# C62: edit sequences as they are shown
-/

namespace RUSure.Props
open RUSure RUSure.Spec RUSure.Lemmas

variable {M : Type} [DecidableEq M] {prm : Params} {proto target : List (Node M)}
  {d : Dag EditState DecisionKey DecisionValue (Option EditInfo)} {p : List EditEdge}

/-! ## Groups -/

/-- C62: the edits of a complete path are grouped into maximal runs that are shown in the same way; a
group has the text and the cost of its run. -/
theorem C62_groups (h : constructEditDag prm proto target = .ok d) (hp : DagSolution d p) :
    ∃ gs, groupEdits (pack proto) (pack target) p = some gs
      ∧ (∃ runs : List (List ShownEdit),
        runs.flatten = showEdits (editText proto target) [] (costedEdits p)
        ∧ List.Forall₂ SumsUp runs gs)
      ∧ gs.IsChain fun g g' => g.action ≠ g'.action ∨ g.conf ≠ g'.conf :=
  groupEdits_yields (solution_showable h hp)

theorem costed_step {x : EditInfo} {c : Cost} (hx : (x, c) ∈ costedEdits p) :
    ∃ r, ⟨r, some x, c⟩ ∈ scriptOf p := by
  obtain ⟨e, he, hi⟩ := List.mem_filterMap.1 hx
  obtain ⟨y, hy, hyx⟩ := Option.map_eq_some_iff.1 hi
  cases hyx
  rcases script_step he with hc | hc
  · rw [hy] at hc; cases hc.2
  · rw [hy] at hc; exact ⟨_, hc⟩

/-- C62: the costs of the groups, and the total cost that is shown, are the cost of the path. -/
theorem C62_costs (h : constructEditDag prm proto target = .ok d) (hp : DagSolution d p)
    {gs : List EditGroup} (hg : groupEdits (pack proto) (pack target) p = some gs) :
    (gs.map EditGroup.cost).sum = weight Edge.cost p
    ∧ editSequenceTotal (pack proto) (pack target) p = some (weight Edge.cost p)
    ∧ weight Edge.cost p = (((editsOf p).map (editPrice prm proto target)).sum : ℚ) := by
  obtain ⟨gs', h1, ⟨runs, h2, h3⟩, -⟩ := C62_groups h hp
  rw [hg] at h1
  cases h1
  obtain ⟨hgood, h0, -⟩ := solution_good h hp
  have hsum : (gs.map EditGroup.cost).sum = weight Edge.cost p := by
    rw [runs_cost h3, h2, shown_cost, costed_weight p h0]
    rintro ⟨x, c⟩ hx ha
    obtain ⟨r, hs⟩ := costed_step hx
    have := hgood _ hs
    cases this <;> first | rfl | cases ha
  refine ⟨hsum, ?_, C47_cost prm proto target d h p hp⟩
  unfold editSequenceTotal
  rw [hg, Option.map_some, foldl_costs, zero_add, hsum]

/-- C62: what is shown as kept or deleted is the text of the prototype, up to the exit if one is
taken. -/
theorem C62_prototype (h : constructEditDag prm proto target = .ok d) (hp : DagSolution d p)
    {gs : List EditGroup} (hg : groupEdits (pack proto) (pack target) p = some gs) :
    (¬ TakesExit (decisionsOf p) → groupsText [.keep, .delete] gs = Spec.text proto)
    ∧ ∀ k, ((⟨k, .exit⟩, .yes) : Decision) ∈ decisionsOf p →
      groupsText [.keep, .delete] gs = ((docNodes proto).take k).flatMap leafText := by
  obtain ⟨gs', h1, ⟨runs, h2, h3⟩, -⟩ := C62_groups h hp
  rw [hg] at h1
  cases h1
  obtain ⟨hgood, -, r, hr, hc⟩ := solution_good h hp
  have htext : groupsText [.keep, .delete] gs = ptext (textAt proto) (scriptOf p) := by
    rw [runs_text _ h3, h2, shown_ptext _ (textAt proto), costed_edits, script_edits]
    · rfl
    · rintro ⟨x, c⟩ hx ha
      obtain ⟨r, hs⟩ := costed_step hx
      have := hgood _ hs
      cases this <;> first | rfl | (rcases ha with ha | ha | ha <;> cases ha)
  rw [htext]
  constructor
  · intro hn
    match hrc : r with
    | none => exact absurd (hr.1 rfl) hn
    | some c => rw [(hc.all c rfl).1, docNodes_text]
  · intro k hk
    obtain ⟨k', hk', h4, h5⟩ := hc.cut (hr.2 ⟨k, hk⟩)
    rw [script_decs, ← mem_exitsIn, h5, List.mem_singleton] at hk
    rw [h4, hk, Nat.zero_add]

/-- C62: what is shown as kept or inserted are the tokens of the target, in order, with decorations
of the prototype or of the target in between; if an exit is taken, the first tokens of the target. -/
theorem C62_result (h : constructEditDag prm proto target = .ok d) (hp : DagSolution d p)
    {gs : List EditGroup} (hg : groupEdits (pack proto) (pack target) p = some gs) :
    (¬ TakesExit (decisionsOf p) →
      Spells (fun x => DecoOf proto x ∨ DecoOf target x) ((tokens 0 target).map fun t => t.2.1)
        (groupsText [.keep, .insert] gs))
    ∧ ∃ ts, ts <+: (tokens 0 target).map (fun t => t.2.1)
      ∧ Spells (fun x => DecoOf proto x ∨ DecoOf target x) ts (groupsText [.keep, .insert] gs) := by
  obtain ⟨gs', h1, ⟨runs, h2, h3⟩, -⟩ := C62_groups h hp
  rw [hg] at h1
  cases h1
  obtain ⟨hgood, -, -⟩ := solution_good h hp
  obtain ⟨t1, -, t2⟩ := C46_tokens prm proto target d h p hp
  have hspell : Spells (fun x => DecoOf proto x ∨ DecoOf target x)
      (((editsOf p).filterMap EditInfo.usesTarget).map (textAt target)) (groupsText [.keep, .insert] gs) := by
    rw [runs_text _ h3, h2, ← costed_edits]
    apply shown_spells
    · rintro ⟨x, c⟩ hx ha
      obtain ⟨r, hs⟩ := costed_step hx
      have := hgood _ hs
      cases this with
      | keep d c cost g1 g2 => exact ⟨_, rfl, by simp only [editText, textAt, g1, g2]⟩
      | insert d cost g1 => exact ⟨_, rfl, rfl⟩
      | _ => rcases ha with ha | ha <;> cases ha
    · rintro ⟨x, c⟩ hx ha
      obtain ⟨r, hs⟩ := costed_step hx
      have := hgood _ hs
      cases this with
      | protoDeco d c g1 =>
        refine .inl ?_
        simp only [editText, textAt, g1, leafText, DecoOf]
        exact List.mem_of_getElem? g1
      | targetDeco d c g1 =>
        refine .inr ?_
        simp only [editText, textAt, g1, leafText, DecoOf]
        exact List.mem_of_getElem? g1
      | _ => rcases ha with ha | ha <;> cases ha
  have htok : ((tokens 0 target).map Prod.fst).map (textAt target) = (tokens 0 target).map fun t => t.2.1 := by
    rw [List.map_map]
    exact tokens_at target target 0 (placedAt_all target)
  constructor
  · intro hn
    rw [(t1 hn).2, htok] at hspell
    exact hspell
  · refine ⟨_, ?_, hspell⟩
    rw [← htok]
    exact t2.map _

/-- C62: if decorations consist of characters that do not count, such as white space, then what is
shown as kept or inserted agrees with the text of the target, up to these characters. -/
theorem C62_result_text (h : constructEditDag prm proto target = .ok d) (hp : DagSolution d p)
    {gs : List EditGroup} (hg : groupEdits (pack proto) (pack target) p = some gs)
    (hn : ¬ TakesExit (decisionsOf p)) (counts : Char → Bool)
    (hd : ∀ x, DecoOf proto x ∨ DecoOf target x → ∀ c ∈ x, counts c = false) :
    (groupsText [.keep, .insert] gs).filter counts = (Spec.text target).filter counts := by
  have h1 := (C62_result h hp hg).1 hn
  have h2 := text_spells (fun x => DecoOf proto x ∨ DecoOf target x) target 0 fun x hx => .inr hx
  rw [docNodes_text] at h2
  rw [spells_filter hd h1, spells_filter hd h2]

/-! ## HTML -/

/-- C62: the HTML consists of the style sheet and one span with the prefix and a span for every group
with text; the classes of a span tell what happens in the group, and what a reader sees is the escaped
text. -/
theorem C62_html (h : constructEditDag prm proto target = .ok d) (hp : DagSolution d p)
    (pre marker style : Text) :
    ∃ gs spans body, groupEdits (pack proto) (pack target) p = some gs
      ∧ Spans marker (some none) (shownGroups marker gs) spans
      ∧ editSequenceHtml (pack proto) (pack target) p pre marker style = some (style ++ body)
      ∧ body = "<span class=\"edit_sequence_root\">".toList ++ renderSpan (["prefix".toList], pre)
          ++ spans.flatMap renderSpan ++ "</span>".toList
      ∧ stripTags false body = htmlEscape pre ++ (shownGroups marker gs).flatMap fun x => htmlEscape x.2 := by
  obtain ⟨gs, h1, -⟩ := C62_groups h hp
  obtain ⟨spans, h2, h3, h4⟩ := groupHtml_spans marker gs (some none)
  refine ⟨gs, spans, _, h1, h2, ?_, rfl, ?_⟩
  · unfold editSequenceHtml
    have hpre : "<span class=\"prefix\">".toList
        = "<span class=\"".toList ++ ("prefix".toList ++ "\">".toList) := by decide +kernel
    rw [h1, Option.map_some, h3, hpre, List.flatMap_def]
    have : renderSpan (["prefix".toList], pre) = "<span class=\"".toList ++ "prefix".toList ++ "\">".toList
      ++ htmlEscape pre ++ "</span>".toList := rfl
    rw [this]
    simp only [List.append_assoc]
  · have hr : "<span class=\"edit_sequence_root\">".toList
        = '<' :: ("span class=\"edit_sequence_root\"".toList ++ ['>']) := by decide +kernel
    have hpx : '>' ∉ joinSpace (["prefix".toList], pre).1 := by
      show '>' ∉ "prefix".toList
      decide +kernel
    rw [List.append_assoc, List.append_assoc, hr, List.cons_append, stripTags, if_pos rfl, List.append_assoc,
      List.singleton_append, strip_tag (by decide +kernel), strip_span _ hpx, strip_spans]
    · have hc : stripTags false "</span>".toList = [] := by
        have := strip_close []
        rw [List.append_nil] at this
        rw [this]; rfl
      rw [hc, List.append_nil]
      congr 1
      have := spans_texts h2
      rw [List.flatMap_def, List.flatMap_def, show spans.map (fun s => htmlEscape s.2)
        = (spans.map Prod.snd).map htmlEscape by rw [List.map_map]; rfl, this, List.map_map]
      rfl
    · intro s hs
      obtain ⟨b, g, e⟩ := h4 s hs
      rw [e]
      exact classes_no_gt b g

/-- C62: someone who reads only the spans of class `keep` or `delete` reads the text of the prototype
(up to the exit if one is taken), and someone who reads only those of class `keep` or `insert` reads
the tokens of the target, with decorations. -/
theorem C62_reader (h : constructEditDag prm proto target = .ok d) (hp : DagSolution d p)
    {marker : Text} {gs : List EditGroup} (hg : groupEdits (pack proto) (pack target) p = some gs)
    {spans : List (List Text × Text)} (hs : Spans marker (some none) (shownGroups marker gs) spans) :
    (¬ TakesExit (decisionsOf p) →
      (spans.filter fun s => decide ("keep".toList ∈ s.1 ∨ "delete".toList ∈ s.1)).flatMap Prod.snd
          = Spec.text proto
      ∧ Spells (fun x => DecoOf proto x ∨ DecoOf target x) ((tokens 0 target).map fun t => t.2.1)
          ((spans.filter fun s => decide ("keep".toList ∈ s.1 ∨ "insert".toList ∈ s.1)).flatMap Prod.snd))
    ∧ ∀ k, ((⟨k, .exit⟩, .yes) : Decision) ∈ decisionsOf p →
      (spans.filter fun s => decide ("keep".toList ∈ s.1 ∨ "delete".toList ∈ s.1)).flatMap Prod.snd
        = ((docNodes proto).take k).flatMap leafText := by
  have h1 : (spans.filter fun s => decide ("keep".toList ∈ s.1 ∨ "delete".toList ∈ s.1)).flatMap Prod.snd
      = groupsText [.keep, .delete] gs := by
    refine spans_text (by simp) _ gs hs fun b g cls t hc => ?_
    simp only [decide_eq_true_eq, hc.keep, hc.delete]
    simp
  have h2 : (spans.filter fun s => decide ("keep".toList ∈ s.1 ∨ "insert".toList ∈ s.1)).flatMap Prod.snd
      = groupsText [.keep, .insert] gs := by
    refine spans_text (by simp) _ gs hs fun b g cls t hc => ?_
    simp only [decide_eq_true_eq, hc.keep, hc.insert]
    simp
  rw [h1, h2]
  exact ⟨fun hn => ⟨(C62_prototype h hp hg).1 hn, (C62_result h hp hg).1 hn⟩, (C62_prototype h hp hg).2⟩

/-! ## Metrics -/

/-- C62: the metrics of a path are, for each action and confidence with an edit, the total cost, the
number of characters and the number of these edits; there are no others, and their costs sum up to the
cost of the path. -/
theorem C62_metrics (h : constructEditDag prm proto target = .ok d) (hp : DagSolution d p) :
    ∃ m, editMetrics (pack proto) (pack target) p = some m
      ∧ (∀ a c k, m.lookup (metricName a c k) = if editsWith p a c = [] then none else
          some (metricValue (editText proto target) (editsWith p a c) k))
      ∧ (m.map Prod.fst).Nodup
      ∧ (∀ n ∈ m.map Prod.fst, ∃ a c k, n = metricName a c k)
      ∧ (metricKeys.map fun k => (m.lookup (metricName k.1 k.2 .cost)).getD 0).sum = weight Edge.cost p := by
  obtain ⟨m, h1, h2, h3, h4⟩ := metricsLoop_lookup p [] (solution_showable h hp)
  have h2' : ∀ a c k, m.lookup (metricName a c k) = if editsWith p a c = [] then none else
      some (metricValue (editText proto target) (editsWith p a c) k) := by
    intro a c k
    rw [h2]
    simp
  refine ⟨m, h1, h2', h3 (by simp), ?_, ?_⟩
  · intro n hn
    rcases h4 n hn with h | ⟨a, c, k, h, -⟩
    · simp at h
    · exact ⟨a, c, k, h⟩
  · rw [← costed_weight p (solution_good h hp).2.1, ← metrics_total (editText proto target) p]
    congr 1
    refine List.map_congr_left fun k _ => ?_
    rw [h2']
    split
    · next hn => rw [hn]; simp [metricValue]
    · rfl

omit [DecidableEq M] in
/-- C62: different metrics have different names. -/
theorem C62_metric_names {a a' : EditAction} {c c' : Option Conf} {k k' : MetricKind}
    (h : metricName a c k = metricName a' c' k') : a = a' ∧ c = c' ∧ k = k' := metricName_inj h

/-! ## The wrapper -/

section
variable {invalid inv : Cost} {targets : List (List (Node M))}
  {factors : Option (List ℚ)} {B : BuiltSystem EditState (Option EditInfo)}

theorem zip_fst_prefix {A C : Type} : ∀ (l : List A) (r : List C), (l.zip r).map Prod.fst <+: l
  | [], _ => by simp
  | a :: l, [] => by simp
  | a :: l, c :: r => by
    rw [List.zip_cons_cons, List.map_cons]
    exact (List.prefix_cons_inj a).2 (zip_fst_prefix l r)

theorem pairwiseLoop_ok {α : DecisionKey → DecisionValue} (hα : WellFormedRegions α proto) {a : Decisions}
    (ha : Records proto α a) (context marker style : Text) :
    ∀ (l : List (List (Node M) × ℚ)) (ps : List (Part EditState (Option EditInfo))) (i : Nat),
      List.Forall₂ (PartOf (constructEditDag prm proto)) l ps → (∀ ts ∈ l, 0 < ts.2) →
      (∀ ts ∈ l, ∀ d, constructEditDag prm proto ts.1 = .ok d → GoodUtility proto d) →
      ∀ ts' : List (List (Node M)), l.map Prod.fst <+: ts' →
      ∃ parts, pairwiseLoop invalid (pack proto) a context marker style i (ps.zip (ts'.map pack)) = .ok parts
        ∧ parts.length = l.length
        ∧ ∀ n t s, l[n]? = some (t, s) → ∃ w html, CheapestPath (constructEditDag prm proto) a t w
          ∧ editSequenceHtml (pack proto) (pack t) w [] marker style = some html
          ∧ parts[n]? = some ("========== Target ".toList ++ (Nat.repr (i + n)).toList ++ " ==========<br>".toList
              ++ "<span style=\"white-space: pre; font-family: monospace;\">".toList
              ++ htmlEscape context ++ "</span>".toList ++ html ++ "<br>".toList) := by
  intro l
  induction l with
  | nil =>
    intro ps i h _ _ ts' _
    cases h
    exact ⟨[], rfl, rfl, by simp⟩
  | cons ts l ih =>
    intro ps i h hs hg ts' hpre
    cases h with
    | @cons _ q _ ps h1 h2 =>
      obtain ⟨r, hr⟩ := hpre
      rw [List.map_cons, List.cons_append] at hr
      subst hr
      obtain ⟨w, hw, hbest⟩ := given_best h1 (hs ts (by simp)) (hg ts (by simp)) invalid hα ha
      obtain ⟨parts, g1, g2, g3⟩ := ih ps (i + 1) h2 (fun x hx => hs x (by simp [hx]))
        (fun x hx => hg x (by simp [hx])) _ ⟨r, rfl⟩
      have hshow : ∃ html, editSequenceHtml (pack proto) (pack ts.1) w [] marker style = some html := by
        obtain ⟨d, hd, hsol, -⟩ := hbest
        obtain ⟨gs, spans, body, -, -, h3, -⟩ := C62_html hd hsol [] marker style
        exact ⟨_, h3⟩
      obtain ⟨html, hhtml⟩ := hshow
      rw [List.map_cons, List.zip_cons_cons, pairwiseLoop]
      simp only [hw, hhtml, g1]
      refine ⟨_, rfl, by simp [g2], ?_⟩
      intro n t s hn
      cases n with
      | zero =>
        simp only [List.getElem?_cons_zero, Option.some.injEq] at hn
        subst hn
        exact ⟨w, html, hbest, hhtml, by simp⟩
      | succ n =>
        rw [List.getElem?_cons_succ] at hn
        obtain ⟨w', html', k1, k2, k3⟩ := g3 n t s hn
        refine ⟨w', html', k1, k2, ?_⟩
        rw [List.getElem?_cons_succ, k3, show i + 1 + n = i + (n + 1) by omega]

/-- C62: `render_pairwise_matching_html` does not fail for the decisions of a suggestion, and shows for
each target the context and a cheapest edit sequence that respects the decisions. -/
theorem C62_pairwise (hB : buildEditSystem inv prm proto targets factors = .ok B)
    (ht : ∀ t ∈ targets, DecisionFree t) (hf : GoodFactors targets factors)
    {α : DecisionKey → DecisionValue} (hα : WellFormedRegions α proto) {a : Decisions}
    (ha : Records proto α a) (context marker style : Text) :
    ∃ parts : List Text, pairwiseHtml invalid proto targets context B a marker style = .ok parts.flatten
      ∧ parts.length = (targets.zip (targetWeights targets.length factors)).length
      ∧ ∀ n t s, (targets.zip (targetWeights targets.length factors))[n]? = some (t, s) →
        ∃ d w html, constructEditDag prm proto t = .ok d ∧ DagSolution d w
          ∧ CheapestScript prm proto t a (scriptOf w)
          ∧ editSequenceHtml (pack proto) (pack t) w [] marker style = some html
          ∧ parts[n]? = some ("========== Target ".toList ++ (Nat.repr n).toList ++ " ==========<br>".toList
              ++ "<span style=\"white-space: pre; font-family: monospace;\">".toList
              ++ htmlEscape context ++ "</span>".toList ++ html ++ "<br>".toList) := by
  have hb := built_of hf (fun t htm d hd => edit_good prm proto t (ht t htm) d hd) hB
  obtain ⟨parts, h1, h2, h3⟩ := pairwiseLoop_ok (invalid := invalid) hα ha context marker style _ _ 0
    hb.parts hb.pos hb.good targets (zip_fst_prefix _ _)
  refine ⟨parts, by unfold pairwiseHtml; rw [h1], h2, ?_⟩
  intro n t s hn
  obtain ⟨w, html, hw, g2, g3⟩ := h3 n t s hn
  have hc := (edit_cheapest hw).1
  obtain ⟨d, hd, hsol, -⟩ := hw
  rw [Nat.zero_add] at g3
  exact ⟨d, w, html, hd, hsol, hc, g2, g3⟩

/-- C62: the summary metrics that `solution_info` reports for an evaluation target are those of a
cheapest edit script, and their costs sum up to the reported cost. -/
theorem C62_info (hB : buildEditSystem inv prm proto targets factors = .ok B)
    (ht : ∀ t ∈ targets, DecisionFree t) (hf : GoodFactors targets factors)
    {factors' : Option (List ℚ)} {B' : BuiltSystem EditState (Option EditInfo)}
    (hB' : buildEditSystem inv prm proto [target] factors' = .ok B') (ht' : DecisionFree target)
    (hf' : GoodFactors [target] factors')
    {α : DecisionKey → DecisionValue} (hα : WellFormedRegions α proto) {a : Decisions}
    (ha : Records proto α a) :
    ∃ d w m s, constructEditDag prm proto target = .ok d ∧ DagSolution d w
      ∧ CheapestScript prm proto target a (scriptOf w)
      ∧ solutionInfo invalid (fun w => (editSequenceTotal (pack proto) (pack target) w,
            editMetrics (pack proto) (pack target) w)) proto a (some B') (some B)
          = .ok ⟨annotated α [] [] (kept α proto),
              some (weight Edge.cost w, some (weight Edge.cost w), some m), some s⟩
      ∧ (metricKeys.map fun k => (m.lookup (metricName k.1 k.2 .cost)).getD 0).sum = weight Edge.cost w
      ∧ ∀ a c k, m.lookup (metricName a c k) = if editsWith w a c = [] then none else
          some (metricValue (editText proto target) (editsWith w a c) k) := by
  have hb := built_of hf (fun t htm d hd => edit_good prm proto t (ht t htm) d hd) hB
  have hb' := built_of hf' (fun t htm d hd => edit_good prm proto t (by simp at htm; exact htm ▸ ht') d hd) hB'
  have hz : ∃ s, [target].zip (targetWeights [target].length factors') = [(target, s)] := by
    cases hw : targetWeights [target].length factors' with
    | nil =>
      have := (scaleFactors_ok (E := AddError) hf').2.2
      rw [hw] at this
      simp at this
    | cons s r => exact ⟨s, by simp⟩
  obtain ⟨s', hs'⟩ := hz
  rw [hs'] at hb'
  obtain ⟨w, ws, h1, h3, h2⟩ := info_both hb hb' invalid
    (fun w => (editSequenceTotal (pack proto) (pack target) w, editMetrics (pack proto) (pack target) w)) hα ha
  have hc := (edit_cheapest h3).1
  obtain ⟨d, hd, hsol, -⟩ := h3
  obtain ⟨m, m1, m2, -, -, m3⟩ := C62_metrics hd hsol
  obtain ⟨gs, g1, -⟩ := C62_groups hd hsol
  refine ⟨d, w, m, sampleInfo (ws.map (weight Edge.cost)) (some (weight Edge.cost w)), hd, hsol, hc, ?_, m3, m2⟩
  rw [h1, (C62_costs hd hsol g1).2.1, m1]

omit [DecidableEq M] in
/-- C62: `render_solution_html` does not fail for the decisions of a suggestion, and shows the escaped
context before the suggestion. -/
theorem C62_solution {α : DecisionKey → DecisionValue} (hα : WellFormedRegions α proto) {a : Decisions}
    (ha : Records proto α a) (context textColor borderColor backgroundColor : Text) :
    ∃ style body, htmlHeader textColor borderColor backgroundColor
        = style ++ "<span class=\"regions_root\">".toList
      ∧ solutionHtml (pack proto) (fun k => a.lookup k) context textColor borderColor backgroundColor
        = .ok ("<span style=\"white-space: pre; font-family: monospace; color: #72A0C1;\">".toList
            ++ htmlEscape context ++ "</span>".toList ++ (style ++ body) ++ "<br>".toList)
      ∧ stripTags false body
        = (annotated α ['︙'] [] (kept α proto)).flatMap fun t => htmlEscape t.text := by
  obtain ⟨style, body, runs, h1, h2, -, -, -, -, h3, -⟩ := C44_html (pack proto) (fun k => a.lookup k)
    textColor borderColor backgroundColor _ (records_extract hα ha ['︙'])
  refine ⟨style, body, h2, ?_, h3⟩
  unfold solutionHtml
  rw [h1]

end

/-! ## Examples -/

section Examples

/-- `a b` with a space. -/
def shownProto : List (Node String) := [.tok ['a'] "n", .deco [' '], .tok ['b'] "n"]
/-- `a`, a line break, `c`. -/
def shownTarget : List (Node String) := [.tok ['a'] "n", .deco ['\n'], .tok ['c'] "n"]

/-- `a` is kept, `b` is deleted and `c` is inserted. -/
theorem shownScript (prm : Params) : Edits prm .advancing .high 0 shownProto 0 shownTarget
    [keepStep prm .high 0 0 1, ⟨none, some ⟨some 1, none, .protoDeco, some .high⟩, 0⟩,
      startEditStep prm .high, deleteStep prm .high 2 1, targetDecoStep .high 1, insertStep prm 2 1]
    (some .high) :=
  .noEditing (.keep (.pass (.inl rfl) (.deco _ _ _) (.startEditing (.delete (.stopDeleting
    (.targetDeco (.inl rfl) (.insert (.stopInserting (.done _ _ _)))))))))

/-- C62 applies to this script, and what is shown as kept or inserted is `ac`, up to white space. -/
example (prm : Params) : ∃ d p gs, constructEditDag prm shownProto shownTarget = .ok d ∧ DagSolution d p
    ∧ groupEdits (pack shownProto) (pack shownTarget) p = some gs
    ∧ groupsText [.keep, .delete] gs = ['a', ' ', 'b']
    ∧ (groupsText [.keep, .insert] gs).filter (fun c => !(c == ' ' || c == '\n')) = ['a', 'c'] := by
  obtain ⟨d, h⟩ := C46_builds prm shownProto shownTarget
  obtain ⟨p, hp, h1⟩ := (C46_scripts prm _ _ d h _).2 ⟨_, .inr rfl, shownScript prm⟩
  obtain ⟨gs, hg, -⟩ := C62_groups h hp
  have hn : ¬ TakesExit (decisionsOf p) := by
    rw [script_decs, h1]
    rintro ⟨i, hi⟩
    simp [decs, keepStep, startEditStep, deleteStep, targetDecoStep, insertStep, seenAt] at hi
  refine ⟨d, p, gs, h, hp, hg, ?_, ?_⟩
  · rw [(C62_prototype h hp hg).1 hn]; decide +kernel
  · rw [C62_result_text h hp hg hn]
    · decide +kernel
    · intro x hx c hc
      have h1 : docNodes shownProto = shownProto := rfl
      have h2 : docNodes shownTarget = shownTarget := rfl
      unfold DecoOf at hx
      rw [h1, h2] at hx
      simp [shownProto, shownTarget] at hx
      rcases hx with rfl | rfl <;> simp at hc <;> subst hc <;> rfl

/-- With an exit after `a`, only `a` is shown as kept or deleted. -/
example (prm : Params) : ∃ d p gs, constructEditDag prm [.tok ['a'] "n", .exit, .tok ['b'] "n"] shownTarget = .ok d
    ∧ DagSolution d p
    ∧ groupEdits (pack [.tok ['a'] "n", .exit, .tok ['b'] "n"]) (pack shownTarget) p = some gs
    ∧ groupsText [.keep, .delete] gs = ['a'] := by
  obtain ⟨d, h⟩ := C46_builds prm [.tok ['a'] "n", .exit, .tok ['b'] "n"] shownTarget
  obtain ⟨p, hp, h1⟩ := (C46_scripts prm _ _ d h _).2 ⟨none, .inl rfl,
    .noEditing (.keep (.exit .high 1 _ 1 _ (.inl rfl)))⟩
  obtain ⟨gs, hg, -⟩ := C62_groups h hp
  refine ⟨d, p, gs, h, hp, hg, ?_⟩
  rw [(C62_prototype h hp hg).2 1 (by rw [script_decs, h1]; simp [decs, keepStep, exitStep])]
  rfl

/-- An edit sequence: `a ` is kept, `b` is deleted, and the line break with `c` is inserted. The
decoration of the target is shown, as it comes after something that is deleted. -/
example : showEdits (editText shownProto shownTarget) []
    [(⟨some 0, some 0, .keep, some .high⟩, 0), (⟨some 1, none, .protoDeco, some .high⟩, 0),
      (⟨none, none, .startEditing, some .high⟩, 1), (⟨some 2, none, .delete, some .high⟩, 1),
      (⟨none, some 1, .targetDeco, some .high⟩, 0), (⟨none, some 2, .insert, none⟩, 1)]
    = [⟨['a'], .keep, some .high, 0⟩, ⟨[' '], .keep, some .high, 0⟩, ⟨[], .startEditing, some .high, 1⟩,
      ⟨['b'], .delete, some .high, 1⟩, ⟨['\n'], .insert, none, 0⟩, ⟨['c'], .insert, none, 1⟩] := rfl

/-- With an empty marker, the place where editing starts is an empty span. -/
example : shownGroups [] [⟨[], some .startEditing, some (some .high), 1⟩]
    = [(⟨[], some .startEditing, some (some .high), 1⟩, [])] := by
  simp [shownGroups]

/-- C62 applies to the system of `sysProto` and `sysTargets`. -/
example (context marker style : Text) : ∃ B parts, buildEditSystem 0 sysParams sysProto sysTargets
      (some [1, 3 / 2]) = .ok B
    ∧ pairwiseHtml 0 sysProto sysTargets context B
        ((seqKeys 0 sysProto).map fun k => (k, decided sysDecisions k)) marker style = .ok (List.flatten parts)
    ∧ parts.length = 2 := by
  obtain ⟨B, hB, -⟩ := C59_builds 0 sysParams sysProto sysTargets (some [1, 3 / 2]) sysTargets_free
    sysTargets_factors
  obtain ⟨parts, h1, h2, -⟩ := C62_pairwise (invalid := 0) hB sysTargets_free sysTargets_factors
    sysDecisions_wellFormed (C60_all_recorded sysProto _) context marker style
  exact ⟨B, parts, hB, h1, h2⟩

end Examples

end RUSure.Props
