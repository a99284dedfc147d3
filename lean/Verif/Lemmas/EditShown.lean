import Verif.Lemmas.EditSequence
import Verif.Lemmas.Runner
import Verif.Props.Constraint

/-!
# Texts, HTML and metrics of edit sequences
-/

set_option linter.unusedSimpArgs false
set_option linter.unusedSectionVars false

namespace RUSure.Lemmas
open RUSure RUSure.Spec
variable {M : Type} {prm : Params}

/-! ## Groups and what they sum up -/

theorem runs_text (actions : List EditAction) {runs : List (List ShownEdit)} {gs : List EditGroup}
    (h : List.Forall₂ SumsUp runs gs) :
    groupsText actions gs
      = (runs.flatten.filter fun s => decide (s.action ∈ actions)).flatMap ShownEdit.text := by
  induction h with
  | nil => rfl
  | @cons run g runs gs h1 _ ih =>
    unfold groupsText at ih ⊢
    rw [List.flatten_cons, List.filter_append, List.flatMap_append, ← ih, List.filter_cons]
    obtain ⟨x, hx⟩ := List.exists_mem_of_ne_nil _ h1.nonempty
    have hg := h1.action x hx
    have hall : ∀ y ∈ run, y.action = x.action := by
      intro y hy
      have := h1.action y hy
      rw [hg] at this
      exact (Option.some.inj this).symm
    by_cases hc : x.action ∈ actions
    · rw [if_pos (by simpa [hg] using hc), List.flatMap_cons, h1.content,
        (List.filter_eq_self (l := run)).2 fun y hy => by simpa [hall y hy] using hc]
    · rw [if_neg (by simpa [hg] using hc), (List.filter_eq_nil_iff (l := run)).2 fun y hy => by simpa [hall y hy] using hc]
      rfl

theorem runs_cost {runs : List (List ShownEdit)} {gs : List EditGroup} (h : List.Forall₂ SumsUp runs gs) :
    (gs.map EditGroup.cost).sum = (runs.flatten.map ShownEdit.cost).sum := by
  induction h with
  | nil => rfl
  | cons h1 _ ih => simp [h1.cost, ih]

theorem foldl_costs (gs : List EditGroup) (c : Cost) :
    gs.foldl (fun total g => total + g.cost) c = c + (gs.map EditGroup.cost).sum := by
  induction gs generalizing c with
  | nil => simp
  | cons g gs ih => simp [ih, add_assoc]

theorem shown_cost (textOf : EditInfo → Text) (xs : List (EditInfo × Cost)) (before : List EditInfo)
    (h : ∀ x ∈ xs, x.1.action = .targetDeco → x.2 = 0) :
    ((showEdits textOf before xs).map ShownEdit.cost).sum = (xs.map Prod.snd).sum := by
  induction xs generalizing before with
  | nil => rfl
  | cons x xs ih =>
    obtain ⟨x, c⟩ := x
    rw [showEdits, List.map_append, List.sum_append, ih _ fun y hy => h y (by simp [hy])]
    have h0 := h (x, c) (by simp)
    simp only [List.map_cons, List.sum_cons]
    congr 1
    unfold showEdit
    split
    · simp
    · next ha =>
      have hc : c = 0 := h0 ha
      split <;> simp [hc]
    · simp

theorem costed_weight (p : List EditEdge) (h : ∀ e ∈ p, e.info = none → e.cost = 0) :
    ((costedEdits p).map Prod.snd).sum = weight Edge.cost p := by
  induction p with
  | nil => rfl
  | cons e p ih =>
    have ih := ih fun e he => h e (by simp [he])
    have h0 := h e (by simp)
    have hw : weight Edge.cost (e :: p) = e.cost + weight Edge.cost p := by simp [weight]
    rw [hw, ← ih]
    cases hi : e.info with
    | none => rw [h0 hi]; simp [costedEdits, hi]
    | some x => simp [costedEdits, hi]

theorem costed_edits (p : List EditEdge) : (costedEdits p).map Prod.fst = editsOf p := by
  induction p with
  | nil => rfl
  | cons e p ih =>
    unfold costedEdits editsOf at *
    cases hi : e.info <;> simp [hi, ih]

/-! ## Texts of the two sides -/

theorem shown_ptext (textOf : EditInfo → Text) (f : Nat → Text) (xs : List (EditInfo × Cost))
    (before : List EditInfo)
    (h : ∀ x ∈ xs, (x.1.action = .keep ∨ x.1.action = .delete ∨ x.1.action = .protoDeco) →
      protoTextOf f x.1 = textOf x.1) :
    ((showEdits textOf before xs).filter fun s => decide (s.action ∈ [EditAction.keep, .delete])).flatMap ShownEdit.text
      = (xs.map Prod.fst).flatMap (protoTextOf f) := by
  induction xs generalizing before with
  | nil => rfl
  | cons x xs ih =>
    obtain ⟨x, c⟩ := x
    rw [showEdits, List.filter_append, List.flatMap_append, ih _ fun y hy => h y (by simp [hy])]
    have h0 := h (x, c) (by simp)
    simp only [List.map_cons, List.flatMap_cons]
    congr 1
    obtain ⟨xp, xt, action, conf⟩ := x
    cases action
    case keep => rw [h0 (by simp)]; simp [showEdit]
    case delete => rw [h0 (by simp)]; simp [showEdit]
    case protoDeco => rw [h0 (by simp)]; simp only [showEdit]; split <;> simp
    case targetDeco => simp only [showEdit, protoTextOf]; split <;> simp
    all_goals simp [showEdit, protoTextOf]

theorem shown_spells (textOf : EditInfo → Text) (g : Nat → Text) (D : Text → Prop)
    (xs : List (EditInfo × Cost)) (before : List EditInfo)
    (hk : ∀ x ∈ xs, (x.1.action = .keep ∨ x.1.action = .insert) → ∃ j, x.1.target = some j ∧ g j = textOf x.1)
    (hd : ∀ x ∈ xs, (x.1.action = .protoDeco ∨ x.1.action = .targetDeco) → D (textOf x.1)) :
    Spells D (((xs.map Prod.fst).filterMap EditInfo.usesTarget).map g)
      (((showEdits textOf before xs).filter fun s => decide (s.action ∈ [EditAction.keep, .insert])).flatMap
        ShownEdit.text) := by
  induction xs generalizing before with
  | nil => exact .nil
  | cons x xs ih =>
    obtain ⟨x, c⟩ := x
    have ih := ih (x :: before) (fun y hy => hk y (by simp [hy])) fun y hy => hd y (by simp [hy])
    rw [showEdits, List.filter_append, List.flatMap_append]
    have hk0 := hk (x, c) (by simp)
    have hd0 := hd (x, c) (by simp)
    obtain ⟨xp, xt, action, conf⟩ := x
    cases action
    case keep =>
      obtain ⟨j, hj, ht⟩ := hk0 (by simp)
      simp only at hj ht
      subst hj
      simp only [List.map_cons, List.filterMap_cons, EditInfo.usesTarget, showEdit]
      rw [ht]
      simpa using Spells.tok _ ih
    case insert =>
      obtain ⟨j, hj, ht⟩ := hk0 (by simp)
      simp only at hj ht
      subst hj
      simp only [List.map_cons, List.filterMap_cons, EditInfo.usesTarget, showEdit]
      rw [ht]
      simpa using Spells.tok _ ih
    case protoDeco =>
      simp only [List.map_cons, List.filterMap_cons, EditInfo.usesTarget, showEdit]
      split
      · simpa using ih
      · simpa using Spells.deco (hd0 (by simp)) ih
    case targetDeco =>
      simp only [List.map_cons, List.filterMap_cons, EditInfo.usesTarget, showEdit]
      split
      · simpa using ih
      · simpa using Spells.deco (hd0 (by simp)) ih
    all_goals exact ih

theorem tokens_at (seq : List (Node M)) : ∀ (ns : List (Node M)) (i : Nat), PlacedAt seq i ns →
    (tokens i ns).map (fun x => textAt seq x.1) = (tokens i ns).map fun x => x.2.1
  | [], _, _ => by simp [tokens]
  | .tok t mt :: ns, i, h => by
    simp only [tokens, List.map_cons]
    rw [tokens_at seq ns (i + 1) (h.leaf rfl), h.text]; rfl
  | .group cs mt :: ns, i, h => by
    simp only [tokens, List.map_append]
    rw [tokens_at seq cs (i + 1) h.children, tokens_at seq ns _ h.rest]
  | .deco t :: ns, i, h => by simp only [tokens]; exact tokens_at seq ns (i + 1) (h.leaf rfl)
  | .rstart :: ns, i, h => by simp only [tokens]; exact tokens_at seq ns (i + 1) (h.leaf rfl)
  | .rend :: ns, i, h => by simp only [tokens]; exact tokens_at seq ns (i + 1) (h.leaf rfl)
  | .exit :: ns, i, h => by simp only [tokens]; exact tokens_at seq ns (i + 1) (h.leaf rfl)

theorem spells_append {D : Text → Prop} {a b : List Text} {s t : Text} (h : Spells D a s) (h' : Spells D b t) :
    Spells D (a ++ b) (s ++ t) := by
  induction h with
  | nil => exact h'
  | tok t _ ih => rw [List.append_assoc]; exact .tok t ih
  | deco hd _ ih => rw [List.append_assoc]; exact .deco hd ih

/-- A sequence is spelled by its tokens and decorations. -/
theorem text_spells (D : Text → Prop) : ∀ (ns : List (Node M)) (i : Nat),
    (∀ d, .deco d ∈ docNodes ns → D d) →
    Spells D ((tokens i ns).map fun x => x.2.1) ((docNodes ns).flatMap leafText)
  | [], _, _ => by rw [docNodes_nil]; simpa [tokens] using Spells.nil
  | .tok t mt :: ns, i, h => by
    rw [docNodes_cons]
    simp only [tokens, List.map_cons, nodesIn, docNodes_nil, List.nil_append, List.flatMap_cons, leafText]
    exact .tok _ (text_spells D ns (i + 1) fun d hd => h d (by rw [docNodes_cons]; simp [hd]))
  | .group cs mt :: ns, i, h => by
    rw [docNodes_cons]
    simp only [tokens, List.map_append, nodesIn, List.flatMap_cons, leafText, List.nil_append, List.flatMap_append]
    exact spells_append (text_spells D cs (i + 1) fun d hd => h d (by rw [docNodes_cons]; simp [nodesIn, hd]))
      (text_spells D ns _ fun d hd => h d (by rw [docNodes_cons]; simp [hd]))
  | .deco t :: ns, i, h => by
    rw [docNodes_cons]
    simp only [tokens, nodesIn, docNodes_nil, List.nil_append, List.flatMap_cons, leafText]
    exact .deco (h t (by rw [docNodes_cons]; simp))
      (text_spells D ns (i + 1) fun d hd => h d (by rw [docNodes_cons]; simp [hd]))
  | .rstart :: ns, i, h => by
    rw [docNodes_cons]
    simp only [tokens, nodesIn, docNodes_nil, List.nil_append, List.flatMap_cons, leafText]
    exact text_spells D ns (i + 1) fun d hd => h d (by rw [docNodes_cons]; simp [hd])
  | .rend :: ns, i, h => by
    rw [docNodes_cons]
    simp only [tokens, nodesIn, docNodes_nil, List.nil_append, List.flatMap_cons, leafText]
    exact text_spells D ns (i + 1) fun d hd => h d (by rw [docNodes_cons]; simp [hd])
  | .exit :: ns, i, h => by
    rw [docNodes_cons]
    simp only [tokens, nodesIn, docNodes_nil, List.nil_append, List.flatMap_cons, leafText]
    exact text_spells D ns (i + 1) fun d hd => h d (by rw [docNodes_cons]; simp [hd])

theorem spells_filter {D : Text → Prop} {q : Char → Bool} (hD : ∀ d, D d → ∀ c ∈ d, q c = false)
    {ts : List Text} {s : Text} (h : Spells D ts s) : s.filter q = ts.flatten.filter q := by
  induction h with
  | nil => rfl
  | tok t _ ih => simp [ih]
  | deco hd _ ih =>
    rw [List.filter_append, ih, List.filter_eq_nil_iff.2 fun c hc => by simp [hD _ hd c hc]]
    rfl

/-! ## HTML -/

theorem classes_ok (b : Option (Option Conf)) (g : EditGroup) : Classes b g (groupClasses b g) := by
  obtain ⟨content, action, conf, cost⟩ := g
  have hb : b ∈ [none, some none, some (some Conf.high), some (some .low)] := by
    rcases b with _ | _ | _ | _ <;> simp
  have ha : action ∈ [none, some EditAction.keep, some .delete, some .insert, some .protoDeco,
      some .targetDeco, some .startLow, some .startEditing, some .earlyExit] := by
    rcases action with _ | _ | _ | _ | _ | _ | _ | _ | _ <;> simp
  have hc : conf ∈ [none, some none, some (some Conf.high), some (some .low)] := by
    rcases conf with _ | _ | _ | _ <;> simp
  have key0 : ∀ b ∈ [none, some none, some (some Conf.high), some (some .low)],
      ∀ a ∈ [none, some EditAction.keep, some .delete, some .insert, some .protoDeco, some .targetDeco,
        some .startLow, some .startEditing, some .earlyExit],
      ∀ c ∈ [none, some none, some (some Conf.high), some (some .low)],
      ("keep".toList ∈ groupClasses b ⟨[], a, c, 0⟩ ↔ a = some .keep) := by decide +kernel
  have key1 : ∀ b ∈ [none, some none, some (some Conf.high), some (some .low)],
      ∀ a ∈ [none, some EditAction.keep, some .delete, some .insert, some .protoDeco, some .targetDeco,
        some .startLow, some .startEditing, some .earlyExit],
      ∀ c ∈ [none, some none, some (some Conf.high), some (some .low)],
      ("delete".toList ∈ groupClasses b ⟨[], a, c, 0⟩ ↔ a = some .delete) := by decide +kernel
  have key2 : ∀ b ∈ [none, some none, some (some Conf.high), some (some .low)],
      ∀ a ∈ [none, some EditAction.keep, some .delete, some .insert, some .protoDeco, some .targetDeco,
        some .startLow, some .startEditing, some .earlyExit],
      ∀ c ∈ [none, some none, some (some Conf.high), some (some .low)],
      ("insert".toList ∈ groupClasses b ⟨[], a, c, 0⟩ ↔ a = some .insert) := by decide +kernel
  have key3 : ∀ b ∈ [none, some none, some (some Conf.high), some (some .low)],
      ∀ a ∈ [none, some EditAction.keep, some .delete, some .insert, some .protoDeco, some .targetDeco,
        some .startLow, some .startEditing, some .earlyExit],
      ∀ c ∈ [none, some none, some (some Conf.high), some (some .low)],
      ("start_editing".toList ∈ groupClasses b ⟨[], a, c, 0⟩ ↔ a = some .startEditing) := by decide +kernel
  have key4 : ∀ b ∈ [none, some none, some (some Conf.high), some (some .low)],
      ∀ a ∈ [none, some EditAction.keep, some .delete, some .insert, some .protoDeco, some .targetDeco,
        some .startLow, some .startEditing, some .earlyExit],
      ∀ c ∈ [none, some none, some (some Conf.high), some (some .low)],
      ("high_confidence".toList ∈ groupClasses b ⟨[], a, c, 0⟩ ↔ c = some (some .high)) := by decide +kernel
  have key5 : ∀ b ∈ [none, some none, some (some Conf.high), some (some .low)],
      ∀ a ∈ [none, some EditAction.keep, some .delete, some .insert, some .protoDeco, some .targetDeco,
        some .startLow, some .startEditing, some .earlyExit],
      ∀ c ∈ [none, some none, some (some Conf.high), some (some .low)],
      ("low_confidence".toList ∈ groupClasses b ⟨[], a, c, 0⟩ ↔ c = some (some .low)) := by decide +kernel
  have key6 : ∀ b ∈ [none, some none, some (some Conf.high), some (some .low)],
      ∀ a ∈ [none, some EditAction.keep, some .delete, some .insert, some .protoDeco, some .targetDeco,
        some .startLow, some .startEditing, some .earlyExit],
      ∀ c ∈ [none, some none, some (some Conf.high), some (some .low)],
      ("was_high_confidence".toList ∈ groupClasses b ⟨[], a, c, 0⟩ ↔ a = some .insert ∧ b = some (some .high)) := by decide +kernel
  have key7 : ∀ b ∈ [none, some none, some (some Conf.high), some (some .low)],
      ∀ a ∈ [none, some EditAction.keep, some .delete, some .insert, some .protoDeco, some .targetDeco,
        some .startLow, some .startEditing, some .earlyExit],
      ∀ c ∈ [none, some none, some (some Conf.high), some (some .low)],
      ("was_low_confidence".toList ∈ groupClasses b ⟨[], a, c, 0⟩ ↔ a = some .insert ∧ b = some (some .low)) := by decide +kernel
  exact ⟨key0 b hb action ha conf hc, key1 b hb action ha conf hc, key2 b hb action ha conf hc,
    key3 b hb action ha conf hc, key4 b hb action ha conf hc, key5 b hb action ha conf hc,
    key6 b hb action ha conf hc, key7 b hb action ha conf hc⟩

theorem groupHtml_spans (marker : Text) (gs : List EditGroup) (b : Option (Option Conf)) :
    ∃ spans, Spans marker b (shownGroups marker gs) spans ∧ groupHtml marker b gs = spans.map renderSpan
      ∧ ∀ s ∈ spans, ∃ b g, s.1 = groupClasses b g := by
  induction gs generalizing b with
  | nil => exact ⟨[], .nil b, rfl, by simp⟩
  | cons g gs ih =>
    unfold shownGroups at ih ⊢
    rw [groupHtml, List.filterMap_cons]
    by_cases h1 : g.action = some .startEditing
    · obtain ⟨spans, h2, h3, h4⟩ := ih g.conf
      rw [if_pos h1, if_pos h1]
      exact ⟨(groupClasses b g, marker) :: spans, .cons (classes_ok b g) h2, by rw [h3]; rfl,
        List.forall_mem_cons.2 ⟨⟨b, g, rfl⟩, h4⟩⟩
    · rw [if_neg h1, if_neg h1]
      by_cases h5 : g.content = []
      · rw [if_pos h5, if_pos h5]
        exact ih b
      · obtain ⟨spans, h2, h3, h4⟩ := ih g.conf
        rw [if_neg h5, if_neg h5]
        exact ⟨(groupClasses b g, g.content) :: spans, .cons (classes_ok b g) h2, by rw [h3]; rfl,
          List.forall_mem_cons.2 ⟨⟨b, g, rfl⟩, h4⟩⟩

/-! ## Metrics -/

theorem all_actions (a : EditAction) : a ∈ [EditAction.keep, .delete, .insert, .protoDeco, .targetDeco,
    .startLow, .startEditing, .earlyExit] := by cases a <;> simp

theorem metricName_inj {a a' : EditAction} {c c' : Option Conf} {k k' : MetricKind}
    (h : metricName a c k = metricName a' c' k') : a = a' ∧ c = c' ∧ k = k' := by
  have key : ∀ a ∈ [EditAction.keep, .delete, .insert, .protoDeco, .targetDeco, .startLow, .startEditing,
      .earlyExit], ∀ c ∈ [none, some Conf.high, some .low], ∀ k ∈ [MetricKind.cost, .chars, .edges],
      ∀ a' ∈ [EditAction.keep, .delete, .insert, .protoDeco, .targetDeco, .startLow, .startEditing,
      .earlyExit], ∀ c' ∈ [none, some Conf.high, some .low], ∀ k' ∈ [MetricKind.cost, .chars, .edges],
      metricName a c k = metricName a' c' k' → a = a' ∧ c = c' ∧ k = k' := by decide +kernel
  exact key a (all_actions a) c (by rcases c with _ | _ | _ <;> simp) k (by cases k <;> simp)
    a' (all_actions a') c' (by rcases c' with _ | _ | _ <;> simp) k' (by cases k' <;> simp) h

theorem lookup_dictAdd (k : Text) (v : Cost) (d : List (Text × Cost)) (k' : Text) :
    (dictAdd k v d).lookup k' = if k' = k then some ((d.lookup k).getD 0 + v) else d.lookup k' := by
  unfold dictAdd
  rw [lookup_dictSet]

theorem editsWith_cons {e : EditEdge} {x : EditInfo} (hx : e.info = some x) (p : List EditEdge) (a c) :
    editsWith (e :: p) a c
      = if x.action = a ∧ x.conf = c then (x, e.cost) :: editsWith p a c else editsWith p a c := by
  have : costedEdits (e :: p) = (x, e.cost) :: costedEdits p := by simp [costedEdits, hx]
  unfold editsWith
  rw [this, List.filter_cons]
  simp only [decide_eq_true_eq]

theorem metricValue_cons (textOf : EditInfo → Text) (x : EditInfo × Cost) (xs : List (EditInfo × Cost))
    (k : MetricKind) :
    metricValue textOf (x :: xs) k
      = metricValue textOf [x] k + metricValue textOf xs k := by
  cases k
  · simp [metricValue]
  · simp only [metricValue, List.flatMap_cons, List.flatMap_nil, List.append_nil, List.length_append, Nat.cast_add]
    rfl
  · simp only [metricValue, List.length_cons, List.length_nil]
    rw [show ((xs.length + 1 : Nat) : ℚ) = ((0 + 1 : Nat) : ℚ) + (xs.length : ℚ) by push_cast; ring]
    rfl

/-- One round of the loop. -/
def metricsStep (content : Text) (x : EditInfo) (cost : Cost) (d : List (Text × Cost)) : List (Text × Cost) :=
  dictAdd (metricName x.action x.conf .edges) ((1 : ℚ) : Cost)
    (dictAdd (metricName x.action x.conf .chars) (((content.length : Nat) : ℚ) : Cost)
      (dictAdd (metricName x.action x.conf .cost) cost d))

theorem metricsStep_lookup (textOf : EditInfo → Text) (x : EditInfo) (cost : Cost) (d : List (Text × Cost))
    (a c k) : (metricsStep (textOf x) x cost d).lookup (metricName a c k)
      = if x.action = a ∧ x.conf = c then
          some ((d.lookup (metricName a c k)).getD 0 + metricValue textOf [(x, cost)] k)
        else d.lookup (metricName a c k) := by
  unfold metricsStep
  have hne : ∀ {a a' : EditAction} {c c' : Option Conf} {k k' : MetricKind}, k ≠ k' →
      metricName a c k ≠ metricName a' c' k' := fun hk h => hk (metricName_inj h).2.2
  by_cases hc : x.action = a ∧ x.conf = c
  · obtain ⟨rfl, rfl⟩ := hc
    rw [if_pos ⟨rfl, rfl⟩]
    have n1 := hne (a := x.action) (a' := x.action) (c := x.conf) (c' := x.conf) (k := .cost) (k' := .chars) (by simp)
    have n2 := hne (a := x.action) (a' := x.action) (c := x.conf) (c' := x.conf) (k := .cost) (k' := .edges) (by simp)
    have n3 := hne (a := x.action) (a' := x.action) (c := x.conf) (c' := x.conf) (k := .chars) (k' := .edges) (by simp)
    cases k <;> simp [lookup_dictAdd, n1, n2, n3, n1.symm, n2.symm, n3.symm, metricValue]
  · rw [if_neg hc]
    have hn : ∀ k', metricName a c k ≠ metricName x.action x.conf k' := by
      intro k' h
      obtain ⟨h1, h2, -⟩ := metricName_inj h
      exact hc ⟨h1.symm, h2.symm⟩
    rw [lookup_dictAdd, if_neg (hn _), lookup_dictAdd, if_neg (hn _), lookup_dictAdd, if_neg (hn _)]

theorem metricsLoop_lookup {P T : Storage M} {textOf : EditInfo → Text} :
    ∀ (p : List EditEdge) (d : List (Text × Cost)), Showable P T textOf p →
      ∃ d', metricsLoop P T p d = some d'
        ∧ (∀ a c k, d'.lookup (metricName a c k) = if editsWith p a c = [] then d.lookup (metricName a c k) else
          some ((d.lookup (metricName a c k)).getD 0 + metricValue textOf (editsWith p a c) k))
        ∧ ((d.map Prod.fst).Nodup → (d'.map Prod.fst).Nodup)
        ∧ ∀ n ∈ d'.map Prod.fst, n ∈ d.map Prod.fst ∨ ∃ a c k, n = metricName a c k ∧ editsWith p a c ≠ [] := by
  intro p
  induction p with
  | nil => intro d _; exact ⟨d, rfl, fun a c k => by simp [editsWith, costedEdits], id, fun n h => .inl h⟩
  | cons e p ih =>
    intro d hp
    have hp' : Showable P T textOf p := fun e he => hp e (by simp [he])
    obtain ⟨-, hx⟩ := hp e (by simp)
    rw [metricsLoop]
    match hi : e.info with
    | none =>
      obtain ⟨d', h1, h2, h3, h4⟩ := ih d hp'
      have hw : ∀ a c, editsWith (e :: p) a c = editsWith p a c := by
        intro a c; simp [editsWith, costedEdits, hi]
      refine ⟨d', h1, ?_, h3, ?_⟩
      · intro a c k; rw [hw]; exact h2 a c k
      · intro n hn
        rcases h4 n hn with h | ⟨a, c, k, h⟩
        · exact .inl h
        · exact .inr ⟨a, c, k, by rw [hw]; exact h⟩
    | some x =>
      simp only [hx x hi]
      obtain ⟨d', h1, h2, h3, h4⟩ := ih (metricsStep (textOf x) x e.cost d) hp'
      refine ⟨d', h1, ?_, ?_, ?_⟩
      · intro a c k
        rw [h2, metricsStep_lookup, editsWith_cons hi]
        by_cases hc : x.action = a ∧ x.conf = c
        · rw [if_pos hc, if_pos hc, metricValue_cons textOf (x, e.cost) (editsWith p a c),
            if_neg (List.cons_ne_nil (x, e.cost) (editsWith p a c))]
          split
          · next hnil => rw [hnil]; cases k <;> simp [metricValue]
          · simp [add_assoc]
        · rw [if_neg hc, if_neg hc]
      · intro hd
        apply h3
        unfold metricsStep dictAdd
        exact (dictSet_nodup _ _ _ (dictSet_nodup _ _ _ (dictSet_nodup _ _ _ hd).1).1).1
      · intro n hn
        have hs : ∀ {n k v} {d : List (Text × Cost)}, n ∈ (dictAdd k v d).map Prod.fst →
            n ∈ d.map Prod.fst ∨ n = k := by
          intro n k v d h
          unfold dictAdd at h
          generalize (d.lookup k).getD 0 + v = v at h
          induction d with
          | nil => simpa [dictSet] using h
          | cons y d ih =>
            rw [dictSet] at h
            split at h
            · next hy => 
              simp only [List.map_cons, List.mem_cons] at h ⊢
              rcases h with h | h
              · exact .inr h
              · exact .inl (.inr h)
            · simp only [List.map_cons, List.mem_cons] at h ⊢
              rcases h with h | h
              · exact .inl (.inl h)
              · rcases ih h with h | h
                · exact .inl (.inr h)
                · exact .inr h
        have hself : editsWith (e :: p) x.action x.conf ≠ [] := by rw [editsWith_cons hi]; simp
        rcases h4 n hn with h | ⟨a, c, k, h⟩
        · rcases hs h with h | h
          · rcases hs h with h | h
            · rcases hs h with h | h
              · exact .inl h
              · exact .inr ⟨_, _, _, h, hself⟩
            · exact .inr ⟨_, _, _, h, hself⟩
          · exact .inr ⟨_, _, _, h, hself⟩
        · refine .inr ⟨a, c, k, h.1, ?_⟩
          rw [editsWith_cons hi]
          split
          · simp
          · exact h.2

/-! ## Totals -/

theorem sum_pick {K : Type} [DecidableEq K] (x : K) (c : Cost) (g : K → Cost) : ∀ (ks : List K), ks.Nodup →
    x ∈ ks → (ks.map fun k => if x = k then c + g k else g k).sum = c + (ks.map g).sum
  | [], _, h => by simp at h
  | k :: ks, hn, h => by
    rw [List.nodup_cons] at hn
    rw [List.map_cons, List.sum_cons, List.map_cons, List.sum_cons]
    by_cases hk : x = k
    · subst hk
      have : (ks.map fun k => if x = k then c + g k else g k) = ks.map g := by
        refine List.map_congr_left fun k hk => ?_
        rw [if_neg]
        rintro rfl
        exact hn.1 hk
      rw [if_pos rfl, this, add_assoc]
    · rw [if_neg hk, sum_pick x c g ks hn.2 (by simpa [hk] using h)]
      exact add_left_comm _ _ _

theorem sum_parts {A K : Type} [DecidableEq K] (key : A → K) (f : A → Cost) (ks : List K) (hn : ks.Nodup) :
    ∀ (xs : List A), (∀ x ∈ xs, key x ∈ ks) →
      (ks.map fun k => ((xs.filter fun x => decide (key x = k)).map f).sum).sum = (xs.map f).sum
  | [], _ => by simp
  | x :: xs, h => by
    have ih := sum_parts key f ks hn xs fun y hy => h y (by simp [hy])
    rw [List.map_cons, List.sum_cons, ← ih, ← sum_pick (key x) (f x) _ ks hn (h x (by simp))]
    congr 1
    refine List.map_congr_left fun k _ => ?_
    rw [List.filter_cons]
    simp only [decide_eq_true_eq]
    split <;> simp

theorem metrics_total (textOf : EditInfo → Text) (p : List EditEdge) :
    (metricKeys.map fun k => metricValue textOf (editsWith p k.1 k.2) .cost).sum
      = ((costedEdits p).map Prod.snd).sum := by
  have h := sum_parts (fun x : EditInfo × Cost => (x.1.action, x.1.conf)) Prod.snd metricKeys (by decide)
    (costedEdits p) (fun x _ => by
      obtain ⟨⟨xp, xt, a, c⟩, cost⟩ := x
      show (a, c) ∈ metricKeys
      rcases c with _ | _ | _ <;> cases a <;> simp [metricKeys])
  rw [← h]
  congr 1
  refine List.map_congr_left fun k _ => ?_
  simp only [metricValue, editsWith, Prod.ext_iff]

/-! ## Tags -/

theorem strip_tag {l : Text} (h : '>' ∉ l) (r : Text) :
    stripTags true (l ++ '>' :: r) = stripTags false r := by
  induction l with
  | nil => simp [stripTags]
  | cons c l ih =>
    simp only [List.mem_cons, not_or] at h
    rw [List.cons_append, stripTags, if_neg (Ne.symm h.1), ih h.2]

theorem classes_no_gt (b : Option (Option Conf)) (g : EditGroup) : '>' ∉ joinSpace (groupClasses b g) := by
  obtain ⟨content, action, conf, cost⟩ := g
  have key : ∀ b ∈ [none, some none, some (some Conf.high), some (some .low)],
      ∀ a ∈ [none, some EditAction.keep, some .delete, some .insert, some .protoDeco, some .targetDeco,
        some .startLow, some .startEditing, some .earlyExit],
      ∀ c ∈ [none, some none, some (some Conf.high), some (some .low)],
      '>' ∉ joinSpace (groupClasses b ⟨[], a, c, 0⟩) := by decide +kernel
  exact key b (by rcases b with _ | _ | _ | _ <;> simp)
    action (by rcases action with _ | _ | _ | _ | _ | _ | _ | _ | _ <;> simp)
    conf (by rcases conf with _ | _ | _ | _ <;> simp)

theorem strip_close (r : Text) : stripTags false ("</span>".toList ++ r) = stripTags false r := by
  have h : "</span>".toList = '<' :: ("/span".toList ++ ['>']) := by decide +kernel
  rw [h, List.cons_append, stripTags, if_pos rfl, List.append_assoc, List.singleton_append]
  exact strip_tag (by decide +kernel) r

theorem strip_span (s : List Text × Text) (hs : '>' ∉ joinSpace s.1) (r : Text) :
    stripTags false (renderSpan s ++ r) = htmlEscape s.2 ++ stripTags false r := by
  have h1 : "<span class=\"".toList = '<' :: "span class=\"".toList := by decide +kernel
  have h2 : "\">".toList = ['"', '>'] := by decide +kernel
  have h3 : '>' ∉ "span class=\"".toList := by decide +kernel
  have h4 : renderSpan s ++ r = '<' :: (("span class=\"".toList ++ joinSpace s.1 ++ ['"'])
      ++ '>' :: (htmlEscape s.2 ++ ("</span>".toList ++ r))) := by
    unfold renderSpan
    rw [h1, h2]
    simp only [List.cons_append, List.append_assoc, List.nil_append]
  rw [h4, stripTags, if_pos rfl, strip_tag, Props.strip_text (Props.escape_no_lt _), strip_close]
  simp only [List.mem_append, not_or]
  exact ⟨⟨h3, hs⟩, by decide⟩

theorem strip_spans (spans : List (List Text × Text)) (hs : ∀ s ∈ spans, '>' ∉ joinSpace s.1) (r : Text) :
    stripTags false (spans.flatMap renderSpan ++ r)
      = spans.flatMap (fun s => htmlEscape s.2) ++ stripTags false r := by
  induction spans with
  | nil => rfl
  | cons s spans ih =>
    rw [List.flatMap_cons, List.append_assoc, strip_span s (hs s (by simp)), ih fun x hx => hs x (by simp [hx])]
    simp

/-! ## Spans -/

theorem spans_text {marker : Text} {actions : List EditAction} (hst : .startEditing ∉ actions)
    (q : List Text × Text → Bool) : ∀ (gs : List EditGroup) {b spans},
    Spans marker b (shownGroups marker gs) spans →
    (∀ b g cls t, Classes b g cls → (q (cls, t) = true ↔ ∃ a ∈ actions, g.action = some a)) →
    (spans.filter q).flatMap Prod.snd = groupsText actions gs
  | [], b, spans, h, _ => by cases h; rfl
  | g :: gs, b, spans, h, hq => by
    unfold shownGroups at h
    rw [List.filterMap_cons] at h
    have hg : groupsText actions (g :: gs)
        = (if ∃ a ∈ actions, g.action = some a then g.content else []) ++ groupsText actions gs := by
      unfold groupsText
      rw [List.filter_cons]
      simp only [decide_eq_true_eq]
      split <;> simp
    rw [hg]
    by_cases h1 : g.action = some .startEditing
    · rw [if_pos h1] at h
      have hno : ¬ ∃ a ∈ actions, g.action = some a := by
        rintro ⟨a, ha, h2⟩
        rw [h1] at h2
        cases h2
        exact hst ha
      cases h with
      | @cons _ _ _ cls _ spans' hc hr =>
        rw [if_neg hno, List.filter_cons, if_neg fun h => hno ((hq _ _ _ _ hc).1 h)]
        exact spans_text hst q gs hr hq
    · rw [if_neg h1] at h
      by_cases h2 : g.content = []
      · rw [if_pos h2] at h
        rw [h2, ite_self]
        exact spans_text hst q gs h hq
      · rw [if_neg h2] at h
        cases h with
        | @cons _ _ _ cls _ spans' hc hr =>
          rw [← spans_text hst q gs hr hq, List.filter_cons]
          by_cases h3 : ∃ a ∈ actions, g.action = some a
          · rw [if_pos h3, if_pos ((hq _ _ _ _ hc).2 h3)]; rfl
          · rw [if_neg h3, if_neg fun h => h3 ((hq _ _ _ _ hc).1 h)]; rfl

theorem spans_texts {marker : Text} {b shown spans} (h : Spans marker b shown spans) :
    spans.map Prod.snd = shown.map Prod.snd := by
  induction h with
  | nil => rfl
  | cons _ _ ih => simp [ih]

end RUSure.Lemmas
