import Verif.Model.Edit
import Verif.Model.Solution

/-!
# Showing edit sequences

`edit_distance_utility/edit_dags.py` (`_group_edit_sequence`, `extract_edit_sequence_text`,
`extract_edit_sequence_html`, `extract_edit_summary_metrics`) and
`wrappers/edit_distance_wrapper_base.py` (`render_solution_html`, `render_pairwise_matching_html`).
-/

namespace RUSure
variable {M : Type}

/-- `edit_dags.py:1761-1774`, `1993-2006`: the text of an edit. `none` models `IndexError`. -/
def editContent (P T : Storage M) (x : EditInfo) : Option Text :=
  match x.proto with
  | some i => P.preorder[i]?.bind P.renderNode
  | none =>
    match x.target with
    | some j => T.preorder[j]?.bind T.renderNode
    | none => some []

/-- `edit_dags.py:1744-1748`: what `_group_edit_sequence` yields. The action and the confidence are `none`
for an edge without information; the inner `none` of the confidence is `NOT_APPLICABLE`. -/
structure EditGroup where
  content : Text
  action : Option EditAction
  conf : Option (Option Conf)
  cost : Cost

/-- `edit_dags.py:1749-1756`: the state of the loop. -/
structure GroupState where
  action : Option EditAction := none
  conf : Option (Option Conf) := none
  parts : List Text := []
  cost : Cost := 0
  last : Option EditAction := none

/-- An edge of a path. The functions below do not look at the states, so they are also functions of the paths of
rewritten DAGs. -/
abbrev EditPathEdge (σ : Type) := Edge σ DecisionKey DecisionValue (Option EditInfo)

/-- `edit_dags.py:1806-1812`, `1829-1835`: what is yielded at the end of a group. -/
def GroupState.flush (s : GroupState) : List EditGroup :=
  if s.action ≠ none ∨ s.cost ≠ 0 then [⟨s.parts.flatten, s.action, s.conf, s.cost⟩] else []

/-- `edit_dags.py:1805-1827`: an edit is appended to the current group or starts a new one. -/
def GroupState.add (s : GroupState) (content : Text) (action : Option EditAction)
    (conf : Option (Option Conf)) (cost : Cost) : List EditGroup × GroupState :=
  let last := if action ≠ none ∧ action ≠ some .startLow ∧ action ≠ some .startEditing then action else s.last
  if action ≠ s.action ∨ conf ≠ s.conf then
    (s.flush, ⟨action, conf, [content], 0 + cost, last⟩)
  else ([], ⟨s.action, s.conf, s.parts ++ [content], s.cost + cost, last⟩)

/-- `edit_dags.py:1787-1803`: how decorations are shown; `none` means that the edit is skipped. -/
def GroupState.rewrite (s : GroupState) (action : EditAction) (conf : Option Conf) :
    Option (EditAction × Option Conf) :=
  match action with
  | .protoDeco => some (if s.last = some .delete then .delete else .keep, conf)
  | .targetDeco => if s.last = some .keep then none else some (.insert, none)
  | a => some (a, conf)

/-- `edit_dags.py:1757-1835` `_group_edit_sequence`: the loop. `none` models `IndexError`. -/
def groupLoop {σ : Type} (P T : Storage M) : GroupState → List (EditPathEdge σ) → Option (List EditGroup)
  | s, [] => some s.flush
  | s, e :: es =>
    match e.info with
    | some x =>
      match editContent P T x with
      | none => none
      | some content =>
        match s.rewrite x.action x.conf with
        | none => groupLoop P T s es
        | some (a, c) =>
          match groupLoop P T (s.add content (some a) (some c) e.cost).2 es with
          | none => none
          | some r => some ((s.add content (some a) (some c) e.cost).1 ++ r)
    | none =>
      if e.cost ≠ 0 then
        match groupLoop P T (s.add [] none none e.cost).2 es with
        | none => none
        | some r => some ((s.add [] none none e.cost).1 ++ r)
      else groupLoop P T s es

/-- `edit_dags.py:1730-1835` `_group_edit_sequence`. -/
def groupEdits {σ : Type} (P T : Storage M) (path : List (EditPathEdge σ)) : Option (List EditGroup) :=
  groupLoop P T {} path

/-- `edit_dags.py:1853-1866` `extract_edit_sequence_text`: the total cost that is shown at the end. (The
text itself contains printed numbers and is not modelled.) -/
def editSequenceTotal {σ : Type} (P T : Storage M) (path : List (EditPathEdge σ)) : Option Cost :=
  (groupEdits P T path).map fun gs => gs.foldl (fun total g => total + g.cost) 0

/-! ## HTML -/

/-- `edit_dags.py:1946-1962`: the classes of a group; `last` is the confidence of the group before. -/
def groupClasses (last : Option (Option Conf)) (g : EditGroup) : List Text :=
  (match g.action with
    | some .insert => "insert".toList :: (match last with
        | some (some .high) => ["was_high_confidence".toList]
        | some (some .low) => ["was_low_confidence".toList]
        | _ => [])
    | some .delete => ["delete".toList]
    | some .keep => ["keep".toList]
    | some .startEditing => ["start_editing".toList]
    | _ => [])
  ++ (match g.conf with
    | some (some .high) => ["high_confidence".toList]
    | some (some .low) => ["low_confidence".toList]
    | _ => [])

/-- Python's `" ".join`. -/
def joinSpace : List Text → Text
  | [] => []
  | [t] => t
  | t :: ts => t ++ ' ' :: joinSpace ts

/-- `edit_dags.py:1935-1968`: the loop over the groups. -/
def groupHtml (marker : Text) : Option (Option Conf) → List EditGroup → List Text
  | _, [] => []
  | last, g :: gs =>
    if g.action = some .startEditing then
      ("<span class=\"".toList ++ joinSpace (groupClasses last g) ++ "\">".toList ++ htmlEscape marker
        ++ "</span>".toList) :: groupHtml marker g.conf gs
    else if g.content = [] then groupHtml marker last gs
    else
      ("<span class=\"".toList ++ joinSpace (groupClasses last g) ++ "\">".toList ++ htmlEscape g.content
        ++ "</span>".toList) :: groupHtml marker g.conf gs

/-- `edit_dags.py:1869-1971` `extract_edit_sequence_html`, where `style` is the style sheet. -/
def editSequenceHtml {σ : Type} (P T : Storage M) (path : List (EditPathEdge σ))
    (pre marker style : Text) : Option Text :=
  (groupEdits P T path).map fun gs =>
    style ++ "<span class=\"edit_sequence_root\">".toList
      ++ ("<span class=\"prefix\">".toList ++ htmlEscape pre ++ "</span>".toList)
      ++ (groupHtml marker (some none) gs).flatten ++ "</span>".toList

/-! ## Metrics -/

/-- `edit_dags.py:348-360`: the names of `EditAction`. -/
def EditAction.name : EditAction → Text
  | .keep => "KEEP".toList
  | .delete => "DELETE".toList
  | .insert => "INSERT".toList
  | .protoDeco => "PROTOTYPE_DECORATION".toList
  | .targetDeco => "TARGET_DECORATION".toList
  | .startLow => "START_LOW_CONFIDENCE".toList
  | .startEditing => "START_EDITING".toList
  | .earlyExit => "EARLY_EXIT".toList

/-- `edit_dags.py:277-282`: the names of `EditDagStateConfidence`. -/
def confName : Option Conf → Text
  | some .high => "HIGH_CONFIDENCE".toList
  | some .low => "LOW_CONFIDENCE".toList
  | none => "NOT_APPLICABLE".toList

/-- `edit_dags.py:2010-2012`: the three kinds of metrics. -/
inductive MetricKind where
  | cost | chars | edges
  deriving DecidableEq, Repr

/-- `edit_dags.py:2010-2012`: the ends of the names. -/
def MetricKind.name : MetricKind → Text
  | .cost => "cost".toList
  | .chars => "chars".toList
  | .edges => "edges".toList

/-- `edit_dags.py:2010-2012`: the name of a metric. -/
def metricName (a : EditAction) (c : Option Conf) (k : MetricKind) : Text :=
  a.name ++ '_' :: confName c ++ '_' :: k.name

/-- `edit_dags.py:1989`, `2010-2012`: `result[key] += v` for a `defaultdict` of zeros. -/
def dictAdd (k : Text) (v : Cost) (d : List (Text × Cost)) : List (Text × Cost) :=
  dictSet k ((d.lookup k).getD 0 + v) d

/-- `edit_dags.py:1990-2012`: the loop of `extract_edit_summary_metrics`. `none` models `IndexError`. -/
def metricsLoop {σ : Type} (P T : Storage M) :
    List (EditPathEdge σ) → List (Text × Cost) → Option (List (Text × Cost))
  | [], d => some d
  | e :: es, d =>
    match e.info with
    | none => metricsLoop P T es d
    | some x =>
      match editContent P T x with
      | none => none
      | some content =>
        metricsLoop P T es (dictAdd (metricName x.action x.conf .edges) ((1 : ℚ) : Cost)
          (dictAdd (metricName x.action x.conf .chars) (((content.length : Nat) : ℚ) : Cost)
            (dictAdd (metricName x.action x.conf .cost) e.cost d)))

/-- `edit_dags.py:1974-2014` `extract_edit_summary_metrics`. -/
def editMetrics {σ : Type} (P T : Storage M) (path : List (EditPathEdge σ)) : Option (List (Text × Cost)) :=
  metricsLoop P T path []

/-! ## The wrapper -/

/-- `edit_distance_wrapper_base.py:248-266` `render_solution_html`. -/
def solutionHtml (S : Storage M) (α : DecisionKey → Option DecisionValue) (context : Text)
    (textColor borderColor backgroundColor : Text) : Except ExtractError Text :=
  match renderRegionsHtml S α textColor borderColor backgroundColor with
  | .error e => .error e
  | .ok html => .ok
      ("<span style=\"white-space: pre; font-family: monospace; color: #72A0C1;\">".toList
        ++ htmlEscape context ++ "</span>".toList ++ html ++ "<br>".toList)

/-- What `render_pairwise_matching_html` can raise. -/
inductive PairwiseError where
  | solution (e : SolutionError)
  | index

/-- `edit_distance_wrapper_base.py:286-308`: the loop over the targets, starting with number `i`. -/
def pairwiseLoop {σ : Type} (invalid : Cost) (P : Storage M) (a : Decisions) (context marker style : Text) :
    Nat → List (Part σ (Option EditInfo) × Storage M) → Except PairwiseError (List Text)
  | _, [] => .ok []
  | i, (part, T) :: r =>
    match part.bestPath invalid a with
    | .error e => .error (.solution e)
    | .ok path =>
      match editSequenceHtml P T path [] marker style with
      | none => .error .index
      | some html =>
        match pairwiseLoop invalid P a context marker style (i + 1) r with
        | .error e => .error e
        | .ok rest => .ok
            (("========== Target ".toList ++ (Nat.repr i).toList ++ " ==========<br>".toList
              ++ "<span style=\"white-space: pre; font-family: monospace;\">".toList
              ++ htmlEscape context ++ "</span>".toList ++ html ++ "<br>".toList) :: rest)

/-- `edit_distance_wrapper_base.py:268-309` `render_pairwise_matching_html`. -/
def pairwiseHtml {σ C : Type} (invalid : Cost) (proto : List (Node M)) (targets : List (List (Node M)))
    (context : Text) (B : BuiltSystem σ (Option EditInfo) C) (a : Decisions) (marker style : Text) :
    Except PairwiseError Text :=
  match pairwiseLoop invalid (pack proto) a context marker style 0 (B.utilities.zip (targets.map pack)) with
  | .error e => .error e
  | .ok parts => .ok parts.flatten

end RUSure
