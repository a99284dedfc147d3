import Verif.Model.EditSequence
import Verif.Spec.Solution
import Verif.Spec.TokenProbAlign

/-!
# What should be shown of an edit sequence
-/

namespace RUSure.Spec
open RUSure
variable {M : Type}

/-- The text of the token or decoration with an index. -/
def textAt (seq : List (Node M)) (i : Nat) : Text :=
  match (docNodes seq)[i]? with
  | some n => leafText n
  | none => []

/-- The text of an edit: of the prototype node if there is one, otherwise of the target node. -/
def editText (proto target : List (Node M)) (x : EditInfo) : Text :=
  match x.proto, x.target with
  | some i, _ => textAt proto i
  | none, some j => textAt target j
  | none, none => []

/-! ### Decorations -/

/-- The last thing shown after some edits, the latest first; starting to edit or a region shows
nothing. -/
def lastShown : List EditInfo → Option EditAction
  | [] => none
  | x :: xs =>
    match x.action with
    | .startLow => lastShown xs
    | .startEditing => lastShown xs
    | .protoDeco => if lastShown xs = some .delete then some .delete else some .keep
    | .targetDeco => if lastShown xs = some .keep then some .keep else some .insert
    | a => some a

/-- An edit as it is shown. -/
structure ShownEdit where
  text : Text
  action : EditAction
  conf : Option Conf
  cost : Cost

/-- How an edit is shown after the edits `before` (the latest first): decorations of the prototype are
deleted if what is before them is, and kept otherwise; decorations of the target are not shown after
something that is kept, and inserted otherwise. -/
def showEdit (textOf : EditInfo → Text) (before : List EditInfo) (x : EditInfo) (cost : Cost) :
    List ShownEdit :=
  match x.action with
  | .protoDeco => [⟨textOf x, if lastShown before = some .delete then .delete else .keep, x.conf, cost⟩]
  | .targetDeco => if lastShown before = some .keep then [] else [⟨textOf x, .insert, none, cost⟩]
  | a => [⟨textOf x, a, x.conf, cost⟩]

/-- How edits are shown. -/
def showEdits (textOf : EditInfo → Text) : List EditInfo → List (EditInfo × Cost) → List ShownEdit
  | _, [] => []
  | before, (x, cost) :: r => showEdit textOf before x cost ++ showEdits textOf (x :: before) r

/-- The edits of a path, with their costs. -/
def costedEdits (p : List EditEdge) : List (EditInfo × Cost) :=
  p.filterMap fun e => e.info.map fun x => (x, e.cost)

/-- `g` sums up a run of edits that are shown in the same way. -/
structure SumsUp (run : List ShownEdit) (g : EditGroup) : Prop where
  nonempty : run ≠ []
  action : ∀ s ∈ run, g.action = some s.action
  conf : ∀ s ∈ run, g.conf = some s.conf
  content : g.content = run.flatMap ShownEdit.text
  cost : g.cost = (run.map ShownEdit.cost).sum

/-! ### Texts -/

/-- The text of the groups with some actions. -/
def groupsText (actions : List EditAction) (gs : List EditGroup) : Text :=
  (gs.filter fun g => decide (∃ a ∈ actions, g.action = some a)).flatMap EditGroup.content

/-- `Spells toks D t`: `t` consists of the texts `toks` in order, and texts in `D` between them. -/
inductive Spells (D : Text → Prop) : List Text → Text → Prop
  | nil : Spells D [] []
  | tok (t) {ts r} : Spells D ts r → Spells D (t :: ts) (t ++ r)
  | deco {d ts r} : D d → Spells D ts r → Spells D ts (d ++ r)

/-- `d` is a decoration of the sequence. -/
def DecoOf (seq : List (Node M)) (d : Text) : Prop := .deco d ∈ docNodes seq

/-! ### HTML -/

/-- A span with its classes and its text. -/
def renderSpan (s : List Text × Text) : Text :=
  "<span class=\"".toList ++ joinSpace s.1 ++ "\">".toList ++ htmlEscape s.2 ++ "</span>".toList

/-- The groups that are shown, with the text that is shown for them: starting to edit is shown by a
marker, other groups by their content if there is any. -/
def shownGroups (marker : Text) (gs : List EditGroup) : List (EditGroup × Text) :=
  gs.filterMap fun g =>
    if g.action = some .startEditing then some (g, marker)
    else if g.content = [] then none else some (g, g.content)

/-- The classes `cls` tell what happens in group `g`, `before` is the confidence of the group shown
before it. -/
structure Classes (before : Option (Option Conf)) (g : EditGroup) (cls : List Text) : Prop where
  keep : "keep".toList ∈ cls ↔ g.action = some .keep
  delete : "delete".toList ∈ cls ↔ g.action = some .delete
  insert : "insert".toList ∈ cls ↔ g.action = some .insert
  start : "start_editing".toList ∈ cls ↔ g.action = some .startEditing
  high : "high_confidence".toList ∈ cls ↔ g.conf = some (some .high)
  low : "low_confidence".toList ∈ cls ↔ g.conf = some (some .low)
  wasHigh : "was_high_confidence".toList ∈ cls ↔ g.action = some .insert ∧ before = some (some .high)
  wasLow : "was_low_confidence".toList ∈ cls ↔ g.action = some .insert ∧ before = some (some .low)

/-- The spans have the classes that tell about the groups. -/
inductive Spans (marker : Text) : Option (Option Conf) → List (EditGroup × Text) → List (List Text × Text) → Prop
  | nil (b) : Spans marker b [] []
  | cons {b g t cls r r'} : Classes b g cls → Spans marker g.conf r r' →
      Spans marker b ((g, t) :: r) ((cls, t) :: r')

/-! ### Metrics -/

/-- The edits of a path with an action and a confidence, with their costs. -/
def editsWith (p : List EditEdge) (a : EditAction) (c : Option Conf) : List (EditInfo × Cost) :=
  (costedEdits p).filter fun x => decide (x.1.action = a ∧ x.1.conf = c)

/-- All pairs of an action and a confidence. -/
def metricKeys : List (EditAction × Option Conf) :=
  [EditAction.keep, .delete, .insert, .protoDeco, .targetDeco, .startLow, .startEditing, .earlyExit].flatMap
    fun a => [(a, some .high), (a, some .low), (a, none)]

/-- The value of a metric, for edits with an action and a confidence. -/
def metricValue (textOf : EditInfo → Text) (xs : List (EditInfo × Cost)) : MetricKind → Cost
  | .cost => (xs.map Prod.snd).sum
  | .chars => (((xs.flatMap fun x => textOf x.1).length : ℚ) : Cost)
  | .edges => ((xs.length : ℚ) : Cost)

end RUSure.Spec
