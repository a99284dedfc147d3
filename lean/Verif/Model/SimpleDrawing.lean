import Verif.Model.Drawing
import Mathlib.Data.Rat.Floor

/-!
# Model of `r_u_sure/rendering/simple_dag_annotator.py`

The annotator for demonstrations: a subclass gives a box for each state, and edges are placed by rules. The function
`_sigmoid` (lines 36-37) is a parameter, since it needs the exponential; so are the texts of states, costs and
assignments, and the hashes of values. Coordinates are rationals instead of floats.
-/

namespace RUSure.Draw
variable {S K V I : Type}

/-- `rendering.py:217-233` `to_bounded_irrational`. -/
def toBoundedIrrational (index : Int) : ℚ :=
  let x : ℚ := index / (161803 / 100000) + 1 / 2
  x - ⌊x⌋

/-- What a subclass of `SimpleDAGAnnotator` and its states and edges provide: the boxes of
`bounds_for_state`, the scales (`simple_dag_annotator.py:52-54`), `str` and `repr`, the hashes of values, and the entry
`"color"` of the infos that are dictionaries with one. -/
structure Simple (S K V I : Type) where
  box : S → Box
  font : ℚ
  horizontalScale : ℚ
  verticalScale : ℚ
  stateText : S → Text
  stateRepr : S → Text
  costText : Cost → Text
  keyText : K → Text
  valueText : V → Text
  edgeRepr : Edge S K V I → Text
  hash : V → Int
  color : I → Option Text
  sigmoid : ℚ → ℚ

/-- `simple_dag_annotator.py:55-65` `known_colors`. -/
def knownColors : List Text :=
  ["red".toList, "darkred".toList, "limegreen".toList, "darkgreen".toList, "lightblue".toList, "blue".toList,
    "orange".toList, "magenta".toList, "cyan".toList]

/-- `simple_dag_annotator.py:40-46` `_summarize_edge`. -/
def Simple.summary (p : Simple S K V I) (e : Edge S K V I) : Text :=
  p.costText e.cost ++
    match e.req with
    | none => []
    | some (k, v) => " if ".toList ++ p.keyText k ++ " = ".toList ++ p.valueText v

/-- `simple_dag_annotator.py:109-116`: the jitter of an edge. -/
def Simple.jitter (p : Simple S K V I) (e : Edge S K V I) : ℚ :=
  match e.req with
  | none => 0
  | some (_, v) => 2 * toBoundedIrrational (p.hash v % 100) - 1

/-- `simple_dag_annotator.py:86-91`: is the destination to the right of the source? -/
def Simple.forward (p : Simple S K V I) (e : Edge S K V I) : Bool :=
  decide ((p.box e.dest).left - (p.box e.source).right ≥ 0)

/-- `simple_dag_annotator.py:91-106, 123-125`: the relative offset along the secondary axis, for a factor of the
scale. -/
def Simple.relative (p : Simple S K V I) (e : Edge S K V I) (factor : ℚ) : ℚ :=
  let b := p.box e.source
  let c := p.box e.dest
  let offset := if p.forward e then c.center.y - b.center.y else c.center.x - b.center.x
  let scale := if p.forward e then p.verticalScale else p.horizontalScale
  2 * p.sigmoid (offset / (factor * scale)) - 1

/-- `simple_dag_annotator.py:126-138`: the elbow. -/
def elbowAlign (middle jitter : ℚ) : ℚ :=
  if |middle| < 1 / 100 then 1 / 2
  else if middle > 0 then 9 / 10 - 8 / 10 * middle - 1 / 10 * jitter
  else 9 / 10 + 8 / 10 * middle + 1 / 10 * jitter

/-- `simple_dag_annotator.py:126-138`: the text. -/
def textAlign (middle jitter : ℚ) : ℚ :=
  if |middle| < 1 / 100 then 1 / 2
  else if middle > 0 then 1 - elbowAlign middle jitter
  else elbowAlign middle jitter

/-- `simple_dag_annotator.py:118-121, 148-158`: the annotation. -/
def Simple.note (p : Simple S K V I) (e : Edge S K V I) (tags : List Text) : EdgeNote where
  axis := if p.forward e then .horizontal else .vertical
  elbow := elbowAlign (p.relative e (3 / 2)) (p.jitter e)
  start := 1 / 2 + 3 / 10 * p.relative e (1 / 2) + 1 / 10 * p.jitter e
  align := textAlign (p.relative e (3 / 2)) (p.jitter e)
  stop := 1 / 2 - 3 / 10 * p.relative e (1 / 2) + 1 / 10 * p.jitter e
  text := p.summary e
  size := p.font
  hover := some (p.edgeRepr e)
  tags := tags
  elbowAdjust := 0
  alignAdjust := 0

/-- `simple_dag_annotator.py:84-158` `annotate_edge`; `none` is the `ValueError` for an unknown color. -/
def Simple.edge (p : Simple S K V I) (e : Edge S K V I) : Option EdgeNote :=
  match p.color e.info with
  | none => some (p.note e [])
  | some color => if color ∈ knownColors then some (p.note e ["color_".toList ++ color]) else none

/-- `simple_dag_annotator.py:164-174`: the styles of a color. -/
def colorStyle (color : Text) : Text :=
  ".edge-annotation.color_".toList ++ color ++ " path {\n    stroke: ".toList ++ color ++ ";\n}\n".toList
    ++ (".edge-annotation.color_".toList ++ color ++ " text {\n    fill: ".toList ++ color ++ ";\n}\n".toList)

/-- `simple_dag_annotator.py:175-176`: joined with newlines. -/
def joinNewline : List Text → Text
  | [] => []
  | [t] => t
  | t :: ts => t ++ '\n' :: joinNewline ts

/-- `simple_dag_annotator.py:49-176` `SimpleDAGAnnotator`. -/
def Simple.annotator (p : Simple S K V I) : Annotator S K V I where
  state s := some ⟨p.box s, p.stateText s, p.font, some (p.stateRepr s), []⟩
  edge := p.edge
  extras := some []
  styles := [joinNewline (knownColors.map colorStyle)]

end RUSure.Draw
