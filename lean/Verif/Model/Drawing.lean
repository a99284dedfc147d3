import Verif.Model.Regions
import Verif.Model.GatedDag

/-!
# Model of `r_u_sure/rendering`: drawings of DAGs

`rendering.py` (points and boxes), `dag_annotator.py` (`render_dag`) and `svg_renderer.py`. Coordinates
are rationals instead of floats. A renderer is modelled by the calls it gets; `SvgState` is what
`SVGRenderer` makes of them. The text of numbers is a parameter.
-/

namespace RUSure.Draw

/-! ## Points and boxes -/

/-- `rendering.py:23-27` `Point`. -/
structure Point where
  x : ℚ
  y : ℚ
  deriving DecidableEq

/-- `rendering.py:29-31` `Point.shift`. -/
def Point.shift (p : Point) (dx dy : ℚ) : Point := ⟨p.x + dx, p.y + dy⟩

/-- `rendering.py:34-40` `BoundingBox`. -/
structure Box where
  left : ℚ
  top : ℚ
  width : ℚ
  height : ℚ
  deriving DecidableEq

/-- `rendering.py:42-50` `BoundingBox.from_boundary`. -/
def Box.fromBoundary (left top right bottom : ℚ) : Box := ⟨left, top, right - left, bottom - top⟩

/-- `rendering.py:52-54` `BoundingBox.right`. -/
def Box.right (b : Box) : ℚ := b.left + b.width

/-- `rendering.py:56-58` `BoundingBox.bottom`. -/
def Box.bottom (b : Box) : ℚ := b.top + b.height

/-- `rendering.py:60-70` `horizontal_center`, `vertical_center`, `center_point`. -/
def Box.center (b : Box) : Point := ⟨b.left + 1 / 2 * b.width, b.top + 1 / 2 * b.height⟩

/-- `rendering.py:72-74` `point_within`. -/
def Box.pointWithin (b : Box) (right bottom : ℚ) : Point :=
  ⟨b.left + right * b.width, b.top + bottom * b.height⟩

/-- `rendering.py:76-82` `union`. -/
def Box.union (b c : Box) : Box :=
  .fromBoundary (min b.left c.left) (min b.top c.top) (max b.right c.right) (max b.bottom c.bottom)

/-- `rendering.py:206-214` `point_interpolator`. -/
def interpolate (a b : Point) (x y : ℚ) : Point := ⟨a.x + x * (b.x - a.x), a.y + y * (b.y - a.y)⟩

/-- `rendering.py:85-95` `PointDirection`. -/
inductive Direction where
  | up | upRight | right | downRight | down | downLeft | left | upLeft | around
  deriving DecidableEq

/-! ## Annotations -/

/-- `dag_annotator.py:33-50` `StateAnnotation`. -/
structure StateNote where
  bounds : Box
  text : Text
  size : ℚ
  hover : Option Text
  tags : List Text

/-- `dag_annotator.py:53-57` `ElbowEdgeOrientation`. -/
inductive Axis where
  | horizontal | vertical
  deriving DecidableEq

/-- `dag_annotator.py:60-94` `ElbowEdgeAnnotation`. -/
structure EdgeNote where
  axis : Axis
  elbow : ℚ
  start : ℚ
  align : ℚ
  stop : ℚ
  text : Text
  size : ℚ
  hover : Option Text
  tags : List Text
  elbowAdjust : ℚ
  alignAdjust : ℚ

/-- `dag_annotator.py:100-129` `RegionAnnotation`, `TextAnnotation`. -/
inductive Extra where
  | region (bounds : Box) (tags : List Text)
  | text (bounds : Box) (text : Text) (size : ℚ) (hover : Option Text) (tags : List Text)

/-- `dag_annotator.py:132-175` `StateDAGAnnotator`; `none` is an exception (`KeyError` in the
annotators of this package). `styles` are the style sheets of `renderer_specific_setup`. -/
structure Annotator (S K V I : Type) where
  state : S → Option StateNote
  edge : Edge S K V I → Option EdgeNote
  extras : Option (List Extra)
  styles : List Text

/-! ## `render_dag` -/

/-- Calls of a renderer (`rendering.py:98-203`, and the two methods only `SVGRenderer` has). A group
is opened and closed. Arguments that `render_dag` leaves at their defaults are left out. -/
inductive Call where
  | style (css : Text)
  | custom (svg : Text)
  | boxLabel (bounds : Box) (text : Text) (hover : Option Text) (size : ℚ) (tags : List Text)
  | container (bounds : Box) (tags : List Text)
  | openGroup (hover : Option Text) (tags : List Text)
  | line (points : List Point)
  | dot (point : Point)
  | pointLabel (point : Point) (text : Text) (size : ℚ) (direction : Direction)
  | closeGroup

/-- `dag_annotator.py:224-239`: drawing the extra annotations. -/
def extraCall : Extra → Call
  | .region b tags => .container b (tags ++ ["text-annotation".toList])
  | .text b t size hover tags => .boxLabel b t hover size (tags ++ ["text-annotation".toList])

section
variable {S K V I : Type} [DecidableEq S] [DecidableEq K] [DecidableEq V]

/-- `dag_annotator.py:242-256`: drawing a state. -/
def stateCall (a : Annotator S K V I) (reachable : S → Bool) (s : S) : Option Call :=
  match a.state s with
  | none => none
  | some n => some (.boxLabel n.bounds n.text n.hover n.size
      (n.tags ++ ["state-annotation".toList]
        ++ [if reachable s then "reachable-state".toList else "unreachable-state".toList]))

/-- `dag_annotator.py:259-271, 279-291`: edges are compared without their infos. -/
def sameEdge (e f : Edge S K V I) : Bool :=
  decide (e.source = f.source) && decide (e.dest = f.dest) && decide (e.cost = f.cost)
    && decide (e.req = f.req)

/-- `dag_annotator.py:278-296, 361-364`: the tags for emphasis; nothing is emphasised if there are no
edges to emphasise. -/
def emphasisTags (emphasized : List (Edge S K V I)) (e : Edge S K V I) : List Text :=
  match emphasized with
  | [] => []
  | _ => if emphasized.any (sameEdge e) then ["highlight".toList] else ["lowlight".toList]

/-- `dag_annotator.py:298-358`: the points of the line, the dot, the point and direction of the
label. -/
def edgePoints (n : EdgeNote) (source dest : Box) : List Point × Point × Point × Direction :=
  match n.axis with
  | .horizontal =>
    let a := source.pointWithin 1 n.start
    let b := dest.pointWithin 0 n.stop
    let p1 := (interpolate a b n.elbow 0).shift n.elbowAdjust 0
    let p2 := (interpolate a b n.elbow 1).shift n.elbowAdjust 0
    let flat := ¬ |p2.y - p1.y| > n.size
    let anchor := if flat then (interpolate a b n.elbow 0).shift n.elbowAdjust 0
      else (interpolate a b n.elbow n.align).shift n.elbowAdjust 0
    ([interpolate a b 0 0, p1, p2, interpolate a b 1 1], anchor, anchor.shift 0 n.alignAdjust,
      if flat then .around else .right)
  | .vertical =>
    let a := source.pointWithin n.start 1
    let b := dest.pointWithin n.stop 0
    let anchor := (interpolate a b n.align n.elbow).shift 0 n.elbowAdjust
    ([interpolate a b 0 0, (interpolate a b 0 n.elbow).shift 0 n.elbowAdjust,
        (interpolate a b 1 n.elbow).shift 0 n.elbowAdjust, interpolate a b 1 1],
      anchor, anchor.shift n.alignAdjust 0, .downRight)

/-- `dag_annotator.py:273-371`: drawing an edge. -/
def edgeCalls (a : Annotator S K V I) (reachable : S → Bool) (emphasized : List (Edge S K V I))
    (e : Edge S K V I) : Option (List Call) :=
  match a.edge e, a.state e.source, a.state e.dest with
  | some n, some s, some t =>
    let g := edgePoints n s.bounds t.bounds
    some [.openGroup n.hover (n.tags ++ ["edge-annotation".toList] ++ emphasisTags emphasized e
          ++ [if reachable e.source && reachable e.dest then "reachable-edge".toList
            else "unreachable-edge".toList] ++ ["hover_to_top".toList]),
      .line g.1, .dot g.2.1, .pointLabel g.2.2.1 n.text n.size g.2.2.2, .closeGroup]
  | _, _, _ => none

/-- All results, if there is no exception. -/
def collect {α β : Type} (f : α → Option β) : List α → Option (List β)
  | [] => some []
  | x :: xs =>
    match f x, collect f xs with
    | some y, some ys => some (y :: ys)
    | _, _ => none

/-- `dag_annotator.py:201-219`: the custom SVG element. -/
def hoverFilter : Text :=
  "\n        <filter id=\"hoverhighlight\">\n          <feMorphology\n              ".toList
    ++ "operator=\"dilate\" radius=\"5\"\n              in=\"SourceGraphic\" result=\"dilated\"/>\n".toList
    ++ "          <feColorMatrix\n              type=\"matrix\" values=\"0.5 0   0   0.5 0\n".toList
    ++ "                                    0   0.5 0   0.5 0\n".toList
    ++ "                                    0   0   0.5 0.5 0\n".toList
    ++ "                                    0   0   0   1   0\"\n".toList
    ++ "              in=\"dilated\" result=\"glow\"/>\n          <feGaussianBlur stdDeviation=\"3\"\n".toList
    ++ "              in=\"glow\" result=\"glowblur\"/>\n".toList
    ++ "          <feBlend in=\"SourceGraphic\" in2=\"glowblur\" mode=\"normal\" />\n".toList
    ++ "        </filter>\n        ".toList

/-- `dag_annotator.py:178-374` `render_dag` with an `SVGRenderer`; `css` is the style sheet of
`default_svg_style_css`. `emphasized_edges` is a list (empty for `None`). -/
def renderDag (css : Text) (d : Dag S K V I) (a : Annotator S K V I)
    (emphasized : List (Edge S K V I)) : Option (List Call) :=
  match a.extras, collect (stateCall a d.isReachable) d.stateList,
      collect (edgeCalls a d.isReachable emphasized) d.edges with
  | some extras, some states, some edges =>
    some (a.styles.map .style ++ [.style css, .custom hoverFilter] ++ extras.map extraCall ++ states
      ++ edges.flatten)
  | _, _, _ => none

end

/-! ## `SVGRenderer` -/

/-- Parts of a document: a tag, layout, or text that goes through `html.escape`. -/
inductive Piece where
  | tag (content : Text)
  | layout (text : Text)
  | shown (text : Text)

/-- What is written. -/
def Piece.write : Piece → Text
  | .tag t => '<' :: (t ++ ['>'])
  | .layout t => t
  | .shown t => htmlEscape t

/-- `svg_renderer.py:64-78` the state of an `SVGRenderer`. -/
structure SvgState where
  items : List (List Piece)
  styles : List Text
  bounds : Option Box
  withHover : Bool

/-- `svg_renderer.py:80-85` `_update_bounds`. -/
def SvgState.grow (s : SvgState) (b : Box) : SvgState :=
  { s with bounds := match s.bounds with
    | none => some b
    | some c => some (c.union b) }

/-- `svg_renderer.py:87-92` `_render_hover_title`. -/
def hoverTitle (withHover : Bool) : Option Text → List Piece
  | none => []
  | some t => if withHover then [.tag "title".toList, .shown t, .tag "/title".toList] else []

/-- Python's `str.split` at a newline. -/
def splitLines : Text → List Text
  | [] => [[]]
  | c :: t =>
    if c = '\n' then [] :: splitLines t
    else
      match splitLines t with
      | [] => [[c]]
      | l :: ls => (c :: l) :: ls

/-- Python's `str.join` for pieces. -/
def joinPieces (sep : Piece) : List (List Piece) → List Piece
  | [] => []
  | [l] => l
  | l :: ls => l ++ sep :: joinPieces sep ls

/-- `' '.join(style_tags)`. -/
def joinTags : List Text → Text
  | [] => []
  | [t] => t
  | t :: ts => t ++ ' ' :: joinTags ts

section
variable (num : ℚ → Text)

/-- `svg_renderer.py:107-110`: the attributes of a line of a label in a box. -/
def boxTextTag (x y size : ℚ) : Text :=
  "text font-size=".toList ++ num size ++ " x=\"".toList ++ num x ++ "\" y=\"".toList ++ num y
    ++ "\" class=\"label_in_box\"".toList

/-- `svg_renderer.py:116-119, 217-220`: a rectangle of some class. -/
def rectTag (b : Box) (tags : List Text) (cls : Text) : Text :=
  "rect x=\"".toList ++ num b.left ++ "\" y=\"".toList ++ num b.top
    ++ "\"\n              width=\"".toList ++ num b.width ++ "\" height=\"".toList ++ num b.height
    ++ "\"\n              class=\"".toList ++ joinTags tags ++ [' '] ++ cls
    ++ "\"\n              /".toList

/-- Layout of the items. -/
def layout0 : Piece := .layout "\n      ".toList
def layout1 : Piece := .layout "\n        ".toList
def layout2 : Piece := .layout "\n    ".toList

/-- `svg_renderer.py:94-123` `label_in_box`. -/
def boxLabelItem (withHover : Bool) (b : Box) (text : Text) (hover : Option Text) (size : ℚ)
    (tags : List Text) : List Piece :=
  let lines := splitLines text
  let offset := -size * ((lines.length : ℚ) - 1) / 2
  let texts := lines.zipIdx.map fun l =>
    [Piece.tag (boxTextTag num b.center.x (b.center.y + offset + size * l.2) size), .shown l.1,
      .tag "/text".toList]
  [layout0, .tag "g".toList, layout1] ++ hoverTitle withHover hover
    ++ [layout1, .tag (rectTag num b tags "label_in_box".toList), layout1]
    ++ joinPieces (.layout ['\n']) texts ++ [layout0, .tag "/g".toList, layout2]

/-- `svg_renderer.py:142-167`: vertical offsets of a label (`padding_fraction` is 0.5). -/
def verticalOffset (size : ℚ) (lines : Nat) : Direction → ℚ
  | .up | .upLeft | .upRight => ((lines : ℚ) + 1 / 2) * size + -(1 / 2) * size
  | .down | .downLeft | .downRight => 1 / 2 * size + 1 / 2 * size
  | .left | .right => size * ((lines : ℚ) - 1) / 2 + 0
  | .around => (-(((lines + 1) / 2 : ℕ) : ℚ) + 1 / 2) * size + 0

/-- `svg_renderer.py:169-189`: horizontal anchor and offset of a label. -/
def horizontalOffset (size : ℚ) : Direction → Text × ℚ
  | .left | .upLeft | .downLeft => ("text-anchor: end;".toList, -(1 / 2) * size)
  | .right | .upRight | .downRight => ("text-anchor: start;".toList, 1 / 2 * size)
  | .up | .down | .around => ("text-anchor: middle;".toList, 0)

/-- `svg_renderer.py:191-200`: the attributes of a line of a label at a point. -/
def pointTextTag (x y size : ℚ) (anchor : Text) : Text :=
  "text font-size=".toList ++ num size ++ " x=\"".toList ++ num x ++ "\" y=\"".toList ++ num y
    ++ "\" style=\"dominant-baseline: middle; ".toList ++ anchor
    ++ "\" class=\" label_at_point\"".toList

/-- `svg_renderer.py:125-207` `label_at_point`, without hover text and style tags. -/
def pointLabelItem (p : Point) (text : Text) (size : ℚ) (dir : Direction) : List Piece :=
  let lines := splitLines text
  let h := horizontalOffset size dir
  let texts := lines.zipIdx.map fun l =>
    [Piece.tag (pointTextTag num (p.x + h.2) (p.y + verticalOffset size lines.length dir + size * l.2)
      size h.1), .shown l.1, .tag "/text".toList]
  [layout0, .tag "g".toList, layout1, layout1] ++ joinPieces (.layout ['\n']) texts
    ++ [layout0, .tag "/g".toList, layout2]

/-- `svg_renderer.py:209-223` `container`. -/
def containerItem (b : Box) (tags : List Text) : List Piece :=
  [layout0, .tag "g".toList, layout1, .tag (rectTag num b tags "container".toList), layout0,
    .tag "/g".toList, layout2]

/-- `svg_renderer.py:239-242`: the path of a line. -/
def pathSpec : List Point → Text
  | [] => []
  | p :: ps => "M ".toList ++ num p.x ++ [' '] ++ num p.y
    ++ ps.flatMap fun q => " L ".toList ++ num q.x ++ [' '] ++ num q.y

/-- `svg_renderer.py:225-249` `line`, without hover text and style tags. -/
def lineItem (points : List Point) : List Piece :=
  [layout0, .tag "g".toList, layout1, layout1,
    .tag ("path d=\"".toList ++ pathSpec num points
      ++ "\" class=\" line\"\n              marker-start=\"url(#arrowstart)\"\n".toList
      ++ "              marker-end=\"url(#arrowend)\"/".toList),
    layout0, .tag "/g".toList, layout2]

/-- `svg_renderer.py:251-266` `dot`, without hover text and style tags. -/
def dotItem (p : Point) : List Piece :=
  [layout0, .tag "g".toList, layout1, layout1,
    .tag ("circle cx=\"".toList ++ num p.x ++ "\" cy=\"".toList ++ num p.y
      ++ "\" class=\" dot\"/".toList),
    layout0, .tag "/g".toList, layout2]

/-- `svg_renderer.py:232-237`: the bounds of a line; `min` of nothing raises `ValueError`. -/
def lineBounds : List Point → Option Box
  | [] => none
  | p :: ps => some (.fromBoundary (ps.foldl (fun m q => min m q.x) p.x)
      (ps.foldl (fun m q => min m q.y) p.y) (ps.foldl (fun m q => max m q.x) p.x)
      (ps.foldl (fun m q => max m q.y) p.y))

/-- The methods of `SVGRenderer`; `none` is an exception. A custom element is taken to be layout:
its tags are not looked at. -/
def SvgState.call (s : SvgState) : Call → Option SvgState
  | .style css => some { s with styles := s.styles ++ [css] }
  | .custom svg => some { s with items := s.items ++ [[.layout svg]] }
  | .boxLabel b t hover size tags => some { s.grow b with
      items := s.items ++ [boxLabelItem num s.withHover b t hover size tags] }
  | .container b tags => some { s.grow b with items := s.items ++ [containerItem num b tags] }
  | .openGroup hover tags => some { s with
      items := s.items ++ [[layout0, .tag ("g class=\"".toList ++ joinTags tags ++ ['"']), layout1]
        ++ hoverTitle s.withHover hover ++ [layout2]] }
  | .line ps =>
    match lineBounds ps with
    | none => none
    | some b => some { s.grow b with items := s.items ++ [lineItem num ps] }
  | .dot p => some { s.grow (.fromBoundary p.x p.y p.x p.y) with items := s.items ++ [dotItem num p] }
  | .pointLabel p t size dir => some { s.grow ⟨p.x, p.y, 0, 0⟩ with
      items := s.items ++ [pointLabelItem num p t size dir] }
  | .closeGroup => some { s with items := s.items ++ [[layout0, .tag "/g".toList, layout2]] }

/-- A sequence of calls. -/
def SvgState.calls : SvgState → List Call → Option SvgState
  | s, [] => some s
  | s, c :: cs =>
    match s.call num c with
    | none => none
    | some s' => s'.calls cs

/-- `svg_renderer.py:294-299`: the view box of `to_html`. -/
def SvgState.viewBox (s : SvgState) (padding : ℚ) : Box :=
  let b := s.bounds.getD ⟨0, 0, 10, 10⟩
  .fromBoundary (b.left - padding) (b.top - padding) (b.right + padding) (b.bottom + padding)

/-- `svg_renderer.py:310-321`: an arrow head, up to its shape. -/
def markerTag (name height ref : Text) : Text :=
  "marker id=\"".toList ++ name ++ "\"\n            markerWidth=\"5\" markerHeight=\"".toList ++ height
    ++ "\"\n            refX=\"".toList ++ ref
    ++ "\" refY=\"2\"\n            orient=\"auto\" markerUnits=\"strokeWidth\"\n        ".toList

/-- `svg_renderer.py:308`: the opening tag of the picture. -/
def svgTag (v : Box) : Text :=
  "svg class=\"rendered_graph\" viewBox=\"".toList ++ num v.left ++ [' '] ++ num v.top ++ [' ']
    ++ num v.width ++ [' '] ++ num v.height ++ ['"']

/-- `svg_renderer.py:292-329` `to_html`, as pieces. -/
def SvgState.document (s : SvgState) (padding : ℚ) : List Piece :=
  [layout0, .tag "style type=\"text/css\"".toList, layout1]
    ++ joinPieces (.layout ['\n']) (s.styles.map fun t => [Piece.layout t])
    ++ [layout0, .tag "/style".toList, layout0, .tag (svgTag num (s.viewBox padding)), layout0,
      .tag "defs".toList, layout1, .tag (markerTag "arrowend".toList ['4'] ['5']), layout1,
      .tag "path d=\"M0,0 L0,4 L5,2 z\" fill=\"black\" /".toList, layout1, .tag "/marker".toList, layout1,
      .tag (markerTag "arrowstart".toList ['5'] ['0']), layout1,
      .tag "circle cx=\"1.5\" cy=\"2\" r=1.5 fill=\"black\" /".toList, layout1, .tag "/marker".toList,
      layout0, .tag "/defs".toList, layout1, .tag "g".toList, layout1]
    ++ joinPieces (.layout ['\n']) s.items
    ++ [layout1, .tag "/g".toList, layout0, .tag "/svg".toList, layout2]

/-- `svg_renderer.py:292-329` `to_html`. Blanks at the beginning of lines are not the same. -/
def SvgState.toHtml (s : SvgState) (padding : ℚ) : Text := (s.document num padding).flatMap Piece.write

end

end RUSure.Draw
