import Verif.Model.Layouts
import Verif.Spec.DebugView
import Verif.Spec.Paths
import Verif.Spec.Regions

/-!
# What drawings show
-/

namespace RUSure.Draw

/-- A box that can be seen. -/
def Proper (b : Box) : Prop := 0 < b.width ∧ 0 < b.height

/-- Boxes next to each other, or one below the other. -/
def Apart (b c : Box) : Prop :=
  b.left + b.width ≤ c.left ∨ c.left + c.width ≤ b.left
    ∨ b.top + b.height ≤ c.top ∨ c.top + c.height ≤ b.top

/-- The second box is to the right of the first. -/
def RightOf (b c : Box) : Prop := b.left + b.width ≤ c.left

/-- The second box is below the first, in the same column. -/
def Below (b c : Box) : Prop := b.left = c.left ∧ b.width = c.width ∧ b.top + b.height ≤ c.top

/-- The first box is inside the second. -/
def Inside (b c : Box) : Prop :=
  c.left ≤ b.left ∧ b.left + b.width ≤ c.left + c.width
    ∧ c.top ≤ b.top ∧ b.top + b.height ≤ c.top + c.height

/-- States that are drawn have bounds that can be seen, those of different states are apart, and edges
lead forward. -/
structure GoodLayout {S K V I : Type} [DecidableEq S] (d : Dag S K V I) (bounds : S → Option Box)
    (forward : Box → Box → Prop) : Prop where
  all : ∀ s ∈ d.stateList, ∃ b, bounds s = some b ∧ Proper b
  apart : ∀ s ∈ d.stateList, ∀ t ∈ d.stateList, s ≠ t → ∀ b c, bounds s = some b → bounds t = some c →
    Apart b c
  edges : ∀ e ∈ d.edges, ∀ b c, bounds e.source = some b → bounds e.dest = some c → forward b c

/-- Sizes that make sense. -/
structure Config.Sensible (cfg : Config) : Prop where
  width : 0 < cfg.width
  height : 0 < cfg.height
  gapX : 0 ≤ cfg.gapX
  gapY : 0 ≤ cfg.gapY
  separation : 0 ≤ cfg.separation

/-- The nodes of a sequence that are not groups, at all depths, with their preorder indices and their
sequences and positions. -/
def leaves {M : Type} (seq : Option Nat) (pos i : Nat) :
    List (Node M) → List ((Nat × Node M) × (Option Nat × Nat))
  | [] => []
  | n :: ns =>
    (match n with
      | .group cs _ => leaves (some i) 0 (i + 1) cs
      | _ => [((i, n), (seq, pos))])
    ++ leaves seq (pos + 1) (i + nodeSize n) ns

/-- The places of states: a sequence with a position. -/
def conPlace : ConstraintState → Option (Option Nat × Nat)
  | .at _ seq pos _ => some (seq, pos)
  | .final => none

def protoPlace : EditState → Option (Option Nat × Nat)
  | .at _ _ q p _ _ => some (q, p)
  | .final => none

def targetPlace : EditState → Option (Option Nat × Nat)
  | .at _ _ _ _ t u => some (t, u)
  | .final => none

/-- The sequences that a state is about, of prototype and target. -/
def editPair : EditState → Option (Option Nat × Option Nat)
  | .at _ _ q _ t _ => some (q, t)
  | .final => none

/-- The positions of a state of a selection DAG in the traversals of prototype and target. -/
def selProtoPlace : SelState → Option Nat
  | .at _ p _ => some p
  | .final => none

def selTargetPlace : SelState → Option Nat
  | .at _ _ u => some u
  | .final => none

/-- What is to be shown for an item of a traversal: a token as a literal without its quotes, and names for groups;
for regions too, if the item is of a prototype. -/
def ItemText {M : Type} (inProto : Bool) : SelItem M → Text → Prop
  | .tok _ t _, shown => ∃ q, Debug.Literal (q :: (shown ++ [q])) t
  | .opens _ _, shown => shown = "Group Start".toList
  | .closes _ _, shown => shown = "Group End".toList
  | .start _, shown => inProto = true → shown = "Region Start".toList
  | .stop _, shown => inProto = true → shown = "Region End".toList
  | .other _, _ => True

/-! ## States and edges -/

section
variable {S K V I : Type} [DecidableEq S] [DecidableEq K] [DecidableEq V]

/-- Some path from the initial to the final state passes through the state, with finite costs. -/
def OnSolution (d : Dag S K V I) (s : S) : Prop :=
  ∃ p q, Spec.DagSolution d (p ++ q) ∧ Spec.DagWalk d d.initial s p ∧ Spec.DagWalk d s d.final q

/-- A state is drawn as a box with its text; a tag tells whether it is of use. -/
def StateDrawn (d : Dag S K V I) (a : Annotator S K V I) (s : S) (c : Call) : Prop :=
  ∃ n more, a.state s = some n ∧ c = .boxLabel n.bounds n.text n.hover n.size (n.tags ++ more)
    ∧ ("reachable-state".toList ∈ more ↔ OnSolution d s)
    ∧ ("unreachable-state".toList ∈ more ↔ ¬ OnSolution d s)

/-- Points on the sides of a box. -/
def OnRight (p : Point) (b : Box) : Prop := p.x = b.left + b.width ∧ b.top ≤ p.y ∧ p.y ≤ b.top + b.height
def OnLeft (p : Point) (b : Box) : Prop := p.x = b.left ∧ b.top ≤ p.y ∧ p.y ≤ b.top + b.height
def OnBottom (p : Point) (b : Box) : Prop := p.y = b.top + b.height ∧ b.left ≤ p.x ∧ p.x ≤ b.left + b.width
def OnTop (p : Point) (b : Box) : Prop := p.y = b.top ∧ b.left ≤ p.x ∧ p.x ≤ b.left + b.width

/-- From a side of the first box to the opposite side of the second. -/
def Connects (axis : Axis) (first last : Point) (b c : Box) : Prop :=
  match axis with
  | .horizontal => OnRight first b ∧ OnLeft last c
  | .vertical => OnBottom first b ∧ OnTop last c

/-- The same horizontal or vertical line. -/
def Straight (p q : Point) : Prop := p.x = q.x ∨ p.y = q.y

/-- A point between two points, on a straight line with them. -/
def Between (p q r : Point) : Prop :=
  (q.x = p.x ∧ q.x = r.x ∧ min p.y r.y ≤ q.y ∧ q.y ≤ max p.y r.y)
    ∨ (q.y = p.y ∧ q.y = r.y ∧ min p.x r.x ≤ q.x ∧ q.x ≤ max p.x r.x)

/-- The same edge up to what it is for. -/
def SameEdge (e f : Edge S K V I) : Prop :=
  e.source = f.source ∧ e.dest = f.dest ∧ e.cost = f.cost ∧ e.req = f.req

/-- An edge is drawn as a group: a line with two bends between the boxes of its ends, with a dot and a
text. Tags tell whether it is emphasised and whether its ends are of use. -/
def EdgeDrawn (d : Dag S K V I) (a : Annotator S K V I) (emphasized : List (Edge S K V I))
    (e : Edge S K V I) (cs : List Call) : Prop :=
  ∃ n s t p0 p1 p2 p3 dot point dir more, a.edge e = some n ∧ a.state e.source = some s
    ∧ a.state e.dest = some t
    ∧ cs = [.openGroup n.hover (n.tags ++ more), .line [p0, p1, p2, p3], .dot dot,
        .pointLabel point n.text n.size dir, .closeGroup]
    ∧ Straight p0 p1 ∧ Straight p1 p2 ∧ Straight p2 p3
    ∧ (0 ≤ s.bounds.width → 0 ≤ s.bounds.height → 0 ≤ t.bounds.width → 0 ≤ t.bounds.height →
        0 ≤ n.start → n.start ≤ 1 → 0 ≤ n.stop → n.stop ≤ 1 →
        Connects n.axis p0 p3 s.bounds t.bounds)
    ∧ (0 ≤ n.align → n.align ≤ 1 → Between p1 dot p2)
    ∧ ("highlight".toList ∈ more ↔ ∃ f ∈ emphasized, SameEdge e f)
    ∧ ("lowlight".toList ∈ more ↔ emphasized ≠ [] ∧ ∀ f ∈ emphasized, ¬ SameEdge e f)
    ∧ ("reachable-edge".toList ∈ more ↔ OnSolution d e.source ∧ OnSolution d e.dest)

/-- The bounds of the box of a state. -/
def Annotator.bounds (a : Annotator S K V I) (s : S) : Option Box := (a.state s).map StateNote.bounds

/-- Lines start and end on the sides of boxes, and dots are on the lines between the two bends. Lines
downwards are those to boxes in the same column. -/
def GoodLines (d : Dag S K V I) (a : Annotator S K V I) : Prop :=
  ∀ e ∈ d.edges, ∃ n, a.edge e = some n ∧ (0 ≤ n.start ∧ n.start ≤ 1) ∧ (0 ≤ n.stop ∧ n.stop ≤ 1)
    ∧ (0 ≤ n.align ∧ n.align ≤ 1)
    ∧ ∀ b c, a.bounds e.source = some b → a.bounds e.dest = some c →
      match n.axis with
      | .horizontal => RightOf b c
      | .vertical => Below b c

end

/-- In the inner part of a side of length `size` that begins at `start`: at least a tenth of it from both ends. -/
def Inner (start size x : ℚ) : Prop := start + 1 / 10 * size ≤ x ∧ x ≤ start + 9 / 10 * size

/-- A line with two bends from a side of the first box to the opposite side of the second. To the right, if the second
box is to the right of the first; it never turns back. Else from the bottom to the top, and the line between the
bends is at a height between the two. -/
def Route (b c : Box) (p0 p1 p2 p3 : Point) : Prop :=
  (RightOf b c → p0.x = b.left + b.width ∧ Inner b.top b.height p0.y ∧ p3.x = c.left ∧ Inner c.top c.height p3.y
    ∧ p1.y = p0.y ∧ p2.x = p1.x ∧ p2.y = p3.y ∧ p0.x ≤ p1.x ∧ p1.x ≤ p3.x)
  ∧ (¬ RightOf b c → p0.y = b.top + b.height ∧ Inner b.left b.width p0.x ∧ p3.y = c.top ∧ Inner c.left c.width p3.x
    ∧ p1.x = p0.x ∧ p2.y = p1.y ∧ p2.x = p3.x ∧ min p0.y p3.y ≤ p1.y ∧ p1.y ≤ max p0.y p3.y)

/-- Extra annotations are drawn as they are. -/
def ExtraDrawn : Extra → Call → Prop
  | .region b tags, c => ∃ more, c = .container b (tags ++ more)
  | .text b t size hover tags, c => ∃ more, c = .boxLabel b t hover size (tags ++ more)

/-- An annotation with a text, in some bounds. -/
def TextIn (t : Text) (b : Box) : Extra → Prop
  | .text b' t' _ _ _ => b' = b ∧ t' = t
  | .region _ _ => False

/-- An annotation without a text. -/
def RegionIn (b : Box) : Extra → Prop
  | .text _ _ _ _ _ => False
  | .region b' _ => b' = b

/-! ## Documents -/

/-- The corners of what a call draws; the texts of labels at points are not counted, only the points. -/
def corners : Call → List Point
  | .boxLabel b _ _ _ _ => [⟨b.left, b.top⟩, ⟨b.left + b.width, b.top + b.height⟩]
  | .container b _ => [⟨b.left, b.top⟩, ⟨b.left + b.width, b.top + b.height⟩]
  | .line ps => ps
  | .dot p => [p]
  | .pointLabel p _ _ _ => [p]
  | _ => []

/-- Sizes of boxes are not negative. -/
def SizesOk : Call → Prop
  | .boxLabel b _ _ _ _ => 0 ≤ b.width ∧ 0 ≤ b.height
  | .container b _ => 0 ≤ b.width ∧ 0 ≤ b.height
  | _ => True

/-- The box of minimal size around points. -/
def Hull (pts : List Point) (b : Box) : Prop :=
  (∀ p ∈ pts, b.left ≤ p.x ∧ p.x ≤ b.left + b.width ∧ b.top ≤ p.y ∧ p.y ≤ b.top + b.height)
    ∧ (∃ p ∈ pts, p.x = b.left) ∧ (∃ p ∈ pts, p.x = b.left + b.width)
    ∧ (∃ p ∈ pts, p.y = b.top) ∧ (∃ p ∈ pts, p.y = b.top + b.height)

/-- The name of a tag: what is before the first blank. -/
def tagName (t : Text) : Text := t.takeWhile fun c => c != ' ' && c != '\n'

/-- The elements that are open after a tag, the last one first. A tag that begins with a slash closes
the last element that is open (`none` if there is none or if it has another name), one that ends with
a slash is an element of its own. -/
def tagStep (st : List Text) (t : Text) : Option (List Text) :=
  if t.head? = some '/' then
    match st with
    | [] => none
    | n :: st' => if t.tail = n then some st' else none
  else if t.getLast? = some '/' then some st
  else some (tagName t :: st)

/-- The elements that are open after some tags. -/
def nest : List Text → List Text → Option (List Text)
  | st, [] => some st
  | st, t :: ts => (tagStep st t).bind fun st' => nest st' ts

/-- The style tags and style sheets of a call do not close tags or open new ones. -/
def Tame : Call → Prop
  | .style css => '<' ∉ css
  | .custom svg => svg = hoverFilter
  | .boxLabel _ _ _ _ tags => ∀ t ∈ tags, '>' ∉ t
  | .container _ tags => ∀ t ∈ tags, '>' ∉ t
  | .openGroup _ tags => ∀ t ∈ tags, '>' ∉ t
  | _ => True

/-- Calls in which groups are context managers. -/
inductive Balanced : List Call → Prop
  | nil : Balanced []
  | draw (c : Call) (cs : List Call) : (∀ h ts, c ≠ .openGroup h ts) → c ≠ .closeGroup → Balanced cs →
    Balanced (c :: cs)
  | group (h : Option Text) (ts : List Text) (inner cs : List Call) : Balanced inner → Balanced cs →
    Balanced (.openGroup h ts :: (inner ++ .closeGroup :: cs))

/-- The texts that a call shows. -/
def labelOf : Call → Option Text
  | .boxLabel _ t _ _ _ => some t
  | .pointLabel _ t _ _ => some t
  | _ => none

/-- The text that is shown when the mouse is over what a call draws. -/
def hoverOf : Call → Option Text
  | .boxLabel _ _ h _ _ => h
  | .openGroup h _ => h
  | _ => none

/-- A renderer on which nothing has been drawn. -/
def SvgState.Fresh (s : SvgState) : Prop := s.items = [] ∧ s.bounds = none ∧ ∀ css ∈ s.styles, '<' ∉ css

/-- The style tags of an extra annotation, and its bounds. -/
def Extra.tags : Extra → List Text
  | .region _ tags => tags
  | .text _ _ _ _ tags => tags

def Extra.bounds : Extra → Box
  | .region b _ => b
  | .text b _ _ _ _ => b

/-- The style tags and style sheets of annotations do not close tags or open new ones. -/
structure Annotator.TagsOk {S K V I : Type} (a : Annotator S K V I) : Prop where
  styles : ∀ css ∈ a.styles, '<' ∉ css
  states : ∀ s n, a.state s = some n → ∀ t ∈ n.tags, '>' ∉ t
  edges : ∀ e n, a.edge e = some n → ∀ t ∈ n.tags, '>' ∉ t
  extras : ∀ xs, a.extras = some xs → ∀ x ∈ xs, ∀ t ∈ x.tags, '>' ∉ t

/-- The sizes of the bounds of states and extra annotations are not negative. -/
structure Annotator.SizesOk {S K V I : Type} (a : Annotator S K V I) : Prop where
  states : ∀ s n, a.state s = some n → 0 ≤ n.bounds.width ∧ 0 ≤ n.bounds.height
  extras : ∀ xs, a.extras = some xs → ∀ x ∈ xs, 0 ≤ x.bounds.width ∧ 0 ≤ x.bounds.height

end RUSure.Draw
