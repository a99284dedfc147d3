import Verif.Model.DebugView
import Verif.Model.Drawing
import Verif.Model.Edit
import Verif.Model.Selection

/-!
# Where the states and edges of constraint, edit and selection DAGs are drawn

The annotators of `constraint_dags.py`, `edit_dags.py` and `part_selection_dags.py`. As in
`Model/Constraint.lean` they walk over the trees that are packed. Texts, hover texts and style tags of
states and edges are parameters (`Words`). `layout_positions` is a list of bindings, the last of which
counts; coordinates are rationals.
-/

namespace RUSure.Draw

/-- `constraint_dags.py:62-72`, `edit_dags.py:111-120`, `part_selection_dags.py:81-90`: the render
configurations. -/
structure Config where
  font : ℚ
  width : ℚ
  height : ℚ
  gapX : ℚ
  gapY : ℚ
  separation : ℚ

/-- What is written for states and edges (shortnames, `repr`, style tags). -/
structure Words (S K V I : Type) where
  state : S → Text
  stateHover : S → Text
  edge : Edge S K V I → Text
  edgeHover : Edge S K V I → Text
  edgeTags : Edge S K V I → List Text

/-- What is written for nodes. -/
structure NodeWords (M : Type) where
  node : Node M → Text
  hover : Nat → Node M → Text
  tags : Node M → List Text

/-- A node with the interval in which it is drawn. -/
structure Mark (M : Type) where
  index : Nat
  node : Node M
  lo : ℚ
  hi : ℚ

/-- Positions along an axis: of the states before (after) the nodes of sequences, of nodes other
than groups, and of the sequences of groups. `stop` is the current coordinate. -/
structure Track (M : Type) where
  slots : List ((Option Nat × Nat) × (ℚ × ℚ))
  marks : List (Mark M)
  spans : List (Option Nat × (ℚ × ℚ))
  stop : ℚ

/-- `constraint_dags.py:923-1044` and `edit_dags.py:2119-2241` (`process_prototype`),
`edit_dags.py:2245-2330` (`process_target`): the loop from position `pos`, at the coordinate `x`, until
after the states after all nodes; `i` is the preorder index of the next node. `w` is the space for the
states at a position, `g` the gap, `tail` what is added after the last states of a group. -/
def track {M : Type} (w g tail : ℚ) (seq : Option Nat) (pos i : Nat) (x : ℚ) :
    List (Node M) → Track M
  | [] => ⟨[((seq, pos), (x, x + w))], [], [], x + w⟩
  | n :: ns =>
    let inner : Track M :=
      match n with
      | .group cs _ =>
        let r := track w g tail (some i) 0 (i + 1) (x + w + g + g) cs
        ⟨r.slots, r.marks, r.spans ++ [(some i, (x + w + g, r.stop + g))], r.stop + tail + g⟩
      | _ => ⟨[], [⟨i, n, x + w, x + w + g⟩], [], x + w + g⟩
    let rest := track w g tail seq (pos + 1) (i + nodeSize n) inner.stop ns
    ⟨((seq, pos), (x, x + w)) :: inner.slots ++ rest.slots, inner.marks ++ rest.marks,
      inner.spans ++ rest.spans, rest.stop⟩

/-- A lookup in `layout_positions`: the last binding counts. -/
def find {α β : Type} [DecidableEq α] (l : List (α × β)) (k : α) : Option β := l.reverse.lookup k

/-- The texts of nodes between `top` and `bottom` (or between `left` and `right`). -/
def textNotes {M : Type} (cfg : Config) (words : NodeWords M) (place : Mark M → Box)
    (marks : List (Mark M)) : List Extra :=
  marks.map fun m => .text (place m) (words.node m.node) cfg.font (some (words.hover m.index m.node))
    (words.tags m.node)

/-! ## Constraint DAGs -/

/-- `constraint_dags.py:908-1046` `precompute_layout`. After the last states of a group there is room
for a final state as well. -/
def constraintTrack {M : Type} (cfg : Config) (proto : List (Node M)) : Track M :=
  track cfg.width cfg.gapX (cfg.gapX + cfg.width) none 0 0 (cfg.width + cfg.gapX + cfg.gapX) proto

/-- `constraint_dags.py:878-884` `STATE_OFFSET_MAPPING`. -/
def constraintOffset : ConstraintState → ℚ
  | .at .temporary _ _ _ => 0
  | .at .forced _ _ _ => 0
  | .at .outside _ _ _ => 1
  | .final => 0

/-- `constraint_dags.py:1048-1095` `annotate_state`: the bounds. -/
def constraintBox {M : Type} (cfg : Config) (proto : List (Node M)) : ConstraintState → Option Box
  | .final =>
    let left := (constraintTrack cfg proto).stop + cfg.gapX
    some (.fromBoundary left (-cfg.gapY - cfg.height) (left + cfg.width) (-cfg.gapY))
  | .at c seq pos level =>
    match find (constraintTrack cfg proto).slots (seq, pos) with
    | none => none
    | some (left, right) =>
      let top := (2 * cfg.height + cfg.separation + cfg.gapY) * (level : ℚ)
        + constraintOffset (.at c seq pos level) * (cfg.height + cfg.separation)
      some (.fromBoundary left top right (top + cfg.height))

/-- The number of a decision value in the order of its definition (`region_decisions.py:93-99`). -/
def valueIndex : DecisionValue → ℚ
  | .no => 0
  | .yes => 1
  | .na => 2

/-- `constraint_dags.py:1097-1158` `annotate_edge`. -/
def constraintNote (cfg : Config) (words : Words ConstraintState DecisionKey DecisionValue Bool)
    (e : ConstraintEdge) : EdgeNote where
  axis := .horizontal
  elbow := if e.info then 0 else
    match e.req with
    | some (_, v) => (valueIndex v + 1) / 4
    | none => 1 / 2
  start := (constraintOffset e.dest + 1) / 3
  align := if e.info then 0 else 1 / 2
  stop := (constraintOffset e.source + 1) / 3
  text := words.edge e
  size := cfg.font
  hover := some (words.edgeHover e)
  tags := words.edgeTags e
  elbowAdjust := if e.info then cfg.gapX * (1 / 5) else 0
  alignAdjust := if e.info then -(9 / 10) * cfg.separation else 0

/-- The bounds with a text. -/
def stateNote {S K V I : Type} (cfg : Config) (words : Words S K V I) (box : S → Option Box) (s : S) :
    Option StateNote :=
  match box s with
  | none => none
  | some b => some ⟨b, words.state s, cfg.font, some (words.stateHover s), []⟩

/-- `constraint_dags.py:887-1204` `ConstraintDagGraphAnnotator`. -/
def constraintAnnotator {M : Type} (cfg : Config)
    (words : Words ConstraintState DecisionKey DecisionValue Bool) (nodeWords : NodeWords M)
    (styles : List Text) (proto : List (Node M)) :
    Annotator ConstraintState DecisionKey DecisionValue Bool where
  state := stateNote cfg words (constraintBox cfg proto)
  edge := fun e => some (constraintNote cfg words e)
  extras := some (textNotes cfg nodeWords
    (fun m =>
      let shift := cfg.gapY + cfg.height + cfg.separation
      .fromBoundary m.lo (-shift - cfg.height) m.hi (-shift)) (constraintTrack cfg proto).marks)
  styles := styles

/-! ## Edit DAGs -/

/-- `edit_dags.py:2107-2241`: positions of the prototype, on the horizontal axis. -/
def protoTrack {M : Type} (cfg : Config) (proto : List (Node M)) : Track M :=
  track cfg.width cfg.gapX cfg.gapX none 0 0 (cfg.width + cfg.gapX + cfg.gapX) proto

/-- The space for the states at a position of the target: eight states with separations. -/
def editBlock (cfg : Config) : ℚ := 8 * cfg.height + 7 * cfg.separation

/-- `edit_dags.py:2242-2331`: positions of the target, on the vertical axis. -/
def targetTrack {M : Type} (cfg : Config) (target : List (Node M)) : Track M :=
  track (editBlock cfg) cfg.gapY cfg.gapY none 0 0 cfg.gapY target

/-- `edit_dags.py:2023-2078` `STATE_OFFSET_MAPPING`. -/
def editOffset : EditState → ℚ
  | .at .process .high _ _ _ _ => 0
  | .at .process .low _ _ _ _ => 1
  | .at .mayDelete .high _ _ _ _ => 2
  | .at .mayDelete .low _ _ _ _ => 3
  | .at .mayInsert .high _ _ _ _ => 4
  | .at .mayInsert .low _ _ _ _ => 5
  | .at .matching .high _ _ _ _ => 6
  | .at .matching .low _ _ _ _ => 7
  | .at .recDelete .high _ _ _ _ => 2
  | .at .recDelete .low _ _ _ _ => 3
  | .at .recInsert .high _ _ _ _ => 4
  | .at .recInsert .low _ _ _ _ => 5
  | .final => 0

/-- `edit_dags.py:2333-2391` `annotate_state`: the bounds. -/
def editBox {M : Type} (cfg : Config) (proto target : List (Node M)) : EditState → Option Box
  | .final =>
    let left := (protoTrack cfg proto).stop + cfg.gapX + cfg.gapX
    let top := (targetTrack cfg target).stop + cfg.gapY + cfg.gapY
    some (.fromBoundary left top (left + cfg.width) (top + cfg.height))
  | .at al c q p t u =>
    match find (protoTrack cfg proto).slots (q, p), find (targetTrack cfg target).slots (t, u) with
    | some (left, right), some (y, _) =>
      let top := y + editOffset (.at al c q p t u) * (cfg.height + cfg.separation)
      some (.fromBoundary left top right (top + cfg.height))
    | _, _ => none

/-- `edit_dags.py:2424-2442`: alignments between which edges have a known place. -/
def editKnown : EditState → EditState → Option ℚ
  | .at .process _ _ _ _ _, .at .matching _ _ _ _ _ => some 1
  | .at .process _ _ _ _ _, .at .mayDelete _ _ _ _ _ => some 2
  | .at .mayDelete _ _ _ _ _, .at .mayInsert _ _ _ _ _ => some 3
  | .at .mayInsert _ _ _ _ _, .at .mayInsert _ _ _ _ _ => some 4
  | .at .mayInsert _ _ _ _ _, .at .matching _ _ _ _ _ => some 5
  | _, _ => none

/-- `edit_dags.py:2443-2454`: `vertical_line_offset`. -/
def editLine (e : EditEdge) : ℚ :=
  match editKnown e.source e.dest with
  | some k =>
    k / 6 + (match e.dest with
      | .at _ .high _ _ _ _ => -(1 / 10) / 6
      | _ => 1 / 10 / 6)
  | none => 63 / 100 * ((editOffset e.dest + 1) / 9) + 37 / 100 * ((editOffset e.source + 1) / 9)

/-- `edit_dags.py:2393-2504` `annotate_edge`. -/
def editNote (cfg : Config) (words : Words EditState DecisionKey DecisionValue (Option EditInfo))
    (box : EditState → Option Box) (e : EditEdge) : Option EdgeNote :=
  match box e.source, box e.dest with
  | some s, some t =>
    let same := s.left = t.left
    let early := e.info.map EditInfo.action = some .earlyExit
    some {
      axis := if same then .vertical else .horizontal
      elbow := if early then 0 else if same then 0 else 1 - editLine e
      start := if same then editLine e else (editOffset e.dest + 1) / 9
      align := if early then 0 else 1 / 2
      stop := if same then editLine e else (editOffset e.source + 1) / 9
      text := words.edge e
      size := cfg.font
      hover := some (words.edgeHover e)
      tags := words.edgeTags e
      elbowAdjust := if early then cfg.gapX * (1 / 5) else if same then cfg.separation * (1 / 4) else 0
      alignAdjust := if early then cfg.separation else 0 }
  | _, _ => none

/-- A loop over the nodes of a sequence with their preorder indices. -/
def overNodes {M β : Type} (body : Nat → Node M → List β) (j : Nat) : List (Node M) → List β
  | [] => []
  | m :: ms => body j m ++ overNodes body (j + nodeSize m) ms

/-- `edit_dags.py:1141-1149, 1404-1508`: `subproblem_list`, the pairs of sequences that are matched,
after the pair of the sequences themselves, in the order of the loops of
`build_matching_subproblem`. -/
def subproblems {M : Type} [DecidableEq M] (i j : Nat) (target : List (Node M)) :
    List (Node M) → List (Option Nat × Option Nat)
  | [] => []
  | n :: ns =>
    (match n with
      | .group cs mt => overNodes (fun j' m =>
          match m with
          | .group cs' mt' =>
            if mt' = mt then (some i, some j') :: subproblems (i + 1) (j' + 1) cs' cs else []
          | _ => []) j target
      | _ => [])
    ++ subproblems (i + nodeSize n) j target ns

/-- `edit_dags.py:2506-2530` the boxes around subproblems. -/
def regionNotes {M : Type} (x y : Track M) (rootX rootY : ℚ × ℚ)
    (subs : List (Option Nat × Option Nat)) : Option (List Extra) :=
  collect (fun s =>
    match find (x.spans ++ [(none, rootX)]) s.1, find (y.spans ++ [(none, rootY)]) s.2 with
    | some (left, right), some (top, bottom) => some (.region (.fromBoundary left top right bottom) [])
    | _, _ => none) subs

/-- `edit_dags.py:2081-2532` `EditDagGraphAnnotator`. -/
def editAnnotator {M : Type} [DecidableEq M] (cfg : Config)
    (words : Words EditState DecisionKey DecisionValue (Option EditInfo)) (nodeWords : NodeWords M)
    (styles : List Text) (proto target : List (Node M)) :
    Annotator EditState DecisionKey DecisionValue (Option EditInfo) where
  state := stateNote cfg words (editBox cfg proto target)
  edge := editNote cfg words (editBox cfg proto target)
  extras :=
    match regionNotes (protoTrack cfg proto) (targetTrack cfg target)
        (cfg.width + cfg.gapX, (protoTrack cfg proto).stop + cfg.gapX)
        (0, (targetTrack cfg target).stop + cfg.gapY)
        ((none, none) :: subproblems 0 0 target proto) with
    | none => none
    | some regions => some (regions
      ++ textNotes cfg nodeWords (fun m => .fromBoundary m.lo (-cfg.gapY - cfg.height) m.hi (-cfg.gapY))
        (protoTrack cfg proto).marks
      ++ textNotes cfg nodeWords (fun m => .fromBoundary (-cfg.width) m.lo 0 m.hi)
        (targetTrack cfg target).marks)
  styles := styles

/-! ## Selection DAGs -/

/-- `part_selection_dags.py:1070-1082, 1160-1180, 1185-1200`: positions along an axis, one after each
item and one at the end. -/
def row {α : Type} (w g : ℚ) (pos : Nat) (x : ℚ) : List α → List (Nat × (ℚ × ℚ)) × ℚ
  | [] => ([(pos, (x, x + w))], x + w)
  | _ :: l =>
    let r := row w g (pos + 1) (x + w + g) l
    ((pos, (x, x + w)) :: r.1, r.2)

/-- The space for the states at a position of the target: four states with separations. -/
def selBlock (cfg : Config) : ℚ := 4 * cfg.height + 3 * cfg.separation

/-- `part_selection_dags.py:1009-1016` `STATE_OFFSET_MAPPING`. -/
def selOffset : SelState → ℚ
  | .at .skipProto _ _ => 0
  | .at .skipTarget _ _ => 1
  | .at .matched _ _ => 2
  | .at .unmatched _ _ => 3
  | .final => 0

/-- `part_selection_dags.py:1266-1310` `annotate_state`: the bounds; `n` and `m` are the traversals
of prototype and target. -/
def selBox {α : Type} (cfg : Config) (proto target : List α) : SelState → Option Box
  | .final =>
    let left := (row cfg.width cfg.gapX 0 0 proto).2 + cfg.gapX
    match find (row (selBlock cfg) cfg.gapY 0 (cfg.height + cfg.gapY) target).1 0 with
    | some (y, _) => some (.fromBoundary left y (left + cfg.width) (y + cfg.height))
    | none => none
  | .at c p u =>
    match find (row cfg.width cfg.gapX 0 0 proto).1 p,
        find (row (selBlock cfg) cfg.gapY 0 (cfg.height + cfg.gapY) target).1 u with
    | some (left, right), some (y, _) =>
      let top := y + selOffset (.at c p u) * (cfg.height + cfg.separation)
      some (.fromBoundary left top right (top + cfg.height))
    | _, _ => none

/-- `part_selection_dags.py:1337-1357`: `vertical_line_offset`. -/
def selLine (e : SelEdge) : ℚ :=
  match e.source, e.dest with
  | .at .skipTarget _ _, .at .skipTarget _ _ => 1 / 3
  | .at .skipTarget _ _, .at .matched _ _ => 2 / 3
  | s, t => 63 / 100 * ((selOffset t + 1) / 5) + 37 / 100 * ((selOffset s + 1) / 5)

/-- `part_selection_dags.py:1312-1399` `annotate_edge`. -/
def selNote (cfg : Config) (words : Words SelState DecisionKey DecisionValue (Option SelInfo))
    (box : SelState → Option Box) (e : SelEdge) : Option EdgeNote :=
  match box e.source, box e.dest with
  | some s, some t =>
    let same := s.left = t.left
    some {
      axis := if same then .vertical else .horizontal
      elbow := if same then 0 else 1 - selLine e
      start := if same then selLine e else (selOffset e.dest + 1) / 5
      align := 1 / 2
      stop := if same then selLine e else (selOffset e.source + 1) / 5
      text := words.edge e
      size := cfg.font
      hover := some (words.edgeHover e)
      tags := words.edgeTags e
      elbowAdjust := if same then cfg.separation * (1 / 4) else 0
      alignAdjust := 0 }
  | _, _ => none

/-- What else is written for the items of a traversal: the `repr` of an item, hover texts and style tags. -/
structure ItemWords (M : Type) where
  printable : Char → Bool
  repr : SelItem M → Text
  hover : SelItem M → Text
  tags : SelItem M → List Text

/-- `part_selection_dags.py:1088-1157`: the texts of the items of the prototype. -/
def protoItemText {M : Type} (words : ItemWords M) : SelItem M → Text
  | .tok _ t _ => ((Debug.pyRepr words.printable t).drop 1).dropLast
  | .start _ => "Region Start".toList
  | .stop _ => "Region End".toList
  | .opens _ _ => "Group Start".toList
  | .closes _ _ => "Group End".toList
  | .other i => words.repr (.other i)

/-- `part_selection_dags.py:1209-1257`: the texts of the items of the target. -/
def targetItemText {M : Type} (words : ItemWords M) : SelItem M → Text
  | .tok _ t _ => ((Debug.pyRepr words.printable t).drop 1).dropLast
  | .opens _ _ => "Group Start".toList
  | .closes _ _ => "Group End".toList
  | x => words.repr x

/-- `part_selection_dags.py:1077-1087, 1200-1208`: the gaps after the states at each item. -/
def rowMarks {α : Type} (w g x : ℚ) : List α → List (α × (ℚ × ℚ))
  | [] => []
  | a :: l => (a, (x + w, x + w + g)) :: rowMarks w g (x + w + g) l

/-- `part_selection_dags.py:1019-1403` `PartSelectionGraphAnnotator`. -/
def selAnnotator {M : Type} (cfg : Config)
    (words : Words SelState DecisionKey DecisionValue (Option SelInfo)) (itemWords : ItemWords M)
    (styles : List Text) (proto target : List (SelItem M)) :
    Annotator SelState DecisionKey DecisionValue (Option SelInfo) where
  state := stateNote cfg words (selBox cfg proto target)
  edge := selNote cfg words (selBox cfg proto target)
  extras := some (((rowMarks cfg.width cfg.gapX 0 proto).map fun m =>
        .text ⟨m.2.1, 0, m.2.2 - m.2.1, cfg.height⟩ (protoItemText itemWords m.1) cfg.font
          (some (itemWords.hover m.1)) (itemWords.tags m.1))
    ++ (rowMarks (selBlock cfg) cfg.gapY (cfg.height + cfg.gapY) target).map fun m =>
        .text ⟨-(cfg.width + cfg.gapX), m.2.1, cfg.width, m.2.2 - m.2.1⟩ (targetItemText itemWords m.1) cfg.font
          (some (itemWords.hover m.1)) (itemWords.tags m.1))
  styles := styles

end RUSure.Draw
