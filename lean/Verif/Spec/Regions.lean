import Verif.Spec.Constraint

/-!
# Specification of well-formed region choices and of annotated sequences
-/

namespace RUSure.Spec
open RUSure
variable {M : Type}

/-- A node of a tree with its preorder index and its path. -/
structure Placed (M : Type) where
  idx : Nat
  path : List Nat
  node : Node M

/-- The nodes of a tree in document order (groups before their children). -/
def placed (seq : List (Node M)) : List (Placed M) :=
  (walkWithPaths seq true false []).zipIdx.map fun x => ⟨x.2, x.1.2.1, x.1.1⟩

/-- The decision there is for a node, if any. -/
def Placed.key (x : Placed M) : Option DecisionKey :=
  match x.node with
  | .deco _ => none
  | .tok _ _ => some ⟨x.idx, .inRegion⟩
  | .group _ _ => some ⟨x.idx, .inRegion⟩
  | .rstart => some ⟨x.idx, .start⟩
  | .rend => some ⟨x.idx, .stop⟩
  | .exit => some ⟨x.idx, .exit⟩

section
variable (α : DecisionKey → DecisionValue)

/-- Region markers that are used: `true` for a start, `false` for an end. -/
def Placed.mark (x : Placed M) : Option Bool :=
  match x.node with
  | .rstart => if α ⟨x.idx, .start⟩ = .yes then some true else none
  | .rend => if α ⟨x.idx, .stop⟩ = .yes then some false else none
  | _ => none

/-- The node is an early exit that is taken. -/
def Placed.exits (x : Placed M) : Bool :=
  match x.node with
  | .exit => α ⟨x.idx, .exit⟩ = .yes
  | _ => false

/-- After the nodes `l`, one is in a region: the last used marker is a start. -/
def inRegionAfter (l : List (Placed M)) : Bool := (l.reverse.findSome? (Placed.mark α)).getD false

/-- The decision for a node that is read when in a region (or not). -/
def Placed.Ok (inside : Bool) (x : Placed M) : Prop :=
  match x.node with
  | .deco _ => True
  | .tok _ _ => α ⟨x.idx, .inRegion⟩ = if inside then .yes else .no
  | .group _ _ => α ⟨x.idx, .inRegion⟩ = if inside then .yes else .no
  | .rstart => α ⟨x.idx, .start⟩ = .na ↔ inside = true
  | .rend => α ⟨x.idx, .stop⟩ = .na ↔ inside = false
  | .exit => α ⟨x.idx, .exit⟩ ≠ .na

/-- The region started at `x` ends at the first used end marker after it, which is a sibling of `x`;
or an early exit at a sibling or within one is taken before that. -/
def Placed.Closes (x : Placed M) (after : List (Placed M)) : Prop :=
  ∃ m z r, after = m ++ z :: r ∧ (∀ y ∈ m, y.mark α ≠ some false ∧ y.exits α = false)
    ∧ ((z.mark α = some false ∧ z.path.dropLast = x.path.dropLast)
      ∨ (z.exits α = true ∧ x.path.dropLast <+: z.path))

/-- The decisions describe well-formed regions of the prototype. -/
structure WellFormedRegions (proto : List (Node M)) : Prop where
  /-- before the early exit: nodes are flagged iff they are in a region; regions only start outside
  of regions and only end within regions (otherwise the marker is not applicable) -/
  nodes : ∀ l x r, placed proto = l ++ x :: r → (∀ y ∈ l, y.exits α = false) →
    x.Ok α (inRegionAfter α l)
  /-- regions end among the siblings of their start, unless the early exit is taken before -/
  regions : ∀ l x r, placed proto = l ++ x :: r → (∀ y ∈ l, y.exits α = false) →
    x.mark α = some true → x.Closes α r
  /-- after the early exit nothing is applicable -/
  exited : ∀ l x r, placed proto = l ++ x :: r → (∀ y ∈ l, y.exits α = false) →
    x.exits α = true → ∀ y ∈ r, ∀ k, y.key = some k → α k = .na

/-! ### Annotated sequences -/

/-- The text of a node itself. -/
def Placed.text (x : Placed M) : Option Text :=
  match x.node with
  | .deco t => some t
  | .tok t _ => some t
  | _ => none

/-- The nodes before the early exit. -/
def kept (proto : List (Node M)) : List (Placed M) :=
  (placed proto).takeWhile fun x => !x.exits α

/-- There is no text since the last used region marker. -/
def noTextAfter (l : List (Placed M)) : Bool :=
  (l.reverse.takeWhile fun y => (y.mark α).isNone).all fun y => y.text.isNone

/-- What is shown for the node `x` after the nodes `l`: its text, flagged iff it is in a region; and
`marker` at the end of a region without text. -/
def shown (marker : Text) (l : List (Placed M)) (x : Placed M) : List MarkedToken :=
  match x.text with
  | some t => [⟨t, inRegionAfter α l⟩]
  | none => if x.mark α = some false ∧ noTextAfter α l = true then [⟨marker, true⟩] else []

/-- What is shown for the nodes `r` after the nodes `l`. -/
def annotated (marker : Text) : List (Placed M) → List (Placed M) → List MarkedToken
  | _, [] => []
  | l, x :: r => shown α marker l x ++ annotated marker (l ++ [x]) r

/-- Some region end is used outside of any region. -/
def StrayEnd (P : List (Placed M)) : Prop :=
  ∃ l x r, P = l ++ x :: r ∧ x.mark α = some false ∧ inRegionAfter α l = false

end

/-! ### HTML -/

/-- The text without tags (`inTag` tells whether we are in one). -/
def stripTags : Bool → Text → Text
  | _, [] => []
  | false, c :: r => if c = '<' then stripTags true r else c :: stripTags false r
  | true, c :: r => if c = '>' then stripTags false r else stripTags true r

/-- The contents of the tags of a text, in order (`cur` is what has been read of the current one). -/
def tagsOf : Option Text → Text → List Text
  | _, [] => []
  | none, c :: r => if c = '<' then tagsOf (some []) r else tagsOf none r
  | some cur, c :: r => if c = '>' then cur :: tagsOf none r else tagsOf (some (cur ++ [c])) r

/-- A maximal run of tokens with the same flag; those in a region are put in one span. -/
def renderRun (run : Bool × List Text) : Text :=
  if run.1 then "<span class=\"in_region\">".toList ++ run.2.flatMap htmlEscape ++ "</span>".toList
  else run.2.flatMap htmlEscape

/-- The tags of a run. -/
def runTags (run : Bool × List Text) : List Text :=
  if run.1 then ["span class=\"in_region\"".toList, "/span".toList] else []

end RUSure.Spec
