import Verif.Model.Selection
import Verif.Spec.Edit

/-!
# Specification of part selection
-/

namespace RUSure.Spec
open RUSure
variable {M : Type}

/-- A tree read from left to right, without decorations: tokens, groups when they open and when they
close, and region markers, with their preorder indices (`i` is the index of the first node). -/
def items (i : Nat) : List (Node M) → List (SelItem M)
  | [] => []
  | .tok t mt :: ns => .tok i t mt :: items (i + 1) ns
  | .group cs mt :: ns =>
    .opens i mt :: (items (i + 1) cs ++ .closes i mt :: items (i + 1 + seqSize cs) ns)
  | .rstart :: ns => .start i :: items (i + 1) ns
  | .rend :: ns => .stop i :: items (i + 1) ns
  | .exit :: ns => .other i :: items (i + 1) ns
  | .deco _ :: ns => items (i + 1) ns

/-- The preorder index of an item. -/
def _root_.RUSure.SelItem.index : SelItem M → Nat
  | .tok i _ _ => i
  | .opens i _ => i
  | .closes i _ => i
  | .start i => i
  | .stop i => i
  | .other i => i

/-- The same token, or the same end of groups of the same kind. -/
inductive Same : SelItem M → SelItem M → Prop
  | tok (i j t mt) : Same (.tok i t mt) (.tok j t mt)
  | opens (i j mt) : Same (.opens i mt) (.opens j mt)
  | closes (i j mt) : Same (.closes i mt) (.closes j mt)

/-- Tokens and ends of groups. -/
inductive IsContent : SelItem M → Prop
  | tok (i t mt) : IsContent (.tok i t mt)
  | opens (i mt) : IsContent (.opens i mt)
  | closes (i mt) : IsContent (.closes i mt)

/-- Region starts and ends. -/
inductive IsMarker : SelItem M → Prop
  | start (i) : IsMarker (.start i)
  | stop (i) : IsMarker (.stop i)

/-- What a step of a selection shows: the decision it makes, what it reports, its cost. -/
structure SelStep where
  decision : Option Decision
  info : Option SelInfo
  cost : Cost

/-- Steps that make no decision and report nothing are left out. -/
def selLabel (e : SelEdge) : List SelStep :=
  if e.req = none ∧ e.info = none then [] else [⟨e.req, e.info, e.cost⟩]

/-- The steps of a path. -/
def selectionOf (p : List SelEdge) : List SelStep := p.flatMap selLabel

/-- The decision about an item that is not selected. -/
def outsideDecision : SelItem M → Option Decision
  | .tok i _ _ => some (⟨i, .inRegion⟩, .no)
  | .opens i _ => some (⟨i, .inRegion⟩, .no)
  | .closes _ _ => none
  | .start i => some (⟨i, .start⟩, .no)
  | .stop i => some (⟨i, .stop⟩, .na)
  | .other _ => none

/-- The decision about an item within a selected part. -/
def insideDecision : SelItem M → Option Decision
  | .tok i _ _ => some (⟨i, .inRegion⟩, .yes)
  | .opens i _ => some (⟨i, .inRegion⟩, .yes)
  | .closes _ _ => none
  | .start i => some (⟨i, .start⟩, .na)
  | .stop i => some (⟨i, .stop⟩, .no)
  | .other _ => none

/-- The utility of finding an item: only tokens count. -/
def foundUtility (f : SelUtility M) : SelItem M → ℚ
  | .tok _ t mt => f.matchUtility t mt
  | _ => 0

/-- The cost of selecting an item without finding it: only tokens count. -/
def lostCost (f : SelUtility M) : SelItem M → ℚ
  | .tok _ t mt => f.deleteCost t mt
  | _ => 0

/-- An item of the prototype is not selected. -/
def outsideStep (x : SelItem M) : SelStep :=
  ⟨outsideDecision x, some ⟨.skipProto, some x.index, none⟩, 0⟩

/-- A selected part starts at the region start `i`. -/
def regionBegins (i : Nat) : SelStep := ⟨some (⟨i, .start⟩, .yes), none, 0⟩

/-- A selected part ends at the region end `i`. -/
def regionEnds (i : Nat) : SelStep := ⟨some (⟨i, .stop⟩, .yes), none, 0⟩

/-- A selected item counts as not found. -/
def lostStep (f : SelUtility M) (x : SelItem M) : SelStep :=
  ⟨insideDecision x, some ⟨.unmatched, some x.index, none⟩, ((lostCost f x : ℚ) : Cost)⟩

/-- An item of the target is skipped before a match. -/
def passStep (y : SelItem M) : SelStep := ⟨none, some ⟨.skipTarget, none, some y.index⟩, 0⟩

/-- A selected item is matched with an item of the target. -/
def foundStep (f : SelUtility M) (x y : SelItem M) : SelStep :=
  ⟨insideDecision x, some ⟨.matched, some x.index, some y.index⟩, ((-foundUtility f x : ℚ) : Cost)⟩

/-- A region marker within a matched part is passed. -/
def markerStep (x : SelItem M) : SelStep :=
  ⟨insideDecision x, some ⟨.matched, some x.index, none⟩, 0⟩

/-- `Matches f body found ss`: apart from region markers, the selected items `body` of the prototype
are one by one the same as the items `found` of the target; `ss` are the steps that say so. -/
inductive Matches (f : SelUtility M) : List (SelItem M) → List (SelItem M) → List SelStep → Prop
  | nil : Matches f [] [] []
  | item {x y xs ys ss} : Same x y → Matches f xs ys ss →
      Matches f (x :: xs) (y :: ys) (foundStep f x y :: ss)
  | marker {x xs ys ss} : IsMarker x → Matches f xs ys ss →
      Matches f (x :: xs) ys (markerStep x :: ss)

/-- `Selects f xs ys ss`: `ss` are the steps of selecting parts of the prototype `xs` and looking
for them in the target `ys`, in order. -/
inductive Selects (f : SelUtility M) : List (SelItem M) → List (SelItem M) → List SelStep → Prop
  /-- the prototype is over; what is left of the target does not matter -/
  | done (ys) : Selects f [] ys []
  /-- an item is not selected -/
  | skip {x xs ys ss} : IsContent x ∨ IsMarker x → Selects f xs ys ss →
      Selects f (x :: xs) ys (outsideStep x :: ss)
  /-- a part from a region start to a region end is selected and not found in the target -/
  | lost {i body k xs ys ss} : (∀ x ∈ body, IsContent x ∨ IsMarker x) → Selects f xs ys ss →
      Selects f (.start i :: (body ++ .stop k :: xs)) ys
        (regionBegins i :: (body.map (lostStep f) ++ regionEnds k :: ss))
  /-- a part from a region start to a region end is selected, and after skipping some of the target
  the same items are found there, next to each other. There is some target left to look at. -/
  | found {i body k xs skipped found ys ms ss} : (∀ y ∈ skipped, IsContent y) →
      (∃ y ∈ (found ++ ys).head?, IsContent y) → Matches f body found ms → Selects f xs ys ss →
      Selects f (.start i :: (body ++ .stop k :: xs)) (skipped ++ (found ++ ys))
        (regionBegins i :: (skipped.map passStep ++ (ms ++ regionEnds k :: ss)))

/-- The preorder indices of a prototype token or group end and the target item it is matched with. -/
def _root_.RUSure.SelInfo.foundPair (x : SelInfo) : Option (Nat × Nat) :=
  match x.cat, x.proto, x.target with
  | .matched, some i, some j => some (i, j)
  | _, _, _ => none

/-- The decisions along a path. -/
def selDecisions (p : List SelEdge) : List Decision := p.flatMap fun e => e.req.toList

/-- What the steps of a path report. -/
def selInfos (p : List SelEdge) : List SelInfo := p.filterMap fun e => e.info

/-- The price of a report: utility for a prototype token that is found, cost for a prototype token
that is selected but lost, nothing else. -/
def selPrice (f : SelUtility M) (proto : List (Node M)) (x : SelInfo) : ℚ :=
  match x.proto.bind fun i => (tokens 0 proto).lookup i with
  | none => 0
  | some (t, mt) =>
    match x.cat with
    | .matched => -f.matchUtility t mt
    | .unmatched => f.deleteCost t mt
    | _ => 0

end RUSure.Spec
