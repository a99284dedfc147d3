import Verif.Model.Constraint
import Verif.Model.Pack

/-!
# Model of `r_u_sure/edit_distance_utility/part_selection_dags.py`
-/

namespace RUSure

/-- One item of an in-order traversal together with the node it visits, as the construction loop
reads it: `i` is the preorder index of the node. A group is visited twice. `other` stands for the
node categories the loop has no branch for (early exits; the traversal strips decorations). -/
inductive SelItem (M : Type) where
  | tok (i : Nat) (t : Text) (mt : M)
  | opens (i : Nat) (mt : M)
  | closes (i : Nat) (mt : M)
  | start (i : Nat)
  | stop (i : Nat)
  | other (i : Nat)
  deriving DecidableEq, Repr

/-- `part_selection_dags.py:128-150` `DagStateCategory` without the final state. -/
inductive SelCat where
  | skipProto
  | skipTarget
  | matched
  | unmatched
  deriving DecidableEq, Repr

/-- `part_selection_dags.py:171-196` `PartSelectionDagState`: a category with the positions in the
two traversals, or `FINAL_STATE`. -/
inductive SelState where
  | at (c : SelCat) (p u : Nat)
  | final
  deriving DecidableEq, Repr

/-- `part_selection_dags.py:203-219` `PartSelectionDagEdgeInfo` (`none` is index -1). -/
structure SelInfo where
  cat : SelCat
  proto : Option Nat
  target : Option Nat
  deriving DecidableEq, Repr

/-- `part_selection_dags.py:97-120`: the two results of `token_node_utility_fn`, an arbitrary
function of a token node. -/
structure SelUtility (M : Type) where
  matchUtility : Text → M → ℚ
  deleteCost : Text → M → ℚ

/-- The edges of selection DAGs. -/
abbrev SelEdge := Edge SelState DecisionKey DecisionValue (Option SelInfo)

/-- `part_selection_dags.py:187-191` `INITIAL_STATE`. -/
def selInitial : SelState := .at .skipProto 0 0

/-- What an iteration of the loop looks up about a traversal item: lines 356-408, 551-556, 604-607
and 739-741. The code makes these lookups where it needs them; here they are made once per item.
`none` is an exception (an index outside of the storage, or a group visited as a leaf). -/
def selItem {M : Type} (S : Storage M) (it : TravItem) : Option (SelItem M) :=
  match it.id.cat, it.cat with
  | .tok, .leaf => (pyGet S.toks it.id.idx).map fun x => .tok it.id.preorder.toNat x.1 x.2
  | .group, .beforeGroup => (pyGet S.groups it.id.idx).map fun g => .opens it.id.preorder.toNat g.mt
  | .group, .afterGroup => (pyGet S.groups it.id.idx).map fun g => .closes it.id.preorder.toNat g.mt
  | .rstart, .leaf => some (.start it.id.preorder.toNat)
  | .rend, .leaf => some (.stop it.id.preorder.toNat)
  | .exit, .leaf => some (.other it.id.preorder.toNat)
  | .deco, .leaf => some (.other it.id.preorder.toNat)
  | _, _ => none

/-- `part_selection_dags.py:315-320`: the traversals the loop runs over. -/
def selItems {M : Type} (S : Storage M) : Option (List (SelItem M)) :=
  match S.inOrderTraversal true with
  | none => none
  | some its => mapOpt (selItem S) its

section
variable {M : Type}

/-- `part_selection_dags.py:356-433`: the edge that skips a prototype node that is not selected. -/
def selSkip (p u : Nat) : SelItem M → List SelEdge
  | .tok i _ _ => [⟨.at .skipProto p u, .at .skipProto (p + 1) u, 0, some (⟨i, .inRegion⟩, .no),
      some ⟨.skipProto, some i, none⟩⟩]
  | .opens i _ => [⟨.at .skipProto p u, .at .skipProto (p + 1) u, 0, some (⟨i, .inRegion⟩, .no),
      some ⟨.skipProto, some i, none⟩⟩]
  | .closes i _ => [⟨.at .skipProto p u, .at .skipProto (p + 1) u, 0, none,
      some ⟨.skipProto, some i, none⟩⟩]
  | .stop i => [⟨.at .skipProto p u, .at .skipProto (p + 1) u, 0, some (⟨i, .stop⟩, .na),
      some ⟨.skipProto, some i, none⟩⟩]
  | .start i => [⟨.at .skipProto p u, .at .skipProto (p + 1) u, 0, some (⟨i, .start⟩, .no),
      some ⟨.skipProto, some i, none⟩⟩]
  | .other _ => []

/-- `part_selection_dags.py:441-487`: a selected region starts, to be matched or not. -/
def selStart (p u : Nat) : SelItem M → List SelEdge
  | .start i =>
    [⟨.at .skipProto p u, .at .skipTarget (p + 1) u, 0, some (⟨i, .start⟩, .yes), none⟩,
      ⟨.at .skipProto p u, .at .unmatched (p + 1) u, 0, some (⟨i, .start⟩, .yes), none⟩]
  | _ => []

/-- The preorder index of a token or group marker (the target nodes of lines 494-497). -/
def SelItem.content? : SelItem M → Option Nat
  | .tok i _ _ => some i
  | .opens i _ => some i
  | .closes i _ => some i
  | _ => none

/-- `part_selection_dags.py:494-538`: a target node is skipped, or matching starts there. The item
is `none` at the extra position past the end of the target (lines 323-328). -/
def selTarget (p u : Nat) (y : Option (SelItem M)) : List SelEdge :=
  match y.bind SelItem.content? with
  | some j =>
    [⟨.at .skipTarget p u, .at .skipTarget p (u + 1), 0, none, some ⟨.skipTarget, none, some j⟩⟩,
      ⟨.at .skipTarget p u, .at .matched p u, 0, none, none⟩]
  | none => []

/-- `part_selection_dags.py:545-677`: nodes are matched; a region start within the selected part is
passed. -/
def selMatch [DecidableEq M] (f : SelUtility M) (p u : Nat) :
    SelItem M → Option (SelItem M) → List SelEdge
  | .tok i t mt, some (.tok j t' mt') =>
    if t = t' ∧ mt = mt' then
      [⟨.at .matched p u, .at .matched (p + 1) (u + 1), ((-f.matchUtility t mt : ℚ) : Cost),
        some (⟨i, .inRegion⟩, .yes), some ⟨.matched, some i, some j⟩⟩]
    else []
  | .opens i mt, some (.opens j mt') =>
    if mt = mt' then
      [⟨.at .matched p u, .at .matched (p + 1) (u + 1), 0, some (⟨i, .inRegion⟩, .yes),
        some ⟨.matched, some i, some j⟩⟩]
    else []
  | .closes i mt, some (.closes j mt') =>
    if mt = mt' then
      [⟨.at .matched p u, .at .matched (p + 1) (u + 1), 0, none, some ⟨.matched, some i, some j⟩⟩]
    else []
  | .start i, _ =>
    [⟨.at .matched p u, .at .matched (p + 1) u, 0, some (⟨i, .start⟩, .na),
      some ⟨.matched, some i, none⟩⟩]
  | _, _ => []

/-- `part_selection_dags.py:684-729`: at a region end, a matched part ends or goes on. -/
def selEndMatch (p u : Nat) : SelItem M → List SelEdge
  | .stop i =>
    [⟨.at .matched p u, .at .skipProto (p + 1) u, 0, some (⟨i, .stop⟩, .yes), none⟩,
      ⟨.at .matched p u, .at .matched (p + 1) u, 0, some (⟨i, .stop⟩, .no),
        some ⟨.matched, some i, none⟩⟩]
  | _ => []

/-- `part_selection_dags.py:735-797`: the local variable `can_advance_unmatched` after these lines;
`none` means that it is not bound. The branch of region ends (lines 782-793) assigns
`can_skip_prototype` instead, so the variable keeps the value of the previous iteration. -/
def advanceFlag (flag : Option Bool) : SelItem M → Option Bool
  | .tok .. => some true
  | .opens .. => some true
  | .closes .. => some true
  | .start _ => some true
  | .stop _ => flag
  | .other _ => some false

/-- `part_selection_dags.py:735-818`: the edge past a selected node that is not matched, given that
`can_advance_unmatched` is true. -/
def selPass (f : SelUtility M) (p u : Nat) : SelItem M → SelEdge
  | .tok i t mt => ⟨.at .unmatched p u, .at .unmatched (p + 1) u, ((f.deleteCost t mt : ℚ) : Cost),
      some (⟨i, .inRegion⟩, .yes), some ⟨.unmatched, some i, none⟩⟩
  | .opens i _ => ⟨.at .unmatched p u, .at .unmatched (p + 1) u, 0, some (⟨i, .inRegion⟩, .yes),
      some ⟨.unmatched, some i, none⟩⟩
  | .closes i _ => ⟨.at .unmatched p u, .at .unmatched (p + 1) u, 0, none,
      some ⟨.unmatched, some i, none⟩⟩
  | .start i => ⟨.at .unmatched p u, .at .unmatched (p + 1) u, 0, some (⟨i, .start⟩, .na),
      some ⟨.unmatched, some i, none⟩⟩
  | .stop i => ⟨.at .unmatched p u, .at .unmatched (p + 1) u, 0, some (⟨i, .stop⟩, .no),
      some ⟨.unmatched, some i, none⟩⟩
  | .other i => ⟨.at .unmatched p u, .at .unmatched (p + 1) u, 0, none,
      some ⟨.unmatched, some i, none⟩⟩

/-- `part_selection_dags.py:825-850`: an unmatched part ends. -/
def selEndPass (p u : Nat) : SelItem M → List SelEdge
  | .stop i => [⟨.at .unmatched p u, .at .skipProto (p + 1) u, 0, some (⟨i, .stop⟩, .yes), none⟩]
  | _ => []

/-- `part_selection_dags.py:333-850`: the edges added by one iteration of the two loops, with the
value of `can_advance_unmatched`. -/
def selCell [DecidableEq M] (f : SelUtility M) (p u : Nat) (x : SelItem M)
    (y : Option (SelItem M)) (advance : Bool) : List SelEdge :=
  selSkip p u x ++ selStart p u x ++ selTarget p u y ++ selMatch f p u x y
    ++ selEndMatch p u x ++ (if advance then [selPass f p u x] else [])
    ++ selEndPass p u x

/-- The exceptions of the construction: a failed lookup or traversal, reading an unbound local
variable (line 799), or an edge out of order. -/
inductive SelError where
  | lookup
  | unbound
  | order (x : AddError)
  deriving DecidableEq, Repr

/-- `part_selection_dags.py:332-850`: the inner loop, over the (extended) target. Returns the edges
and the value of `can_advance_unmatched` afterwards. -/
def selRow [DecidableEq M] (f : SelUtility M) (p : Nat) (x : SelItem M) :
    Nat → List (Option (SelItem M)) → Option Bool → Except SelError (List SelEdge × Option Bool)
  | _, [], flag => .ok ([], flag)
  | u, y :: ys, flag =>
    match advanceFlag flag x with
    | none => .error .unbound
    | some b =>
      match selRow f p x (u + 1) ys (some b) with
      | .error e => .error e
      | .ok (es, flag') => .ok (selCell f p u x y b ++ es, flag')

/-- `part_selection_dags.py:330-850`: the outer loop, over the prototype. -/
def selRows [DecidableEq M] (f : SelUtility M) (ys : List (Option (SelItem M))) :
    Nat → List (SelItem M) → Option Bool → Except SelError (List SelEdge)
  | _, [], _ => .ok []
  | p, x :: xs, flag =>
    match selRow f p x 0 ys flag with
    | .error e => .error e
    | .ok (es, flag') =>
      match selRows f ys (p + 1) xs flag' with
      | .error e => .error e
      | .ok es' => .ok (es ++ es')

/-- `part_selection_dags.py:857-870`: the edges to the final state. -/
def selFinals (p n : Nat) : List SelEdge :=
  (List.range n).map fun u => ⟨.at .skipProto p u, .final, 0, none, none⟩

/-- `part_selection_dags.py:309-870` `_construct_jitted` run as pure Python: the edges in the order
they are added. -/
def selEdges [DecidableEq M] (f : SelUtility M) (xs ys : List (SelItem M)) :
    Except SelError (List SelEdge) :=
  match selRows f (ys.map some ++ [none]) 0 xs none with
  | .error e => .error e
  | .ok es => .ok (es ++ selFinals xs.length (ys.length + 1))

/-- `part_selection_dags.py:269-306` `construct_selection_dag`. The edges are computed first and
then added (adding does not depend on, nor influence, the loop variables). -/
def constructSelectionDag [DecidableEq M] (f : SelUtility M) (proto target : Storage M) :
    Except SelError (Dag SelState DecisionKey DecisionValue (Option SelInfo)) :=
  match selItems proto, selItems target with
  | some xs, some ys =>
    match selEdges f xs ys with
    | .error e => .error e
    | .ok es =>
      match PartialDag.addAll es (PartialDag.start selInitial) with
      | .error e => .error (.order e)
      | .ok d => .ok (d.finish .final)
  | _, _ => .error .lookup

end

end RUSure
