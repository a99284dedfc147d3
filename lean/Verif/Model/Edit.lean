import Verif.Model.Constraint
import Verif.Model.Params

/-!
# Model of `r_u_sure/edit_distance_utility/edit_dags.py`: building the edit DAG

Simplification, as in `Model/Constraint.lean`: the builders walk over the trees that are packed, not
over ids of the packed storages; the preorder index of a node is the number of nodes before it
(`C01`/`C02`). In particular the parent and the position of a node, which the code looks up in
`parents_and_offsets_from_preorder`, are passed along. `Model/StoredBuilders.lean` models the builder
over storages, and `C71` proves that it builds the same DAG. The list of subproblems, which is only used for
drawings, is in `Model/Layouts.lean`.
-/

namespace RUSure

/-- `edit_dags.py:211-233` `EditDagStateAlignment` without the final state. -/
inductive EditAlign where
  | process
  | mayDelete
  | mayInsert
  | matching
  | recDelete
  | recInsert
  deriving DecidableEq, Repr

/-- `edit_dags.py:277-296` `EditDagStateConfidence`; `NOT_APPLICABLE` is modelled as `none` of
`Option Conf` where it can occur. -/
inductive Conf where
  | high
  | low
  deriving DecidableEq, Repr

/-- `edit_dags.py:311-331` `EditDagState` and `FINAL_STATE` (`edit_dags.py:334-345`). The sequence
index `none` is the root sequence (`-1`). -/
inductive EditState where
  | at (al : EditAlign) (conf : Conf) (pseq : Option Nat) (ppos : Nat) (tseq : Option Nat)
    (tpos : Nat)
  | final
  deriving DecidableEq, Repr

/-- `edit_dags.py:348-360` `EditAction`. -/
inductive EditAction where
  | keep
  | delete
  | insert
  | protoDeco
  | targetDeco
  | startLow
  | startEditing
  | earlyExit
  deriving DecidableEq, Repr

/-- `edit_dags.py:363-392` `EditDagEdgeInfo`; `none` is `NO_PREORDER_INDEX`, `NOT_APPLICABLE`. -/
structure EditInfo where
  proto : Option Nat
  target : Option Nat
  action : EditAction
  conf : Option Conf
  deriving DecidableEq, Repr

/-- Edges of the edit DAG. -/
abbrev EditEdge := Edge EditState DecisionKey DecisionValue (Option EditInfo)

/-- `edit_dags.py:447-454` `node_in_low_confidence_value`. -/
def lowValue : Conf → DecisionValue
  | .high => .no
  | .low => .yes

/-- The loops `for confidence in (HIGH_CONFIDENCE, LOW_CONFIDENCE)`. -/
def bothConf (f : Conf → List EditEdge) : List EditEdge := f .high ++ f .low

/-- An edge without cost, assignment and info. -/
def silentEdge (s t : EditState) : EditEdge := ⟨s, t, 0, none, none⟩

mutual
/-- `edit_dags.py:542-727` `maybe_insert_node_or_skip_decoration_in_target`: `m` is the target node
at position `u` of the sequence `t` with preorder index `j`; the prototype position `q`, `p` is
fixed. -/
def insertNode {M : Type} (prm : Params) (al : EditAlign) (allow : Bool) (q : Option Nat) (p : Nat)
    (t : Option Nat) (u j : Nat) : Node M → List EditEdge
  | .deco _ =>
    bothConf fun c => [⟨.at al c q p t u, .at al c q p t (u + 1), 0, none,
      some ⟨none, some j, .targetDeco, some c⟩⟩]
  | .tok txt _ =>
    if allow then
      bothConf fun c => [⟨.at al c q p t u, .at al c q p t (u + 1),
        ((prm.forToken txt.length).insertCost : ℚ), none, some ⟨none, some j, .insert, none⟩⟩]
    else []
  | .group cs _ =>
    if allow then
      (bothConf fun c => [silentEdge (.at al c q p t u) (.at .recInsert c q p (some j) 0)])
      ++ insertSeq prm q p (some j) 0 (j + 1) cs
      ++ (bothConf fun c =>
        [silentEdge (.at .recInsert c q p (some j) cs.length) (.at al c q p t (u + 1))])
    else []
  | .rstart => []
  | .rend => []
  | .exit => []
/-- `edit_dags.py:1590-1663` `build_recursive_insert_subsequence`, from position `u`. -/
def insertSeq {M : Type} (prm : Params) (q : Option Nat) (p : Nat) (t : Option Nat) (u j : Nat) :
    List (Node M) → List EditEdge
  | [] => []
  | m :: ms =>
    insertNode prm .recInsert true q p t u j m
      ++ insertSeq prm q p t (u + 1) (j + nodeSize m) ms
end

mutual
/-- `edit_dags.py:730-1073` `maybe_delete_node_or_advance_in_prototype`: `n` is the prototype node at
position `p` of the sequence `q` with preorder index `i`; the target position `t`, `u` is fixed. -/
def deleteNode {M : Type} (prm : Params) (al : EditAlign) (allow : Bool) (q : Option Nat) (p i : Nat)
    (t : Option Nat) (u : Nat) : Node M → List EditEdge
  | .deco _ =>
    bothConf fun c => [⟨.at al c q p t u, .at al c q (p + 1) t u, 0, none,
      some ⟨some i, none, .protoDeco, some c⟩⟩]
  | .tok txt _ =>
    if allow then
      bothConf fun c => [⟨.at al c q p t u, .at al c q (p + 1) t u,
        (match c with
          | .high => ((prm.forToken txt.length).highDelete : ℚ)
          | .low => ((prm.forToken txt.length).lowDelete : ℚ)),
        some (⟨i, .inRegion⟩, lowValue c), some ⟨some i, none, .delete, some c⟩⟩]
    else []
  | .group cs _ =>
    if allow then
      (bothConf fun c => [⟨.at al c q p t u, .at .recDelete c (some i) 0 t u, 0,
        some (⟨i, .inRegion⟩, lowValue c), none⟩])
      ++ deleteSeq prm (some i) 0 (i + 1) t u cs
      ++ (bothConf fun c =>
        [silentEdge (.at .recDelete c (some i) cs.length t u) (.at al c q (p + 1) t u)])
    else []
  | .rstart =>
    [⟨.at al .high q p t u, .at al .high q (p + 1) t u, 0, some (⟨i, .start⟩, .no), none⟩,
      ⟨.at al .high q p t u, .at al .low q (p + 1) t u, (prm.regionCost : ℚ),
        some (⟨i, .start⟩, .yes), some ⟨some i, none, .startLow, none⟩⟩,
      ⟨.at al .low q p t u, .at al .low q (p + 1) t u, 0, some (⟨i, .start⟩, .na), none⟩]
  | .rend =>
    [⟨.at al .low q p t u, .at al .low q (p + 1) t u, 0, some (⟨i, .stop⟩, .no), none⟩,
      ⟨.at al .low q p t u, .at al .high q (p + 1) t u, 0, some (⟨i, .stop⟩, .yes), none⟩,
      ⟨.at al .high q p t u, .at al .high q (p + 1) t u, 0, some (⟨i, .stop⟩, .na), none⟩]
  | .exit =>
    bothConf fun c =>
      [⟨.at al c q p t u, .final, 0, some (⟨i, .exit⟩, .yes),
          some ⟨some i, none, .earlyExit, some c⟩⟩,
        ⟨.at al c q p t u, .at al c q (p + 1) t u, 0, some (⟨i, .exit⟩, .no), none⟩]
/-- `edit_dags.py:1516-1587` `build_recursive_delete_subsequence`, from position `p`. -/
def deleteSeq {M : Type} (prm : Params) (q : Option Nat) (p i : Nat) (t : Option Nat) (u : Nat) :
    List (Node M) → List EditEdge
  | [] => []
  | n :: ns =>
    deleteNode prm .recDelete true q p i t u n
      ++ deleteSeq prm q (p + 1) (i + nodeSize n) t u ns
end

/-- `maybe_delete_...` does nothing for `INVALID_NODE_ID` (`edit_dags.py:770-771`). -/
def deleteNode? {M : Type} (prm : Params) (al : EditAlign) (allow : Bool) (q : Option Nat) (p i : Nat)
    (t : Option Nat) (u : Nat) : Option (Node M) → List EditEdge
  | none => []
  | some n => deleteNode prm al allow q p i t u n

/-- `maybe_insert_...` does nothing for `INVALID_NODE_ID` (`edit_dags.py:573-574`). -/
def insertNode? {M : Type} (prm : Params) (al : EditAlign) (allow : Bool) (q : Option Nat) (p : Nat)
    (t : Option Nat) (u j : Nat) : Option (Node M) → List EditEdge
  | none => []
  | some m => insertNode prm al allow q p t u j m

/-- `edit_dags.py:1344-1402`: keeping a token. -/
def keepTokenEdges {M : Type} [DecidableEq M] (prm : Params) (q : Option Nat) (p i : Nat)
    (t : Option Nat) (u j : Nat) : Option (Node M) → Option (Node M) → List EditEdge
  | some (.tok txt mt), some (.tok txt' mt') =>
    if txt' = txt ∧ mt' = mt then
      bothConf fun c => [⟨.at .matching c q p t u, .at .process c q (p + 1) t (u + 1),
        (match c with
          | .high => (-(prm.forToken txt.length).highMatch : ℚ)
          | .low => (-(prm.forToken txt.length).lowMatch : ℚ)),
        some (⟨i, .inRegion⟩, lowValue c), some ⟨some i, some j, .keep, some c⟩⟩]
    else []
  | _, _ => []

/-- `edit_dags.py:1404-1508`: matching groups, where `inner` are the edges of the subproblem. -/
def matchGroupEdges {M : Type} [DecidableEq M] (q : Option Nat) (p i : Nat) (t : Option Nat) (u j : Nat)
    (inner : List EditEdge) : Option (Node M) → Option (Node M) → List EditEdge
  | some (.group cs mt), some (.group cs' mt') =>
    if mt' = mt then
      (bothConf fun c => [⟨.at .matching c q p t u, .at .process c (some i) 0 (some j) 0, 0,
        some (⟨i, .inRegion⟩, lowValue c), none⟩])
      ++ inner
      ++ (bothConf fun c => [silentEdge (.at .matching c (some i) cs.length (some j) cs'.length)
        (.at .process c q (p + 1) t (u + 1))])
    else []
  | _, _ => []

/-- `edit_dags.py:1158-1508`: the body of the two loops of `build_matching_subproblem`. -/
def cellEdges {M : Type} [DecidableEq M] (prm : Params) (q : Option Nat) (p i : Nat)
    (t : Option Nat) (u j : Nat) (n m : Option (Node M)) (inner : List EditEdge) : List EditEdge :=
  deleteNode? prm .process false q p i t u n
  ++ (bothConf fun c =>
    [⟨.at .process c q p t u, .at .mayDelete c q p t u,
        (match c with
          | .high => (prm.highStart : ℚ)
          | .low => (prm.lowStart : ℚ)),
        none, some ⟨none, none, .startEditing, some c⟩⟩,
      silentEdge (.at .process c q p t u) (.at .matching c q p t u)])
  ++ deleteNode? prm .mayDelete true q p i t u n
  ++ (bothConf fun c => [silentEdge (.at .mayDelete c q p t u) (.at .mayInsert c q p t u)])
  ++ insertNode? prm .mayInsert true q p t u j m
  ++ (bothConf fun c => [silentEdge (.at .mayInsert c q p t u) (.at .matching c q p t u)])
  ++ insertNode? prm .matching false q p t u j m
  ++ keepTokenEdges prm q p i t u j n m
  ++ matchGroupEdges q p i t u j inner n m

/-- `for target_position in range(len(target_node_ids) + 1)` (`edit_dags.py:1161-1165`); the body is
given the position, the preorder index and the node, which is invalid past the end. -/
def overTarget {M : Type} (body : Nat → Nat → Option (Node M) → List EditEdge) (u j : Nat) :
    List (Node M) → List EditEdge
  | [] => body u j none
  | m :: ms => body u j (some m) ++ overTarget body (u + 1) (j + nodeSize m) ms

/-- `edit_dags.py:1076-1513` `build_matching_subproblem`, from position `p` in the prototype. -/
def matchEdges {M : Type} [DecidableEq M] (prm : Params) (q : Option Nat) (p i : Nat)
    (t : Option Nat) (j : Nat) (target : List (Node M)) : List (Node M) → List EditEdge
  | [] => overTarget (fun u j' m => cellEdges prm q p i t u j' none m []) 0 j target
  | n :: ns =>
    overTarget (fun u j' m => cellEdges prm q p i t u j' (some n) m
      (match n with
        | .group cs _ =>
          (match m with
            | some (.group cs' _) => matchEdges prm (some i) 0 (i + 1) (some j') (j' + 1) cs' cs
            | _ => [])
        | _ => [])) 0 j target
    ++ matchEdges prm q (p + 1) (i + nodeSize n) t j target ns

/-- `edit_dags.py:482-489`: the initial state. -/
def editInitial : EditState := .at .process .high none 0 none 0

/-- All edges `construct_edit_dag` adds, in order (`edit_dags.py:514-532`). -/
def editEdges {M : Type} [DecidableEq M] (prm : Params) (proto target : List (Node M)) :
    List EditEdge :=
  matchEdges prm none 0 0 none 0 target proto
    ++ [silentEdge (.at .matching .high none proto.length none target.length) .final]

/-- `edit_dags.py:463-539` `construct_edit_dag`. -/
def constructEditDag {M : Type} [DecidableEq M] (prm : Params) (proto target : List (Node M)) :
    Except AddError (Dag EditState DecisionKey DecisionValue (Option EditInfo)) :=
  match PartialDag.addAll (editEdges prm proto target) (PartialDag.start editInitial) with
  | .error x => .error x
  | .ok d => .ok (d.finish .final)

end RUSure
