import Verif.Model.Edit
import Verif.Model.Pack

/-!
# The builders of constraint and edit DAGs over packed storages

`Model/Constraint.lean` and `Model/Edit.lean` let the builders walk over trees. Here they are modelled
as the code has them: they are given packed storages, walk over lists of ids, branch on the category of
an id, look up contents, children, parents and positions by index, and may fail when an index does not
exist (`none` is an exception). Calls of recursive functions carry fuel; running out of it is the
recursion limit. States, decision keys and infos hold `-1` or a preorder index; as in the models of the
DAGs, `-1` is `none` and the other indices, which are not negative, are natural numbers.
-/

namespace RUSure.Stored

variable {M : Type}

/-- `packed_sequence_nodes.py:73-77` `INVALID_NODE_ID`. -/
def invalidId : NodeId := ⟨-2, .invalid, -1⟩

/-- The sequence index of a state: `ROOT_PREORDER_INDEX = -1`, or the preorder index of a group. -/
def seqIndex (k : Int) : Option Nat := if k = -1 then none else some k.toNat

/-- `node_id.preorder_index` where it is the index of a node. -/
def nodeIndex (id : NodeId) : Nat := id.preorder.toNat

/-- The calls made by a loop, one after the other; the edges they add are listed in order. -/
def overAll {α : Type} (f : α → Option (List β)) (l : List α) : Option (List β) :=
  (mapOpt f l).map List.flatten

/-! ## Constraint DAGs -/

/-- `constraint_dags.py:648-806`: one iteration of the loop of
`build_prototype_subgraph_inside_region`. -/
def insideId (S : Storage M) : Nat → Int → Nat → NodeId × Nat → Option (List ConstraintEdge)
  | 0, _, _, _ => none
  | fuel + 1, seq, level, (id, pos) =>
    let before := ConstraintState.at .forced (seqIndex seq) pos level
    let after := ConstraintState.at .forced (seqIndex seq) (pos + 1) level
    let i := nodeIndex id
    match id.cat with
    | .deco => some [plainEdge before after]
    | .tok => some [decisionEdge before after i .inRegion .yes]
    | .group =>
      match pyGet S.groups id.idx with
      | none => none
      | some g =>
        match overAll (insideId S fuel id.preorder level) g.children.zipIdx with
        | none => none
        | some inner =>
          some ([decisionEdge before (.at .forced (seqIndex id.preorder) 0 level) i .inRegion .yes]
            ++ inner
            ++ [plainEdge (.at .forced (seqIndex id.preorder) g.children.length level) after])
    | .rstart => some [decisionEdge before after i .start .na]
    | .rend => some [decisionEdge before after i .stop .no]
    | .exit => some [exitEdge before i, decisionEdge before after i .exit .no]
    | .invalid => some []

/-- `constraint_dags.py:313-600`: one iteration of the loop of
`build_prototype_subgraph_from_outside_region`. -/
def outsideId (S : Storage M) : Nat → Int → Nat → NodeId × Nat → Option (List ConstraintEdge)
  | 0, _, _, _ => none
  | fuel + 1, seq, level, (id, pos) =>
    let before := fun c => ConstraintState.at c (seqIndex seq) pos level
    let after := fun c => ConstraintState.at c (seqIndex seq) (pos + 1) level
    let i := nodeIndex id
    match id.cat with
    | .deco => some
        [plainEdge (before .outside) (after .outside), plainEdge (before .temporary) (after .temporary)]
    | .tok => some
        [decisionEdge (before .outside) (after .outside) i .inRegion (inRegionValue .outside),
          decisionEdge (before .temporary) (after .temporary) i .inRegion (inRegionValue .temporary)]
    | .group =>
      match pyGet S.groups id.idx with
      | none => none
      | some g =>
        match overAll (outsideId S fuel id.preorder (level + 1)) g.children.zipIdx,
          overAll (insideId S fuel id.preorder level) g.children.zipIdx with
        | some inner, some inner' =>
          some ([decisionEdge (before .outside) (.at .outside (seqIndex id.preorder) 0 (level + 1)) i
              .inRegion .no]
            ++ inner
            ++ [plainEdge (.at .outside (seqIndex id.preorder) g.children.length (level + 1))
              (after .outside)]
            ++ [decisionEdge (before .temporary) (.at .forced (seqIndex id.preorder) 0 level) i
              .inRegion .yes]
            ++ inner'
            ++ [plainEdge (.at .forced (seqIndex id.preorder) g.children.length level)
              (after .temporary)])
        | _, _ => none
    | .rstart => some
        [decisionEdge (before .outside) (after .outside) i .start .no,
          decisionEdge (before .outside) (after .temporary) i .start .yes,
          decisionEdge (before .temporary) (after .temporary) i .start .na]
    | .rend => some
        [decisionEdge (before .temporary) (after .temporary) i .stop .no,
          decisionEdge (before .temporary) (after .outside) i .stop .yes,
          decisionEdge (before .outside) (after .outside) i .stop .na]
    | .exit => some
        [exitEdge (before .outside) i, decisionEdge (before .outside) (after .outside) i .exit .no,
          exitEdge (before .temporary) i,
          decisionEdge (before .temporary) (after .temporary) i .exit .no]
    | .invalid => some []

/-- `constraint_dags.py:209-268` `construct_constraint_dag`. -/
def constructConstraintDag (proto : Storage M) :
    Option (Except AddError (Dag ConstraintState DecisionKey DecisionValue Bool)) :=
  match overAll (outsideId proto (proto.preorder.length + 1) (-1) 0) proto.root.zipIdx with
  | none => none
  | some es =>
    match PartialDag.addAll (es ++ [plainEdge (.at .outside none proto.root.length 0) .final])
        (PartialDag.start constraintInitial) with
    | .error x => some (.error x)
    | .ok d => some (.ok (d.finish .final))

/-! ## Edit DAGs -/

/-- `edit_dags.py:542-727` `maybe_insert_node_or_skip_decoration_in_target`, with
`build_recursive_insert_subsequence` (`edit_dags.py:1590-1663`) for the children. The position of the
node is looked up (lines 572-578). -/
def insertId (prm : Params) (T : Storage M) (q : Option Nat) (p : Nat) :
    Nat → EditAlign → Bool → NodeId → Option (List EditEdge)
  | 0, _, _, _ => none
  | fuel + 1, al, allow, id =>
    if id.cat = .invalid then some []
    else
      match pyGet T.parents id.preorder with
      | none => none
      | some place =>
        let t := seqIndex place.parent
        let u := place.child
        let j := nodeIndex id
        match id.cat with
        | .deco =>
          match pyGet T.decos id.idx with
          | none => none
          | some _ =>
            some (bothConf fun c => [⟨.at al c q p t u, .at al c q p t (u + 1), 0, none,
              some ⟨none, some j, .targetDeco, some c⟩⟩])
        | .tok =>
          if allow then
            match pyGet T.toks id.idx with
            | none => none
            | some x =>
              some (bothConf fun c => [⟨.at al c q p t u, .at al c q p t (u + 1),
                ((prm.forToken x.1.length).insertCost : ℚ), none,
                some ⟨none, some j, .insert, none⟩⟩])
          else some []
        | .group =>
          if allow then
            match pyGet T.groups id.idx with
            | none => none
            | some g =>
              match overAll (insertId prm T q p fuel .recInsert true) g.children with
              | none => none
              | some inner =>
                some ((bothConf fun c => [silentEdge (.at al c q p t u)
                    (.at .recInsert c q p (seqIndex id.preorder) 0)])
                  ++ inner
                  ++ (bothConf fun c => [silentEdge
                    (.at .recInsert c q p (seqIndex id.preorder) g.children.length)
                    (.at al c q p t (u + 1))]))
          else some []
        | _ => some []

/-- `edit_dags.py:730-1073` `maybe_delete_node_or_advance_in_prototype`, with
`build_recursive_delete_subsequence` (`edit_dags.py:1516-1587`) for the children. The position of the
node is looked up (lines 764-772). -/
def deleteId (prm : Params) (P : Storage M) (t : Option Nat) (u : Nat) :
    Nat → EditAlign → Bool → NodeId → Option (List EditEdge)
  | 0, _, _, _ => none
  | fuel + 1, al, allow, id =>
    if id.cat = .invalid then some []
    else
      match pyGet P.parents id.preorder with
      | none => none
      | some place =>
        let q := seqIndex place.parent
        let p := place.child
        let i := nodeIndex id
        match id.cat with
        | .deco =>
          match pyGet P.decos id.idx with
          | none => none
          | some _ =>
            some (bothConf fun c => [⟨.at al c q p t u, .at al c q (p + 1) t u, 0, none,
              some ⟨some i, none, .protoDeco, some c⟩⟩])
        | .tok =>
          if allow then
            match pyGet P.toks id.idx with
            | none => none
            | some x =>
              some (bothConf fun c => [⟨.at al c q p t u, .at al c q (p + 1) t u,
                (match c with
                  | .high => ((prm.forToken x.1.length).highDelete : ℚ)
                  | .low => ((prm.forToken x.1.length).lowDelete : ℚ)),
                some (⟨i, .inRegion⟩, lowValue c), some ⟨some i, none, .delete, some c⟩⟩])
          else some []
        | .group =>
          if allow then
            match pyGet P.groups id.idx with
            | none => none
            | some g =>
              match overAll (deleteId prm P t u fuel .recDelete true) g.children with
              | none => none
              | some inner =>
                some ((bothConf fun c => [⟨.at al c q p t u,
                    .at .recDelete c (seqIndex id.preorder) 0 t u, 0,
                    some (⟨i, .inRegion⟩, lowValue c), none⟩])
                  ++ inner
                  ++ (bothConf fun c => [silentEdge
                    (.at .recDelete c (seqIndex id.preorder) g.children.length t u)
                    (.at al c q (p + 1) t u)]))
          else some []
        | .rstart => some
          [⟨.at al .high q p t u, .at al .high q (p + 1) t u, 0, some (⟨i, .start⟩, .no), none⟩,
            ⟨.at al .high q p t u, .at al .low q (p + 1) t u, (prm.regionCost : ℚ),
              some (⟨i, .start⟩, .yes), some ⟨some i, none, .startLow, none⟩⟩,
            ⟨.at al .low q p t u, .at al .low q (p + 1) t u, 0, some (⟨i, .start⟩, .na), none⟩]
        | .rend => some
          [⟨.at al .low q p t u, .at al .low q (p + 1) t u, 0, some (⟨i, .stop⟩, .no), none⟩,
            ⟨.at al .low q p t u, .at al .high q (p + 1) t u, 0, some (⟨i, .stop⟩, .yes), none⟩,
            ⟨.at al .high q p t u, .at al .high q (p + 1) t u, 0, some (⟨i, .stop⟩, .na), none⟩]
        | .exit => some (bothConf fun c =>
          [⟨.at al c q p t u, .final, 0, some (⟨i, .exit⟩, .yes),
              some ⟨some i, none, .earlyExit, some c⟩⟩,
            ⟨.at al c q p t u, .at al c q (p + 1) t u, 0, some (⟨i, .exit⟩, .no), none⟩])
        | .invalid => some []

/-- `edit_dags.py:1344-1402`: keeping a token. -/
def keepIds [DecidableEq M] (prm : Params) (P T : Storage M) (q : Option Nat) (p : Nat)
    (t : Option Nat) (u : Nat) (pid tid : NodeId) : Option (List EditEdge) :=
  if tid.cat = .tok ∧ pid.cat = .tok then
    match pyGet P.toks pid.idx, pyGet T.toks tid.idx with
    | some x, some y =>
      if y.1 = x.1 ∧ y.2 = x.2 then
        some (bothConf fun c => [⟨.at .matching c q p t u, .at .process c q (p + 1) t (u + 1),
          (match c with
            | .high => (-(prm.forToken x.1.length).highMatch : ℚ)
            | .low => (-(prm.forToken x.1.length).lowMatch : ℚ)),
          some (⟨nodeIndex pid, .inRegion⟩, lowValue c),
          some ⟨some (nodeIndex pid), some (nodeIndex tid), .keep, some c⟩⟩])
      else some []
    | _, _ => none
  else some []

/-- The edges of the subgraphs of one pair of positions before matching (`edit_dags.py:1192-1342`). -/
def editIds (prm : Params) (P T : Storage M) (q : Option Nat) (p : Nat) (t : Option Nat) (u : Nat)
    (pid tid : NodeId) : Option (List EditEdge) :=
  match deleteId prm P t u (P.preorder.length + 1) .process false pid,
    deleteId prm P t u (P.preorder.length + 1) .mayDelete true pid,
    insertId prm T q p (T.preorder.length + 1) .mayInsert true tid,
    insertId prm T q p (T.preorder.length + 1) .matching false tid with
  | some a, some b, some c, some d =>
    some (a
      ++ (bothConf fun c =>
        [⟨.at .process c q p t u, .at .mayDelete c q p t u,
            (match c with
              | .high => (prm.highStart : ℚ)
              | .low => (prm.lowStart : ℚ)),
            none, some ⟨none, none, .startEditing, some c⟩⟩,
          silentEdge (.at .process c q p t u) (.at .matching c q p t u)])
      ++ b
      ++ (bothConf fun c => [silentEdge (.at .mayDelete c q p t u) (.at .mayInsert c q p t u)])
      ++ c
      ++ (bothConf fun c => [silentEdge (.at .mayInsert c q p t u) (.at .matching c q p t u)])
      ++ d)
  | _, _, _, _ => none

/-- `edit_dags.py:1158-1508`: the body of the two loops of `build_matching_subproblem`, where
`recurse` is the recursive call for a pair of groups that match (lines 1404-1508). -/
def cellIds [DecidableEq M] (prm : Params) (P T : Storage M)
    (recurse : Int → List NodeId → Int → List NodeId → Option (List EditEdge)) (pseq tseq : Int)
    (x y : NodeId × Nat) : Option (List EditEdge) :=
  let pid := x.1
  let p := x.2
  let tid := y.1
  let u := y.2
  let q := seqIndex pseq
  let t := seqIndex tseq
  match editIds prm P T q p t u pid tid, keepIds prm P T q p t u pid tid with
  | some a, some b =>
    if pid.cat = .group ∧ tid.cat = .group then
      match pyGet P.groups pid.idx, pyGet T.groups tid.idx with
      | some g, some g' =>
        if g'.mt = g.mt then
          match recurse pid.preorder g.children tid.preorder g'.children with
          | none => none
          | some inner =>
            some (a ++ b
              ++ ((bothConf fun c => [⟨.at .matching c q p t u,
                .at .process c (seqIndex pid.preorder) 0 (seqIndex tid.preorder) 0, 0,
                some (⟨nodeIndex pid, .inRegion⟩, lowValue c), none⟩])
              ++ inner
              ++ (bothConf fun c => [silentEdge
                (.at .matching c (seqIndex pid.preorder) g.children.length
                  (seqIndex tid.preorder) g'.children.length)
                (.at .process c q (p + 1) t (u + 1))])))
        else some (a ++ b)
      | _, _ => none
    else some (a ++ b)
  | _, _ => none

/-- `edit_dags.py:1076-1513` `build_matching_subproblem`: both loops run one past the end, with
`INVALID_NODE_ID` there (lines 1149-1163). -/
def matchIds [DecidableEq M] (prm : Params) (P T : Storage M) :
    Nat → Int → List NodeId → Int → List NodeId → Option (List EditEdge)
  | 0, _, _, _, _ => none
  | fuel + 1, pseq, pids, tseq, tids =>
    overAll (fun x => overAll (cellIds prm P T (matchIds prm P T fuel) pseq tseq x)
      (tids ++ [invalidId]).zipIdx) (pids ++ [invalidId]).zipIdx

/-- `edit_dags.py:463-539` `construct_edit_dag`. -/
def constructEditDag [DecidableEq M] (prm : Params) (proto target : Storage M) :
    Option (Except AddError (Dag EditState DecisionKey DecisionValue (Option EditInfo))) :=
  match matchIds prm proto target (proto.preorder.length + 1) (-1) proto.root (-1) target.root with
  | none => none
  | some es =>
    match PartialDag.addAll
        (es ++ [silentEdge (.at .matching .high none proto.root.length none target.root.length) .final])
        (PartialDag.start editInitial) with
    | .error x => some (.error x)
    | .ok d => some (.ok (d.finish .final))

end RUSure.Stored
