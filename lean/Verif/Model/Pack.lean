import Verif.Model.Tree

/-!
# Model of `r_u_sure/tree_structure/packed_sequence_nodes.py`
-/

namespace RUSure

variable {M : Type}

/-- Python list indexing `l[i]` with an integer index: negative indices count from the end;
`none` is `IndexError`. -/
def pyGet {α : Type} (l : List α) (i : Int) : Option α :=
  if 0 ≤ i then l[i.toNat]?
  else if -(l.length : Int) ≤ i then l[(l.length + i).toNat]?
  else none

/-- A Python list comprehension / loop whose body may raise (`none`). -/
def mapOpt {α β : Type} (f : α → Option β) : List α → Option (List β)
  | [] => some []
  | a :: as =>
    match f a with
    | none => none
    | some b =>
      match mapOpt f as with
      | none => none
      | some bs => some (b :: bs)

/-- `packed_sequence_nodes.py:28-44` `PackedSequenceNodeCategory`. -/
inductive Cat where
  | deco | tok | rstart | rend | exit | group | invalid
  deriving DecidableEq, Repr

/-- `packed_sequence_nodes.py:52-70` `PackedSequenceNodeID`. -/
structure NodeId where
  preorder : Int
  cat : Cat
  idx : Int
  deriving DecidableEq, Repr

/-- `packed_sequence_nodes.py:82-93` `PositionInParent`. -/
structure PosInParent where
  parent : Int
  child : Nat
  deriving DecidableEq, Repr

/-- `packed_sequence_nodes.py:114-118` `PackedGroupNode`. -/
structure PackedGroup (M : Type) where
  children : List NodeId
  mt : M
  deriving Repr

/-- `packed_sequence_nodes.py:121-169` `PackedSequenceNodeStorage`. Decoration nodes are stored as
their text, token nodes as (text, match type). -/
structure Storage (M : Type) where
  root : List NodeId
  preorder : List NodeId
  decos : List Text
  toks : List (Text × M)
  groups : List (PackedGroup M)
  parents : List PosInParent
  levels : List Nat
  depth : Nat
  deriving Repr

/-! ## pack -/

/-- The mutable `result` lists and `max_level` of `pack` (`packed_sequence_nodes.py:268-279`),
without `root_sequence`. -/
structure PackState (M : Type) where
  preorder : List NodeId
  decos : List Text
  toks : List (Text × M)
  groups : List (PackedGroup M)
  parents : List PosInParent
  levels : List Nat
  maxLevel : Nat

/-- The initial lists (`packed_sequence_nodes.py:268-279`). -/
def PackState.empty : PackState M := ⟨[], [], [], [], [], [], 0⟩

/-- The three appends common to all branches (e.g. `packed_sequence_nodes.py:300-302`), with the
`max_level` update of line 288. -/
def PackState.visit (st : PackState M) (id : NodeId) (pos : PosInParent) (level : Nat) :
    PackState M :=
  { st with
    preorder := st.preorder ++ [id]
    parents := st.parents ++ [pos]
    levels := st.levels ++ [level]
    maxLevel := max st.maxLevel level }

/-- `the_group.children_ids.append(child_id)` (`packed_sequence_nodes.py:351`): the group object is
shared with `result.group_nodes`, so this updates entry `gi` of that list. -/
def PackState.appendChild (st : PackState M) (gi : Nat) (id : NodeId) : PackState M :=
  { st with groups := st.groups.modify gi (fun g => { g with children := g.children ++ [id] }) }

mutual
/-- `packed_sequence_nodes.py:281-387` `preorder_traversal` (the nested function of `pack`). -/
def packNode (st : PackState M) (pos : PosInParent) (level : Nat) :
    Node M → PackState M × NodeId
  | .deco t =>
      let id : NodeId := ⟨st.preorder.length, .deco, st.decos.length⟩
      ({ st with decos := st.decos ++ [t] }.visit id pos level, id)
  | .tok t mt =>
      let id : NodeId := ⟨st.preorder.length, .tok, st.toks.length⟩
      ({ st with toks := st.toks ++ [(t, mt)] }.visit id pos level, id)
  | .group cs mt =>
      let gi := st.groups.length
      let id : NodeId := ⟨st.preorder.length, .group, gi⟩
      let st1 := ({ st with groups := st.groups ++ [⟨[], mt⟩] } : PackState M).visit id pos level
      (packChildren st1 gi id.preorder 0 (level + 1) cs, id)
  | .rstart =>
      let id : NodeId := ⟨st.preorder.length, .rstart, -1⟩
      (st.visit id pos level, id)
  | .rend =>
      let id : NodeId := ⟨st.preorder.length, .rend, -1⟩
      (st.visit id pos level, id)
  | .exit =>
      let id : NodeId := ⟨st.preorder.length, .exit, -1⟩
      (st.visit id pos level, id)
/-- `packed_sequence_nodes.py:343-351`: the loop over the children of a group. -/
def packChildren (st : PackState M) (gi : Nat) (parent : Int) (i : Nat) (level : Nat) :
    List (Node M) → PackState M
  | [] => st
  | c :: cs =>
      let r := packNode st ⟨parent, i⟩ level c
      packChildren (r.1.appendChild gi r.2) gi parent (i + 1) level cs
end

/-- `packed_sequence_nodes.py:389-394`: the loop over the root sequence. -/
def packRoot (st : PackState M) (root : List NodeId) (i : Nat) :
    List (Node M) → PackState M × List NodeId
  | [] => (st, root)
  | n :: ns =>
      let r := packNode st ⟨-1, i⟩ 0 n
      packRoot r.1 (root ++ [r.2]) (i + 1) ns

/-- `packed_sequence_nodes.py:215-405` `pack` (the numba-typed variant builds the same lists). -/
def pack (nodes : List (Node M)) : Storage M :=
  let r := packRoot .empty [] 0 nodes
  { root := r.2, preorder := r.1.preorder, decos := r.1.decos, toks := r.1.toks,
    groups := r.1.groups, parents := r.1.parents, levels := r.1.levels,
    depth := r.1.maxLevel + 1 }

/-! ## Lookups -/

namespace Storage

/-- `packed_sequence_nodes.py:186-200`: the loop of `subsequence_from_node_path`. -/
def subsequenceFrom (S : Storage M) (seq : List NodeId) : List Int → Option (List NodeId)
  | [] => some seq
  | p :: ps =>
      if p < 0 ∨ p ≥ seq.length then none
      else
        match pyGet seq p with
        | none => none
        | some id =>
          match id.cat with
          | .group =>
            match pyGet S.groups id.idx with
            | none => none
            | some g => subsequenceFrom S g.children ps
          | _ => none

/-- `packed_sequence_nodes.py:182-201` `subsequence_from_node_path`; `none` = exception. -/
def subsequenceFromPath (S : Storage M) (path : List Int) : Option (List NodeId) :=
  S.subsequenceFrom S.root path

/-- `packed_sequence_nodes.py:171-180` `node_id_from_node_path`; `none` = exception. The final
lookup is raw Python indexing, so a negative last entry counts from the end. -/
def nodeIdFromPath (S : Storage M) (path : List Int) : Option NodeId :=
  match path.getLast? with
  | none => none
  | some last =>
    match S.subsequenceFromPath path.dropLast with
    | none => none
    | some seq => pyGet seq last

/-- `packed_sequence_nodes.py:206-211`: the `while` loop of `path_from_preorder_index`, with fuel
(`none` = exception or no termination within the fuel); `acc` is the path read so far, reversed
back. -/
def pathLoop (S : Storage M) : Nat → Int → List Nat → Option (List Nat)
  | 0, _, _ => none
  | fuel + 1, k, acc =>
      if k = -1 then some acc
      else
        match pyGet S.parents k with
        | none => none
        | some p => pathLoop S fuel p.parent (p.child :: acc)

/-- `packed_sequence_nodes.py:203-212` `path_from_preorder_index`. -/
def pathFromPreorder (S : Storage M) (k : Int) : Option (List Nat) :=
  S.pathLoop (S.preorder.length + 1) k []

/-! ## unpack -/

/-- `packed_sequence_nodes.py:413-439` `build`, with fuel for the recursion through ids
(`none` = exception, including exceeding the recursion limit). The comprehension over children ids
(line 428) is `mapOpt`. -/
def build (S : Storage M) : Nat → NodeId → Option (Node M)
  | 0, _ => none
  | fuel + 1, id =>
      match id.cat with
      | .deco => (pyGet S.decos id.idx).map .deco
      | .tok => (pyGet S.toks id.idx).map (fun p => .tok p.1 p.2)
      | .group =>
        match pyGet S.groups id.idx with
        | none => none
        | some g => (mapOpt (build S fuel) g.children).map (fun cs => .group cs g.mt)
      | .rstart => some .rstart
      | .rend => some .rend
      | .exit => some .exit
      | .invalid => none

/-- `packed_sequence_nodes.py:408-441` `unpack`. -/
def unpack (S : Storage M) : Option (List (Node M)) :=
  mapOpt (S.build (S.preorder.length + 1)) S.root

/-! ## Rendering -/

/-- `packed_sequence_nodes.py:448-473` `render_text_contents_of_node` (fuel as in `build`); the
call to `render_text_contents_of_list` is `mapOpt` followed by joining. -/
def renderId (S : Storage M) : Nat → NodeId → Option Text
  | 0, _ => none
  | fuel + 1, id =>
      match id.cat with
      | .deco => pyGet S.decos id.idx
      | .tok => (pyGet S.toks id.idx).map (·.1)
      | .group =>
        match pyGet S.groups id.idx with
        | none => none
        | some g => (mapOpt (renderId S fuel) g.children).map List.flatten
      | _ => some []

/-- `render_text_contents_of_node(node_id, storage)` as called by users. -/
def renderNode (S : Storage M) (id : NodeId) : Option Text := S.renderId (S.preorder.length + 1) id

/-- `packed_sequence_nodes.py:476-492` `render_text_contents_of_list`. -/
def renderList (S : Storage M) (ids : List NodeId) : Option Text :=
  (mapOpt (S.renderId (S.preorder.length + 1)) ids).map List.flatten

end Storage

/-! ## In-order traversal -/

/-- `packed_sequence_nodes.py:495-503` `InOrderTraversalCategory`. -/
inductive TravCat where
  | leaf | beforeGroup | afterGroup
  deriving DecidableEq, Repr

/-- `packed_sequence_nodes.py:506-516` `InOrderTraversalItem`. -/
structure TravItem where
  cat : TravCat
  id : NodeId
  deriving DecidableEq, Repr

/-- `packed_sequence_nodes.py:537-564` one iteration of the loop of `do_in_order_traversal`,
returning the items appended to `dest`; fuel for the recursion through ids. -/
def Storage.travId (S : Storage M) (strip : Bool) : Nat → NodeId → Option (List TravItem)
  | 0, _ => none
  | fuel + 1, id =>
      match id.cat with
      | .group =>
        match pyGet S.groups id.idx with
        | none => none
        | some g =>
          (mapOpt (S.travId strip fuel) g.children).map
            (fun inner => [⟨.beforeGroup, id⟩] ++ inner.flatten ++ [⟨.afterGroup, id⟩])
      | .deco => if strip then some [] else some [⟨.leaf, id⟩]
      | _ => some [⟨.leaf, id⟩]

/-- `packed_sequence_nodes.py:572-592` `in_order_traversal`. -/
def Storage.inOrderTraversal (S : Storage M) (strip : Bool) : Option (List TravItem) :=
  (mapOpt (S.travId strip (S.preorder.length + 1)) S.root).map List.flatten

end RUSure
