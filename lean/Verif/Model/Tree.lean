/-!
# Model of `r_u_sure/tree_structure/{sequence_nodes,sequence_node_helpers,transforms}.py`
-/

namespace RUSure

/-- Python `str`, as a list of characters. (Simplification: Lean `Char` excludes surrogates.) -/
abbrev Text := List Char

/-- `sequence_nodes.py:36-117` `SequenceNode = Union[TextDecorationNode, TextTokenNode,
RegionStartNode, RegionEndNode, EarlyExitNode, GroupNode]`. The match type (`Any` in Python) is the
type parameter `M`. `size_for_utility` is not used anywhere and not modelled. -/
inductive Node (M : Type) where
  | deco (text : Text)
  | tok (text : Text) (mt : M)
  | rstart
  | rend
  | exit
  | group (children : List (Node M)) (mt : M)
  deriving Repr

namespace Node
variable {M : Type}

/-- `isinstance(node, (GroupNode, TextTokenNode))`, e.g. `transforms.py:85-88`, `149-151`. -/
def isTokOrGroup : Node M → Bool
  | tok _ _ => true
  | group _ _ => true
  | _ => false

/-- `isinstance(node, GroupNode)`. -/
def isGroup : Node M → Bool
  | group _ _ => true
  | _ => false

/-- Region start/end and early exit nodes ("decision nodes", `transforms.py:371-379`). -/
def isDecision : Node M → Bool
  | rstart => true
  | rend => true
  | exit => true
  | _ => false

end Node

open Node

variable {M : Type}

mutual
/-- `sequence_node_helpers.py:44-62` `render_text_contents` on a node. -/
def renderText : Node M → Text
  | .deco t => t
  | .tok t _ => t
  | .group cs _ => renderTextL cs
  | .rstart => []
  | .rend => []
  | .exit => []
/-- `sequence_node_helpers.py:54-55` `render_text_contents` on a list. -/
def renderTextL : List (Node M) → Text
  | [] => []
  | n :: ns => renderText n ++ renderTextL ns
end

mutual
/-- The `1 + compute_depth(node.children)` term of `sequence_node_helpers.py:39-40` for one node;
non-group nodes do not change the running depth (contribute `1`). -/
def nodeDepth : Node M → Nat
  | .group cs _ => 1 + computeDepth cs
  | .deco _ => 1
  | .tok _ _ => 1
  | .rstart => 1
  | .rend => 1
  | .exit => 1
/-- `sequence_node_helpers.py:27-41` `compute_depth`. The running `max` is written as a right fold
(`max` is associative and commutative). -/
def computeDepth : List (Node M) → Nat
  | [] => 1
  | n :: ns => max (nodeDepth n) (computeDepth ns)
end

/-- `sequence_node_helpers.py:135-139` `WalkTag`. -/
inductive WalkTag where
  | leaf | groupBefore | groupAfter
  deriving DecidableEq, Repr

mutual
/-- `sequence_node_helpers.py:167-183`: the body of the loop of `walk_with_paths` for a node with
path `path` (a `NestedNodePath`, `sequence_nodes.py:124-144`, is a list of child indices). -/
def walkNode (before after : Bool) (path : List Nat) :
    Node M → List (Node M × List Nat × WalkTag)
  | .group cs mt =>
      (if before then [(.group cs mt, path, .groupBefore)] else [])
        ++ walkFrom before after path 0 cs
        ++ (if after then [(.group cs mt, path, .groupAfter)] else [])
  | .deco t => [(.deco t, path, .leaf)]
  | .tok t mt => [(.tok t mt, path, .leaf)]
  | .rstart => [(.rstart, path, .leaf)]
  | .rend => [(.rend, path, .leaf)]
  | .exit => [(.exit, path, .leaf)]
/-- The `for i, node in enumerate(node_sequence)` loop, starting the enumeration at `i`. -/
def walkFrom (before after : Bool) (pre : List Nat) (i : Nat) :
    List (Node M) → List (Node M × List Nat × WalkTag)
  | [] => []
  | n :: ns => walkNode before after (pre ++ [i]) n ++ walkFrom before after pre (i + 1) ns
end

/-- `sequence_node_helpers.py:142-183` `walk_with_paths`. -/
def walkWithPaths (seq : List (Node M)) (before after : Bool) (pre : List Nat) :
    List (Node M × List Nat × WalkTag) :=
  walkFrom before after pre 0 seq

/-! ## transforms.py -/

mutual
/-- `transforms.py:42-46`, one iteration of the loop of `flatten_groups`. -/
def flattenNode : Node M → List (Node M)
  | .group cs _ => flattenGroups cs
  | .deco t => [.deco t]
  | .tok t mt => [.tok t mt]
  | .rstart => [.rstart]
  | .rend => [.rend]
  | .exit => [.exit]
/-- `transforms.py:29-47` `flatten_groups`. -/
def flattenGroups : List (Node M) → List (Node M)
  | [] => []
  | n :: ns => flattenNode n ++ flattenGroups ns
end

/-- `transforms.py:94-96`: `dataclasses.replace(processed, match_type=(mt,) + processed.match_type)`
(defined only for tokens and groups; the `assert` of lines 90-92 excludes other nodes). -/
def consMatchType (mt : M) : Node (List M) → Node (List M)
  | .tok t mts => .tok t (mt :: mts)
  | .group cs mts => .group cs (mt :: mts)
  | n => n

mutual
/-- `transforms.py:70-110` `flatten_singleton_groups_for_node`. Tuples of match types are lists.
(The recursive call on the only child is read off the processed list of children, which is the
same value, to keep the recursion structural.) -/
def flattenSingletonNode : Node M → Node (List M)
  | .group cs mt =>
      match cs, flattenSingletonGroups cs with
      | [c], [c'] => if c.isTokOrGroup then consMatchType mt c' else .group [c'] [mt]
      | _, cs' => .group cs' [mt]
  | .tok t mt => .tok t [mt]
  | .deco t => .deco t
  | .rstart => .rstart
  | .rend => .rend
  | .exit => .exit
/-- `transforms.py:50-67` `flatten_singleton_groups`. -/
def flattenSingletonGroups : List (Node M) → List (Node (List M))
  | [] => []
  | n :: ns => flattenSingletonNode n :: flattenSingletonGroups ns
end

mutual
/-- `transforms.py:137-155`, one iteration of the loop of `insert_early_exit`. -/
def insertEarlyExitNode (within : Bool) : Node M → List (Node M)
  | .group cs mt =>
      if within then [.group (insertEarlyExitLoop true cs) mt, .exit]
      else [.group cs mt, .exit]
  | .tok t mt => [.tok t mt, .exit]
  | .deco t => [.deco t]
  | .rstart => [.rstart]
  | .rend => [.rend]
  | .exit => [.exit]
/-- `transforms.py:137-157`, the loop of `insert_early_exit`. The recursive call of lines 143-145
has `allowed_within_group=True, allowed_at_start=False`, i.e. it is just this loop. -/
def insertEarlyExitLoop (within : Bool) : List (Node M) → List (Node M)
  | [] => []
  | n :: ns => insertEarlyExitNode within n ++ insertEarlyExitLoop within ns
end

/-- `transforms.py:113-157` `insert_early_exit`. -/
def insertEarlyExit (seq : List (Node M)) (within atStart : Bool) : List (Node M) :=
  (if atStart then [.exit] else []) ++ insertEarlyExitLoop within seq

/-- `transforms.py:214-216`: the trailing empty region option of a sequence. -/
def trailingRegion (allowEmpty : Bool) : List (Node M) :=
  if allowEmpty then [.rstart, .rend] else []

/-- `transforms.py:201-208`: wraps a processed node when the filter accepted the node. -/
def wrapRegion (allowEmpty accept : Bool) (processed : Node M) : List (Node M) :=
  if accept then
    [.rstart] ++ (if allowEmpty then [.rend] else []) ++ [processed, .rend]
  else [processed]

mutual
/-- `transforms.py:185-212`, one iteration of the loop of
`insert_region_options_around_subsequences`. -/
def insertRegionsNode (allowEmpty : Bool) (filter : Node M → Bool) : Node M → List (Node M)
  | .group cs mt =>
      wrapRegion allowEmpty (filter (.group cs mt))
        (.group (insertRegionsLoop allowEmpty filter cs ++ trailingRegion allowEmpty) mt)
  | .tok t mt => wrapRegion allowEmpty (filter (.tok t mt)) (.tok t mt)
  | .deco t => [.deco t]
  | .rstart => [.rstart]
  | .rend => [.rend]
  | .exit => [.exit]
/-- `transforms.py:185-212`, the loop. -/
def insertRegionsLoop (allowEmpty : Bool) (filter : Node M → Bool) :
    List (Node M) → List (Node M)
  | [] => []
  | n :: ns => insertRegionsNode allowEmpty filter n ++ insertRegionsLoop allowEmpty filter ns
end

/-- `transforms.py:160-218` `insert_region_options_around_subsequences`. -/
def insertRegions (seq : List (Node M)) (allowEmpty : Bool) (filter : Node M → Bool) :
    List (Node M) :=
  insertRegionsLoop allowEmpty filter seq ++ trailingRegion allowEmpty

mutual
/-- `transforms.py:242-269`, one iteration of the loop of
`insert_region_options_around_single_nodes`; `scope` is the match type `"region_scope"`. -/
def insertSingleNode (scope : M) : Node M → Node M
  | .group cs mt => .group [.rstart, .group (insertRegionsSingle scope cs) mt, .rend] scope
  | .tok t mt => .group [.rstart, .tok t mt, .rend] scope
  | .deco t => .deco t
  | .rstart => .rstart
  | .rend => .rend
  | .exit => .exit
/-- `transforms.py:221-271` `insert_region_options_around_single_nodes`. -/
def insertRegionsSingle (scope : M) : List (Node M) → List (Node M)
  | [] => []
  | n :: ns => insertSingleNode scope n :: insertRegionsSingle scope ns
end

/-- Python slice `s[i:]` for an integer `i` (negative indices count from the end). -/
def pySliceFrom (t : Text) (i : Int) : Text :=
  if 0 ≤ i then t.drop i.toNat else t.drop (t.length + i).toNat

/-- The mutable state of `truncate_prefix_at_offset` (`transforms.py:292-295`):
`none` = `past_start_point`, `some k` = not yet past, `prefix_chars_seen_so_far = k`. -/
abbrev TruncState := Option Nat

/-- `transforms.py:319-335`: processing of a text node with contents `t`; `mk` rebuilds the node
with replaced contents. -/
def truncText (off : Int) (st : TruncState) (t : Text) (mk : Text → Node M) :
    TruncState × List (Node M) :=
  match st with
  | none => (none, [mk t])
  | some seen =>
    let into : Int := off - seen
    if into < t.length then (none, [mk (pySliceFrom t into)])
    else if into = t.length then (none, [])
    else (some (seen + t.length), [])

/-- `transforms.py:345-346`: control nodes are kept once past the start point. -/
def truncCtl (st : TruncState) (n : Node M) : TruncState × List (Node M) :=
  match st with
  | none => (none, [n])
  | some k => (some k, [])

mutual
/-- `transforms.py:302-348`, one iteration of the loop of `process_subsequence`. When not yet past
the start point after a group, the group is dropped (the `assert` on line 313 is proved in
`Lemmas/Transforms.lean`: `truncL_nil_of_some`). -/
def truncNode (off : Int) (st : TruncState) : Node M → TruncState × List (Node M)
  | .group cs mt =>
      let (st', cs') := truncL off st cs
      match st' with
      | none => (none, [.group cs' mt])
      | some k => (some k, [])
  | .deco t => truncText off st t (fun t' => .deco t')
  | .tok t mt => truncText off st t (fun t' => .tok t' mt)
  | .rstart => truncCtl st .rstart
  | .rend => truncCtl st .rend
  | .exit => truncCtl st .exit
/-- `transforms.py:297-348` `process_subsequence`. -/
def truncL (off : Int) (st : TruncState) : List (Node M) → TruncState × List (Node M)
  | [] => (st, [])
  | n :: ns =>
      let (st1, out1) := truncNode off st n
      let (st2, out2) := truncL off st1 ns
      (st2, out1 ++ out2)
end

/-- `transforms.py:274-350` `truncate_prefix_at_offset`. -/
def truncatePrefix (seq : List (Node M)) (off : Int) : List (Node M) :=
  (truncL off (some 0) seq).2

mutual
/-- `transforms.py:358-381`, one iteration of the loop of `strip_decision_nodes`. -/
def stripNode : Node M → List (Node M)
  | .group cs mt => [.group (stripDecisions cs) mt]
  | .tok t mt => [.tok t mt]
  | .deco t => [.deco t]
  | .rstart => []
  | .rend => []
  | .exit => []
/-- `transforms.py:353-383` `strip_decision_nodes`. -/
def stripDecisions : List (Node M) → List (Node M)
  | [] => []
  | n :: ns => stripNode n ++ stripDecisions ns
end

end RUSure
