import Verif.Model.Regions

/-!
# Model of `r_u_sure/edit_distance_utility/constraint_dags.py`

Simplification: the builders walk over ids of a packed storage; here they walk over the tree that is
packed. The preorder index of a node is the number of nodes before it, and the children of a group
are found through its id: that is what `C01`/`C02` prove about packing. `Model/StoredBuilders.lean`
models the builder over storages, and `C71` proves that it builds the same DAG.
-/

namespace RUSure

/-- `constraint_dags.py:78-88` `ConstraintDagStateCategory` without the final state. -/
inductive ConstraintCat where
  | outside
  | temporary
  | forced
  deriving DecidableEq, Repr

/-- `constraint_dags.py:106-131` `ConstraintDagState` and `FINAL_STATE` (lines 134-139), which has a
category of its own. The sequence index `none` is the root sequence (`-1`). -/
inductive ConstraintState where
  | at (cat : ConstraintCat) (seq : Option Nat) (pos : Nat) (level : Nat)
  | final
  deriving DecidableEq, Repr

/-- Edges of the constraint DAG; the info tells whether the edge is an early exit
(`constraint_dags.py:146-153`). -/
abbrev ConstraintEdge := Edge ConstraintState DecisionKey DecisionValue Bool

mutual
/-- Number of nodes of a node with everything below it. -/
def nodeSize {M : Type} : Node M → Nat
  | .group cs _ => 1 + seqSize cs
  | .deco _ => 1
  | .tok _ _ => 1
  | .rstart => 1
  | .rend => 1
  | .exit => 1
/-- Number of nodes of a sequence, at all depths. -/
def seqSize {M : Type} : List (Node M) → Nat
  | [] => 0
  | n :: ns => nodeSize n + seqSize ns
end

/-- An edge without assignment. -/
def plainEdge (s t : ConstraintState) : ConstraintEdge := ⟨s, t, 0, none, false⟩

/-- An edge with an assignment. -/
def decisionEdge (s t : ConstraintState) (i : Nat) (c : DecisionCategory) (v : DecisionValue) :
    ConstraintEdge := ⟨s, t, 0, some (⟨i, c⟩, v), false⟩

/-- An early exit edge. -/
def exitEdge (s : ConstraintState) (i : Nat) : ConstraintEdge :=
  ⟨s, .final, 0, some (⟨i, .exit⟩, .yes), true⟩

/-- `constraint_dags.py:190-198` `node_in_annotated_region_value`. -/
def inRegionValue : ConstraintCat → DecisionValue
  | .outside => .no
  | _ => .yes

/-- `constraint_dags.py:648-806`: the loop of `build_prototype_subgraph_inside_region` from position
`pos`, where `i` is the preorder index of the next node. -/
def insideEdges {M : Type} (seq : Option Nat) (level pos i : Nat) : List (Node M) →
    List ConstraintEdge
  | [] => []
  | n :: ns =>
    let before := ConstraintState.at .forced seq pos level
    let after := ConstraintState.at .forced seq (pos + 1) level
    (match n with
      | .deco _ => [plainEdge before after]
      | .tok _ _ => [decisionEdge before after i .inRegion .yes]
      | .group cs _ =>
        [decisionEdge before (.at .forced (some i) 0 level) i .inRegion .yes]
          ++ insideEdges (some i) level 0 (i + 1) cs
          ++ [plainEdge (.at .forced (some i) cs.length level) after]
      | .rstart => [decisionEdge before after i .start .na]
      | .rend => [decisionEdge before after i .stop .no]
      | .exit => [exitEdge before i, decisionEdge before after i .exit .no])
    ++ insideEdges seq level (pos + 1) (i + nodeSize n) ns

/-- `constraint_dags.py:313-600`: the loop of `build_prototype_subgraph_from_outside_region` from
position `pos`, where `i` is the preorder index of the next node. -/
def outsideEdges {M : Type} (seq : Option Nat) (level pos i : Nat) : List (Node M) →
    List ConstraintEdge
  | [] => []
  | n :: ns =>
    let before := fun c => ConstraintState.at c seq pos level
    let after := fun c => ConstraintState.at c seq (pos + 1) level
    (match n with
      | .deco _ =>
        [plainEdge (before .outside) (after .outside), plainEdge (before .temporary) (after .temporary)]
      | .tok _ _ =>
        [decisionEdge (before .outside) (after .outside) i .inRegion (inRegionValue .outside),
          decisionEdge (before .temporary) (after .temporary) i .inRegion (inRegionValue .temporary)]
      | .group cs _ =>
        [decisionEdge (before .outside) (.at .outside (some i) 0 (level + 1)) i .inRegion .no]
          ++ outsideEdges (some i) (level + 1) 0 (i + 1) cs
          ++ [plainEdge (.at .outside (some i) cs.length (level + 1)) (after .outside)]
          ++ [decisionEdge (before .temporary) (.at .forced (some i) 0 level) i .inRegion .yes]
          ++ insideEdges (some i) level 0 (i + 1) cs
          ++ [plainEdge (.at .forced (some i) cs.length level) (after .temporary)]
      | .rstart =>
        [decisionEdge (before .outside) (after .outside) i .start .no,
          decisionEdge (before .outside) (after .temporary) i .start .yes,
          decisionEdge (before .temporary) (after .temporary) i .start .na]
      | .rend =>
        [decisionEdge (before .temporary) (after .temporary) i .stop .no,
          decisionEdge (before .temporary) (after .outside) i .stop .yes,
          decisionEdge (before .outside) (after .outside) i .stop .na]
      | .exit =>
        [exitEdge (before .outside) i, decisionEdge (before .outside) (after .outside) i .exit .no,
          exitEdge (before .temporary) i,
          decisionEdge (before .temporary) (after .temporary) i .exit .no])
    ++ outsideEdges seq level (pos + 1) (i + nodeSize n) ns

/-- `constraint_dags.py:219-224`: the initial state. -/
def constraintInitial : ConstraintState := .at .outside none 0 0

/-- All edges `construct_constraint_dag` adds, in order (`constraint_dags.py:247-261`). -/
def constraintEdges {M : Type} (proto : List (Node M)) : List ConstraintEdge :=
  outsideEdges none 0 0 0 proto ++ [plainEdge (.at .outside none proto.length 0) .final]

/-- Adding edges one after the other; the first error is raised. -/
def PartialDag.addAll {S K V I : Type} [DecidableEq S] :
    List (Edge S K V I) → PartialDag S K V I → Except AddError (PartialDag S K V I)
  | [], d => .ok d
  | e :: es, d =>
    match d.addEdge e with
    | .error x => .error x
    | .ok d' => addAll es d'

/-- `constraint_dags.py:207-268` `construct_constraint_dag`. -/
def constructConstraintDag {M : Type} (proto : List (Node M)) :
    Except AddError (Dag ConstraintState DecisionKey DecisionValue Bool) :=
  match PartialDag.addAll (constraintEdges proto) (PartialDag.start constraintInitial) with
  | .error x => .error x
  | .ok d => .ok (d.finish .final)

end RUSure
