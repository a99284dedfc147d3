import Verif.Model.GatedDag

/-!
# Model of the packed DAGs and shortest path tables of `r_u_sure/decision_diagrams/packed_dags.py`

Conventions and simplifications:
* Numpy arrays of table entries are total functions on indices; reads and writes outside the array
  are not modelled as errors (they do not happen on well-formed packed DAGs).
* `float64` costs are exact (`Cost`), `INVALID_COST` (NaN) is an arbitrary parameter `invalid`:
  every theorem holds whatever value stands for it.
* Variable tags start at `-1` in the code (`last_variable_index`); the model shifts them by one, so
  tag `τ : Nat` stands for `τ - 1`. `prefixes_valid_ending_at_tag` is stored as `pv`, shifted by two
  (the code's `-2`, nothing valid, is `0`), and `suffixes_valid_starting_from_tag` as `sv`, shifted
  by one.
* In-place mutation of a memo is a function returning the new memo.
-/

namespace RUSure

/-- `packed_dags.py:65-71` `NUMPY_EDGE_STRUCT_DTYPE`; `req` is `none` where the code stores `-1`. -/
structure PackedEdge where
  source : Nat
  dest : Nat
  cost : Cost
  req : Option (Nat × Nat)

/-- `packed_dags.py:93-158` `PackedStateDAG`. -/
structure PackedDag where
  numStates : Nat
  numKeys : Nat
  numValues : Nat
  edges : List PackedEdge
  /-- `edge_group_boundary_indices` -/
  edgeBounds : List Nat
  /-- `state_variable_boundary_indices` -/
  stateBounds : List Nat

/-- `edge_group_boundary_indices[i]`. -/
def PackedDag.eb (d : PackedDag) (i : Nat) : Nat := d.edgeBounds.getD i 0

/-- `state_variable_boundary_indices[i]`. -/
def PackedDag.sb (d : PackedDag) (i : Nat) : Nat := d.stateBounds.getD i 0

/-- Penalty tables: `float64[num_variable_keys, num_values]`. -/
abbrev Penalties := Nat → Nat → Cost

/-- The penalty of an edge, as computed at `packed_dags.py:1178-1183` and elsewhere. -/
def PackedEdge.penalty (pen : Penalties) (e : PackedEdge) : Cost :=
  match e.req with
  | none => 0
  | some (k, v) => pen k v

/-- `packed_dags.py:942-953` `scale_packed_dag_costs`. Multiplying `inf` by a positive scale leaves
`inf`; a zero or negative scale gives NaN or `-inf` on infinite edges and is not modelled. -/
def PackedDag.scale (d : PackedDag) (c : ℚ) : PackedDag :=
  { d with edges := d.edges.map fun e => { e with cost := e.cost.map (· * c) } }

/-- `packed_dags.py:956-1033` `PenalizedShortestPrefixSuffixTables`. -/
structure Memo where
  dag : PackedDag
  pen : Penalties
  prefixTable : Nat → Cost
  suffixTable : Nat → Cost
  pv : Nat
  sv : Nat

/-- `packed_dags.py:1037-1058` `empty_table`. -/
def emptyTable (invalid : Cost) (d : PackedDag) (pen : Penalties) : Memo :=
  ⟨d, pen, fun _ => invalid, fun _ => invalid, 0, d.numKeys + 1⟩

/-- `packed_dags.py:1062-1072` `empty_unpenalized_table`. -/
def emptyUnpenalizedTable (invalid : Cost) (d : PackedDag) : Memo :=
  emptyTable invalid d (fun _ _ => 0)

/-- `packed_dags.py:1092-1101` `masked_prefixes`; `none` is `INVALID_COST`. -/
def Memo.maskedPrefixes (m : Memo) (s : Nat) : Option Cost :=
  if s < m.dag.numStates then if m.dag.sb m.pv ≤ s then none else some (m.prefixTable s) else none

/-- `packed_dags.py:1105-1116` `masked_suffixes`. -/
def Memo.maskedSuffixes (m : Memo) (s : Nat) : Option Cost :=
  if s < m.dag.numStates then if s < m.dag.sb m.sv then none else some (m.suffixTable s) else none

/-- `table[i] = c`. -/
def setEntry (t : Nat → Cost) (i : Nat) (c : Cost) : Nat → Cost := fun j => if j = i then c else t j

/-- `packed_edge_matrix[lo:hi]`. -/
def PackedDag.edgeRange (d : PackedDag) (lo hi : Nat) : List PackedEdge :=
  (d.edges.drop lo).take (hi - lo)

/-- `packed_dags.py:1168-1188`: loop body of `update_prefixes_up_to`. -/
def relaxDest (pen : Penalties) (t : Nat → Cost) (e : PackedEdge) : Nat → Cost :=
  setEntry t e.dest (min (t e.dest) (t e.source + e.cost + e.penalty pen))

/-- `packed_dags.py:1120-1190` `update_prefixes_up_to` for desired tag `τ` (asserted to be at most
`numKeys`). -/
def Memo.updatePrefixes (m : Memo) (τ : Nat) : Memo :=
  if τ + 1 ≤ m.pv then m
  else
    let t0 := fun s => if m.dag.sb m.pv ≤ s ∧ s < m.dag.sb (τ + 1) then ⊤ else m.prefixTable s
    let start := if m.pv = 0 then 0 else m.dag.eb (2 * (m.pv - 1) + 1)
    let t1 := if m.pv = 0 then setEntry t0 0 0 else t0
    let stop := m.dag.eb (2 * τ + 1)
    { m with
      prefixTable := (m.dag.edgeRange start stop).foldl (relaxDest m.pen) t1
      pv := τ + 1 }

/-- `packed_dags.py:1246-1266`: loop body of `update_suffixes_up_to`. -/
def relaxSource (pen : Penalties) (t : Nat → Cost) (e : PackedEdge) : Nat → Cost :=
  setEntry t e.source (min (t e.source) (t e.dest + e.cost + e.penalty pen))

/-- `packed_dags.py:1194-1268` `update_suffixes_up_to`; `suffix_table[-1]` is the entry of the last
state. -/
def Memo.updateSuffixes (m : Memo) (τ : Nat) : Memo :=
  if m.sv ≤ τ then m
  else
    let t0 := fun s => if m.dag.sb τ ≤ s ∧ s < m.dag.sb m.sv then ⊤ else m.suffixTable s
    let stop := if m.sv = m.dag.numKeys + 1 then m.dag.eb (2 * m.dag.numKeys + 1)
      else m.dag.eb (2 * m.sv)
    let t1 := if m.sv = m.dag.numKeys + 1 then setEntry t0 (m.dag.numStates - 1) 0 else t0
    let start := if τ = 0 then 0 else m.dag.eb (2 * τ)
    { m with
      suffixTable := (m.dag.edgeRange start stop).reverse.foldl (relaxSource m.pen) t1
      sv := τ }

/-- `packed_dags.py:1272-1300` `set_penalties`. -/
def Memo.setPenalties (m : Memo) (v : Nat) (p : Nat → Cost) : Memo :=
  { m with
    pen := fun k => if k = v then p else m.pen k
    pv := min m.pv (v + 1)
    sv := max m.sv (v + 1) }

/-- `packed_dags.py:1304-1307` `make_fully_valid`. -/
def Memo.makeFullyValid (m : Memo) : Memo :=
  (m.updatePrefixes m.dag.numKeys).updateSuffixes 0

/-- `packed_dags.py:1340-1359`: loop body of `compute_min_marginals_for_variable` (edges of the group
all carry an assignment of the variable: asserted). -/
def marginalStep (m : Memo) (v : Nat) (t : Nat → Cost) (e : PackedEdge) : Nat → Cost :=
  match e.req with
  | none => t
  | some (_, x) =>
    setEntry t x (min (t x) (m.prefixTable e.source + e.cost + m.pen v x + m.suffixTable e.dest))

/-- `packed_dags.py:1311-1360` `compute_min_marginals_for_variable`; `none` is the assertion error
for a variable index out of range. Returns the updated memo too. -/
def Memo.minMarginals (m : Memo) (v : Nat) : Option (Memo × (Nat → Cost)) :=
  if v < m.dag.numKeys then
    let m' := (m.updatePrefixes v).updateSuffixes (v + 1)
    some (m', (m'.dag.edgeRange (m'.dag.eb (2 * v + 1)) (m'.dag.eb (2 * v + 2))).foldl
      (marginalStep m' v) (fun _ => ⊤))
  else none

/-- `packed_dags.py:1364-1385` `compute_all_min_marginals`. -/
def Memo.allMinMarginals (m : Memo) : Memo × (Nat → Nat → Option Cost) :=
  (List.range m.dag.numKeys).foldl
    (fun (acc : Memo × (Nat → Nat → Option Cost)) v =>
      match acc.1.minMarginals v with
      | none => acc
      | some (m', mm) => (m', fun k x => if k = v then some (mm x) else acc.2 k x))
    (m.makeFullyValid, fun _ _ => none)

/-- `packed_dags.py:1388-1402` `MinimalCostComputationStrategy`. -/
inductive Strategy where
  | atEnd
  | atStart
  | fromMiddle
  deriving DecidableEq, Repr

/-- `np.min` of an array of `n` costs. -/
def arrayMin (n : Nat) (t : Nat → Cost) : Cost := ((List.range n).map t).foldl min ⊤

/-- `packed_dags.py:1406-1434` `compute_minimal_cost`. For `fromMiddle`, the target variable is
`suffixes_valid_starting_from_tag` clamped to `0..numKeys-1`; without variables it is `-1` and the
assertion in `compute_min_marginals_for_variable` fails. `np.min` of an empty array (no values) is
also an error in Python; with at least one variable there is at least one value. -/
def Memo.minimalCost (m : Memo) (strategy : Strategy) : Option (Memo × Cost) :=
  match strategy with
  | .atStart =>
    let m' := m.updateSuffixes 0
    some (m', m'.suffixTable 0)
  | .atEnd =>
    let m' := m.updatePrefixes m.dag.numKeys
    some (m', m'.prefixTable (m.dag.numStates - 1))
  | .fromMiddle =>
    if m.dag.numKeys = 0 then none
    else
      let target := min (m.sv - 1) (m.dag.numKeys - 1)
      match m.minMarginals target with
      | none => none
      | some (m', mm) => some (m', arrayMin m.dag.numValues mm)

/-! ## Path extraction -/

/-- `packed_dags.py:864-874` `outgoing_edge_indices_for_tagged_state_index[s]`: the indices of the
edges leaving `s`, in order, each paired with the edge. -/
def PackedDag.outgoing (d : PackedDag) (s : Nat) : List (Nat × PackedEdge) :=
  (d.edges.zipIdx.map fun x => (x.2, x.1)).filter fun x => x.2.source = s

/-- `packed_dags.py:1473-1494`: loop body of the search for the best outgoing edge. The state is the
best edge (with index), the best cost and the next state. -/
def bestStep (m : Memo) (best : (Nat × PackedEdge) × Cost × Nat) (o : Nat × PackedEdge) :
    (Nat × PackedEdge) × Cost × Nat :=
  let c := m.suffixTable o.2.dest + o.2.cost + o.2.penalty m.pen
  if c < best.2.1 then (o, c, o.2.dest) else best

/-- `packed_dags.py:1463-1509`: the `while` loop of the extraction, with a bound on the number of
iterations (the bound is proved not to matter). `none` is the failed assertion that the state has an
outgoing edge. -/
def extractLoop (m : Memo) : Nat → Nat → Option (List (Nat × PackedEdge))
  | 0, _ => none
  | fuel + 1, s =>
    if s < m.dag.numStates - 1 then
      match m.dag.outgoing s with
      | [] => none
      | o :: os =>
        let best := (o :: os).foldl (bestStep m) (o, ⊤, m.dag.numStates)
        (extractLoop m fuel best.2.2).map (best.1 :: ·)
    else some []

/-- `packed_dags.py:1437-1511` `extract_minimal_cost_path_and_assignments`, on packed indices: the
path and the assignments it makes in order. -/
def Memo.extractPath (m : Memo) : Option (Memo × List (Nat × PackedEdge) × List (Nat × Nat)) :=
  let m' := m.updateSuffixes 0
  (extractLoop m' (m'.dag.edges.length + 1) 0).map fun p => (m', p, p.filterMap (·.2.req))

/-- `packed_dags.py:1514-1544` `constrained_best_path`, on packed indices. -/
def PackedDag.constrainedBestPath (invalid : Cost) (d : PackedDag)
    (constraints : List (Nat × Nat)) : Option (List (Nat × PackedEdge) × List (Nat × Nat)) :=
  let m := constraints.foldl
    (fun m kv => m.setPenalties kv.1 (setEntry (fun _ => ⊤) kv.2 0))
    (emptyUnpenalizedTable invalid d)
  m.extractPath.map (·.2)

end RUSure
