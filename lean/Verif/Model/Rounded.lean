import Verif.Model.PackedDag

/-!
# The shortest path tables of `packed_dags.py` in machine arithmetic

`Model/PackedDag.lean` computes with exact rational costs. This file models the same functions with
an arbitrary machine addition in place of exact addition, in the order in which the code adds.
Costs are `float64` (`gated_state_dag.py:53`, `COST_DTYPE`); an addition of floating point numbers is
the exact sum, rounded. All that is assumed about it is `Machine`. Comparisons and minima of floating
point numbers are exact. NaN and `-inf` do not occur unless a cost or penalty is one of them or a sum
overflows to `-inf`; these cases are not modelled.
-/

namespace RUSure.Rounded

/-- Addition of a machine: rounding may be anything that does not reverse the order of sums (every
IEEE 754 rounding mode is such), and adding to `+inf` gives `+inf`. -/
structure Machine where
  add : Cost → Cost → Cost
  mono : ∀ {a b c d : Cost}, a ≤ b → c ≤ d → add a c ≤ add b d
  top_left : ∀ c, add ⊤ c = ⊤
  top_right : ∀ c, add c ⊤ = ⊤

/-- Exact addition. -/
def exact : Machine := ⟨(· + ·), fun h h' => add_le_add h h', fun _ => WithTop.top_add _,
  fun _ => WithTop.add_top _⟩

/-- Addition that rounds the exact sum with `rd`; too large sums may become `+inf`. -/
def ofRounding (rd : ℚ → Cost) (h : ∀ {x y : ℚ}, x ≤ y → rd x ≤ rd y) : Machine where
  add
    | some x, some y => rd (x + y)
    | _, _ => ⊤
  mono := by
    intro a b c d h1 h2
    induction b using WithTop.recTopCoe
    · exact le_top
    · induction d using WithTop.recTopCoe
      · exact le_top
      · rename_i y z
        induction a using WithTop.recTopCoe
        · exact absurd h1 (by simp)
        · induction c using WithTop.recTopCoe
          · exact absurd h2 (by simp)
          · exact h (add_le_add (WithTop.coe_le_coe.1 h1) (WithTop.coe_le_coe.1 h2))
  top_left := fun _ => rfl
  top_right := fun c => by cases c <;> rfl

variable (A : Machine)

/-- `packed_dags.py:1168-1188`: loop body of `update_prefixes_up_to`. -/
def relaxDest (pen : Penalties) (t : Nat → Cost) (e : PackedEdge) : Nat → Cost :=
  setEntry t e.dest (min (t e.dest) (A.add (A.add (t e.source) e.cost) (e.penalty pen)))

/-- `packed_dags.py:1120-1190` `update_prefixes_up_to`. -/
def updatePrefixes (m : Memo) (τ : Nat) : Memo :=
  if τ + 1 ≤ m.pv then m
  else
    let t0 := fun s => if m.dag.sb m.pv ≤ s ∧ s < m.dag.sb (τ + 1) then ⊤ else m.prefixTable s
    let start := if m.pv = 0 then 0 else m.dag.eb (2 * (m.pv - 1) + 1)
    let t1 := if m.pv = 0 then setEntry t0 0 0 else t0
    let stop := m.dag.eb (2 * τ + 1)
    { m with
      prefixTable := (m.dag.edgeRange start stop).foldl (relaxDest A m.pen) t1
      pv := τ + 1 }

/-- `packed_dags.py:1246-1266`: loop body of `update_suffixes_up_to`. -/
def relaxSource (pen : Penalties) (t : Nat → Cost) (e : PackedEdge) : Nat → Cost :=
  setEntry t e.source (min (t e.source) (A.add (A.add (t e.dest) e.cost) (e.penalty pen)))

/-- `packed_dags.py:1194-1268` `update_suffixes_up_to`. -/
def updateSuffixes (m : Memo) (τ : Nat) : Memo :=
  if m.sv ≤ τ then m
  else
    let t0 := fun s => if m.dag.sb τ ≤ s ∧ s < m.dag.sb m.sv then ⊤ else m.suffixTable s
    let stop := if m.sv = m.dag.numKeys + 1 then m.dag.eb (2 * m.dag.numKeys + 1)
      else m.dag.eb (2 * m.sv)
    let t1 := if m.sv = m.dag.numKeys + 1 then setEntry t0 (m.dag.numStates - 1) 0 else t0
    let start := if τ = 0 then 0 else m.dag.eb (2 * τ)
    { m with
      suffixTable := (m.dag.edgeRange start stop).reverse.foldl (relaxSource A m.pen) t1
      sv := τ }

/-- `packed_dags.py:1304-1307` `make_fully_valid`. -/
def makeFullyValid (m : Memo) : Memo :=
  updateSuffixes A (updatePrefixes A m m.dag.numKeys) 0

/-- `packed_dags.py:1340-1359`: loop body of `compute_min_marginals_for_variable`. -/
def marginalStep (m : Memo) (v : Nat) (t : Nat → Cost) (e : PackedEdge) : Nat → Cost :=
  match e.req with
  | none => t
  | some (_, x) =>
    setEntry t x (min (t x) (A.add (A.add (A.add (m.prefixTable e.source) e.cost) (m.pen v x))
      (m.suffixTable e.dest)))

/-- `packed_dags.py:1311-1360` `compute_min_marginals_for_variable`. -/
def minMarginals (m : Memo) (v : Nat) : Option (Memo × (Nat → Cost)) :=
  if v < m.dag.numKeys then
    let m' := updateSuffixes A (updatePrefixes A m v) (v + 1)
    some (m', (m'.dag.edgeRange (m'.dag.eb (2 * v + 1)) (m'.dag.eb (2 * v + 2))).foldl
      (marginalStep A m' v) (fun _ => ⊤))
  else none

/-- `packed_dags.py:1364-1385` `compute_all_min_marginals`. -/
def allMinMarginals (m : Memo) : Memo × (Nat → Nat → Option Cost) :=
  (List.range m.dag.numKeys).foldl
    (fun (acc : Memo × (Nat → Nat → Option Cost)) v =>
      match minMarginals A acc.1 v with
      | none => acc
      | some (m', mm) => (m', fun k x => if k = v then some (mm x) else acc.2 k x))
    (makeFullyValid A m, fun _ _ => none)

/-- `packed_dags.py:1406-1434` `compute_minimal_cost`. -/
def minimalCost (m : Memo) (strategy : Strategy) : Option (Memo × Cost) :=
  match strategy with
  | .atStart =>
    let m' := updateSuffixes A m 0
    some (m', m'.suffixTable 0)
  | .atEnd =>
    let m' := updatePrefixes A m m.dag.numKeys
    some (m', m'.prefixTable (m.dag.numStates - 1))
  | .fromMiddle =>
    if m.dag.numKeys = 0 then none
    else
      let target := min (m.sv - 1) (m.dag.numKeys - 1)
      match minMarginals A m target with
      | none => none
      | some (m', mm) => some (m', arrayMin m.dag.numValues mm)

/-- `packed_dags.py:1473-1494`: loop body of the search for the best outgoing edge. -/
def bestStep (m : Memo) (best : (Nat × PackedEdge) × Cost × Nat) (o : Nat × PackedEdge) :
    (Nat × PackedEdge) × Cost × Nat :=
  let c := A.add (A.add (m.suffixTable o.2.dest) o.2.cost) (o.2.penalty m.pen)
  if c < best.2.1 then (o, c, o.2.dest) else best

/-- `packed_dags.py:1463-1509`: the `while` loop of the extraction, with a bound on the number of
iterations (the bound is proved not to matter). -/
def extractLoop (m : Memo) : Nat → Nat → Option (List (Nat × PackedEdge))
  | 0, _ => none
  | fuel + 1, s =>
    if s < m.dag.numStates - 1 then
      match m.dag.outgoing s with
      | [] => none
      | o :: os =>
        let best := (o :: os).foldl (bestStep A m) (o, ⊤, m.dag.numStates)
        (extractLoop m fuel best.2.2).map (best.1 :: ·)
    else some []

/-- `packed_dags.py:1437-1511` `extract_minimal_cost_path_and_assignments`, on packed indices. -/
def extractPath (m : Memo) : Option (Memo × List (Nat × PackedEdge) × List (Nat × Nat)) :=
  let m' := updateSuffixes A m 0
  (extractLoop A m' (m'.dag.edges.length + 1) 0).map fun p => (m', p, p.filterMap (·.2.req))

/-- `packed_dags.py:1514-1544` `constrained_best_path`, on packed indices. -/
def constrainedBestPath (invalid : Cost) (d : PackedDag) (constraints : List (Nat × Nat)) :
    Option (List (Nat × PackedEdge) × List (Nat × Nat)) :=
  let m := constraints.foldl
    (fun m kv => m.setPenalties kv.1 (setEntry (fun _ => ⊤) kv.2 0))
    (emptyUnpenalizedTable invalid d)
  (extractPath A m).map (·.2)

end RUSure.Rounded
