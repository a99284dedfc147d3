import Verif.Model.Dual

/-!
# The dual solver in memory

The other models of the solver treat a system as a value: an operation returns a new system. The code
mutates numpy arrays in place, and two systems may hold the same arrays. Here arrays live in a memory,
systems hold references, and every operation of the solver reads and writes the memory in the order of
the code.

Conventions and simplifications:
* An array is identified by a number. Matrices (`penalties`, `extra_unary_costs`), vectors
  (`prefix_table`, `suffix_table`) and scalars (`*_valid_*_tag`, arrays of shape `()`) are kept in
  three tables; one counter gives the numbers of new arrays.
* Only arrays the code mutates are in memory. The DAG, `dag_variable_index_map`,
  `dag_update_proportions`, the variable keys and the variable values are never written, are shared by
  clones, and are values here.
* Temporary arrays made within one function (`np.zeros`, `np.where`, `np.full`, arithmetic) are values.
  `a[i, :] = b` copies the entries of `b`, so a temporary never becomes part of a system.
* Costs are exact and entries outside an array are not errors, as in `Model/PackedDag.lean`. After an
  exception there is no memory (`none`).
-/

namespace RUSure.Memory

/-- The arrays in memory. -/
structure Heap where
  mats : Nat → Nat → Nat → Cost
  rows : Nat → Nat → Cost
  tags : Nat → Nat
  /-- The number of the next new array. -/
  next : Nat

namespace Heap

/-- Overwriting a matrix. -/
def setMat (h : Heap) (l : Nat) (t : Nat → Nat → Cost) : Heap :=
  { h with mats := fun i => if i = l then t else h.mats i }

/-- Overwriting a vector. -/
def setRow (h : Heap) (l : Nat) (t : Nat → Cost) : Heap :=
  { h with rows := fun i => if i = l then t else h.rows i }

/-- `a[()] = n`. -/
def setTag (h : Heap) (l : Nat) (n : Nat) : Heap :=
  { h with tags := fun i => if i = l then n else h.tags i }

/-- A new matrix: the memory and the number of the array. -/
def newMat (h : Heap) (t : Nat → Nat → Cost) : Heap × Nat :=
  ({ h.setMat h.next t with next := h.next + 1 }, h.next)

/-- A new vector. -/
def newRow (h : Heap) (t : Nat → Cost) : Heap × Nat :=
  ({ h.setRow h.next t with next := h.next + 1 }, h.next)

/-- A new array of shape `()`. -/
def newTag (h : Heap) (n : Nat) : Heap × Nat :=
  ({ h.setTag h.next n with next := h.next + 1 }, h.next)

end Heap

/-! ## Tables -/

/-- `packed_dags.py:956-1033` `PenalizedShortestPrefixSuffixTables`: a tuple of arrays. -/
structure MemoRef where
  dag : PackedDag
  pen : Nat
  pre : Nat
  suf : Nat
  pv : Nat
  sv : Nat

/-- The contents of the arrays of a memo. -/
def Heap.memo (h : Heap) (r : MemoRef) : Memo :=
  ⟨r.dag, h.mats r.pen, h.rows r.pre, h.rows r.suf, h.tags r.pv, h.tags r.sv⟩

/-- `packed_dags.py:1037-1058` `empty_table`; the penalties are copied. -/
def emptyTable (invalid : Cost) (h : Heap) (d : PackedDag) (pen : Penalties) : Heap × MemoRef :=
  let a := h.newMat pen
  let b := a.1.newRow (fun _ => invalid)
  let c := b.1.newRow (fun _ => invalid)
  let e := c.1.newTag 0
  let f := e.1.newTag (d.numKeys + 1)
  (f.1, ⟨d, a.2, b.2, c.2, e.2, f.2⟩)

/-- `packed_dags.py:1075-1088` `copy_memo`. The DAG is shared. -/
def copyMemo (h : Heap) (r : MemoRef) : Heap × MemoRef :=
  let a := h.newMat (h.mats r.pen)
  let b := a.1.newRow (a.1.rows r.pre)
  let c := b.1.newRow (b.1.rows r.suf)
  let e := c.1.newTag (c.1.tags r.pv)
  let f := e.1.newTag (e.1.tags r.sv)
  (f.1, ⟨r.dag, a.2, b.2, c.2, e.2, f.2⟩)

/-- `packed_dags.py:1120-1190` `update_prefixes_up_to`. `was_valid_tag` is not a copy but the array
itself: it is read again at each use. -/
def updatePrefixes (h : Heap) (r : MemoRef) (τ : Nat) : Heap :=
  if τ + 1 ≤ h.tags r.pv then h
  else
    let h1 := h.setRow r.pre (fun s =>
      if r.dag.sb (h.tags r.pv) ≤ s ∧ s < r.dag.sb (τ + 1) then ⊤ else h.rows r.pre s)
    let start := if h1.tags r.pv = 0 then 0 else r.dag.eb (2 * (h1.tags r.pv - 1) + 1)
    let h2 := if h1.tags r.pv = 0 then h1.setRow r.pre (setEntry (h1.rows r.pre) 0 0) else h1
    let stop := r.dag.eb (2 * τ + 1)
    let h3 := (r.dag.edgeRange start stop).foldl
      (fun (h : Heap) e => h.setRow r.pre (relaxDest (h.mats r.pen) (h.rows r.pre) e)) h2
    h3.setTag r.pv (τ + 1)

/-- `packed_dags.py:1194-1268` `update_suffixes_up_to`. -/
def updateSuffixes (h : Heap) (r : MemoRef) (τ : Nat) : Heap :=
  if h.tags r.sv ≤ τ then h
  else
    let h1 := h.setRow r.suf (fun s =>
      if r.dag.sb τ ≤ s ∧ s < r.dag.sb (h.tags r.sv) then ⊤ else h.rows r.suf s)
    let stop := if h1.tags r.sv = r.dag.numKeys + 1 then r.dag.eb (2 * r.dag.numKeys + 1)
      else r.dag.eb (2 * h1.tags r.sv)
    let h2 := if h1.tags r.sv = r.dag.numKeys + 1 then
      h1.setRow r.suf (setEntry (h1.rows r.suf) (r.dag.numStates - 1) 0) else h1
    let start := if τ = 0 then 0 else r.dag.eb (2 * τ)
    let h3 := (r.dag.edgeRange start stop).reverse.foldl
      (fun (h : Heap) e => h.setRow r.suf (relaxSource (h.mats r.pen) (h.rows r.suf) e)) h2
    h3.setTag r.sv τ

/-- `packed_dags.py:1272-1300` `set_penalties`. -/
def setPenalties (h : Heap) (r : MemoRef) (v : Nat) (p : Nat → Cost) : Heap :=
  let h1 := h.setMat r.pen (fun k => if k = v then p else h.mats r.pen k)
  let h2 := h1.setTag r.pv (min (h1.tags r.pv) (v + 1))
  h2.setTag r.sv (max (h2.tags r.sv) (v + 1))

/-- `packed_dags.py:1311-1360` `compute_min_marginals_for_variable`. -/
def minMarginals (h : Heap) (r : MemoRef) (v : Nat) : Option (Heap × (Nat → Cost)) :=
  if v < r.dag.numKeys then
    let h1 := updatePrefixes h r v
    let h2 := updateSuffixes h1 r (v + 1)
    some (h2, (r.dag.edgeRange (r.dag.eb (2 * v + 1)) (r.dag.eb (2 * v + 2))).foldl
      (marginalStep (h2.memo r) v) (fun _ => ⊤))
  else none

/-- `packed_dags.py:1406-1434` `compute_minimal_cost` with the default strategy. -/
def minimalCost (h : Heap) (r : MemoRef) : Option (Heap × Cost) :=
  if r.dag.numKeys = 0 then none
  else
    let target := min (h.tags r.sv - 1) (r.dag.numKeys - 1)
    match minMarginals h r target with
    | none => none
    | some (h', mm) => some (h', arrayMin r.dag.numValues mm)

/-! ## Systems -/

/-- One subproblem of `DualDecompositionDiagramSystemComputationData`
(`consistent_path_dual_solver.py:64-114`). -/
structure SubRef where
  memo : MemoRef
  index : Nat → Option Nat
  weight : ℚ

/-- `consistent_path_dual_solver.py:64-114` `DualDecompositionDiagramSystemComputationData`. -/
structure SystemRef where
  subs : List SubRef
  extra : Nat
  numKeys : Nat
  numValues : Nat

/-- `consistent_path_dual_solver.py:117-135` `DualDecompositionDiagramSystem`. -/
structure DualRef (K V : Type) where
  data : SystemRef
  keys : List K
  values : List V

/-- The contents of a subproblem. -/
def Heap.sub (h : Heap) (s : SubRef) : Sub := ⟨h.memo s.memo, s.index, s.weight⟩

/-- The contents of the arrays of a system. -/
def Heap.system (h : Heap) (r : SystemRef) : System :=
  ⟨r.subs.map h.sub, h.mats r.extra, r.numKeys, r.numValues⟩

/-- The contents of a system. -/
def Heap.dual {K V : Type} (h : Heap) (r : DualRef K V) : DualSystem K V :=
  ⟨h.system r.data, r.keys, r.values⟩

section
variable {K V : Type} [LinearOrder K] [DecidableEq V]

/-- `consistent_path_dual_solver.py:248-250`: a new table for each DAG. -/
def makeSubs (invalid : Cost) (keys : List K) (weights : Option (List ℚ)) :
    List ((PackedDag × List K × List V) × Nat) → Heap → Heap × List SubRef
  | [], h => (h, [])
  | x :: xs, h =>
    let a := emptyTable invalid h x.1.1 (fun _ _ => 0)
    let b := makeSubs invalid keys weights xs a.1
    (b.1, ⟨a.2, indexColumn keys x.1.2.1, subWeight weights x.2⟩ :: b.2)

/-- `consistent_path_dual_solver.py:167-266` `make_system`. -/
def makeSystem (invalid : Cost) (h : Heap) (dags : List (PackedDag × List K × List V))
    (weights : Option (List ℚ)) : Except SystemError (Heap × DualRef K V) :=
  match dags with
  | [] => .error .noDags
  | d :: ds =>
    if ds.any (fun d' => decide (d'.2.2 ≠ d.2.2)) then .error .valuesDiffer
    else
      let keys := systemKeys (d :: ds)
      let a := h.newMat (fun _ _ => 0)
      let b := makeSubs invalid keys weights (d :: ds).zipIdx a.1
      .ok (b.1, ⟨⟨b.2, a.2, keys.length, d.2.2.length⟩, keys, d.2.2⟩)

end

/-- `consistent_path_dual_solver.py:313-322` `_clone_memos`. -/
def cloneSubs : List SubRef → Heap → Heap × List SubRef
  | [], h => (h, [])
  | s :: ss, h =>
    let a := copyMemo h s.memo
    let b := cloneSubs ss a.1
    (b.1, ⟨a.2, s.index, s.weight⟩ :: b.2)

/-- `consistent_path_dual_solver.py:292-310` `clone_system_data`. -/
def cloneData (h : Heap) (r : SystemRef) : Heap × SystemRef :=
  let a := cloneSubs r.subs h
  let b := a.1.newMat (a.1.mats r.extra)
  (b.1, ⟨a.2, b.2, r.numKeys, r.numValues⟩)

/-- `consistent_path_dual_solver.py:269-289` `clone_system`. -/
def cloneSystem {K V : Type} (h : Heap) (r : DualRef K V) : Heap × DualRef K V :=
  let a := cloneData h r.data
  (a.1, ⟨a.2, r.keys, r.values⟩)

/-- `consistent_path_dual_solver.py:332-347`: the loop of `system_min_marginals`. -/
def marginalsLoop (v : Nat) : List SubRef → Heap → (Nat → Cost) → Option (Heap × (Nat → Cost))
  | [], h, t => some (h, t)
  | s :: ss, h, t =>
    match s.index v with
    | none =>
      match minimalCost h s.memo with
      | none => none
      | some (h', c) => marginalsLoop v ss h' (fun x => t x + c)
    | some k =>
      match minMarginals h s.memo k with
      | none => none
      | some (h', mm) => marginalsLoop v ss h' (fun x => t x + mm x)

/-- `consistent_path_dual_solver.py:323-349` `system_min_marginals`. -/
def systemMarginals (h : Heap) (r : SystemRef) (v : Nat) : Option (Heap × (Nat → Cost)) :=
  marginalsLoop v r.subs h (fun _ => 0)

/-- `consistent_path_dual_solver.py:533-564`: the first loop of `min_marginal_average`, with the
accumulated `subprob_info`. -/
def averageOpen (v : Nat) : List SubRef → Heap → AverageState →
    Option (Heap × List (SubRef × Option (Nat × (Nat → Cost))) × AverageState)
  | [], h, st => some (h, [], st)
  | s :: ss, h, st =>
    match s.index v with
    | none =>
      match minimalCost h s.memo with
      | none => none
      | some (h', c) =>
        match averageOpen v ss h' { st with skipped := st.skipped + c } with
        | none => none
        | some (h'', info, st') => some (h'', (s, none) :: info, st')
    | some k =>
      match minMarginals (setPenalties h s.memo k (fun _ => 0)) s.memo k with
      | none => none
      | some (h', mm) =>
        match averageOpen v ss h'
            { st with total := fun x => st.total x + mm x, weight := st.weight + s.weight } with
        | none => none
        | some (h'', info, st') => some (h'', (s, some (k, mm)) :: info, st')

/-- `consistent_path_dual_solver.py:572-598`: the second loop of `min_marginal_average`. -/
def averageClose (total : Nat → Cost) (W : ℚ) :
    List (SubRef × Option (Nat × (Nat → Cost))) → Heap → Heap
  | [], h => h
  | (_, none) :: info, h => averageClose total W info h
  | (s, some (k, mm)) :: info, h =>
    averageClose total W info
      (setPenalties h s.memo k (fun x => newPenalty (total x) (s.weight / W) (mm x)))

/-- `consistent_path_dual_solver.py:352-612` `min_marginal_average`. -/
def average (h : Heap) (r : SystemRef) (v : Nat) : Option (Heap × Cost) :=
  match averageOpen v r.subs h ⟨fun _ => 0, 0, 0⟩ with
  | none => none
  | some (h', info, st) =>
    let total := fun x => st.total x + h'.mats r.extra v x
    some (averageClose total st.weight info h', arrayMin r.numValues total + st.skipped)

/-! ## Sweeps -/

/-- The state of `solve_system_with_sweeps` (lines 676-693): the memory and the recorded lists. -/
structure Sweep where
  heap : Heap
  last : Option Cost
  objectiveAtStep : List Cost
  variableAtStep : List Nat
  objectiveAtSweep : List (Option Cost)
  stepsAtSweep : List Nat

/-- `consistent_path_dual_solver.py:707-717`: one sweep. -/
def runSweep (tol : ℚ) (r : SystemRef) : List Nat → Sweep → Bool → Option (Sweep × Bool)
  | [], st, c => some (st, c)
  | v :: vs, st, c =>
    match average st.heap r v with
    | none => none
    | some (h', b) =>
      runSweep tol r vs
        { st with
          heap := h'
          last := some b
          objectiveAtStep := st.objectiveAtStep ++ [b]
          variableAtStep := st.variableAtStep ++ [v] }
        (c || improved st.last b tol)

/-- `consistent_path_dual_solver.py:719-726`: recording a finished sweep. -/
def Sweep.record (st : Sweep) : Sweep :=
  { st with
    objectiveAtSweep := st.objectiveAtSweep ++ [st.last]
    stepsAtSweep := st.stepsAtSweep ++ [st.objectiveAtStep.length] }

/-- `consistent_path_dual_solver.py:695-734`: the main loop, for a bounded number of iterations. -/
def solveLoop (tol : ℚ) (late : Nat → Bool) (r : SystemRef) : Nat → Sweep → Except SolveError Sweep
  | 0, _ => .error .running
  | fuel + 1, st =>
    match runSweep tol r (forwardVars r.numKeys) st false with
    | none => .error .assertion
    | some (st1, c1) =>
      let st1 := st1.record
      if late st1.objectiveAtSweep.length then
        if c1 then solveLoop tol late r fuel st1 else .ok st1
      else
        match runSweep tol r (reverseVars r.numKeys) st1 c1 with
        | none => .error .assertion
        | some (st2, c2) =>
          let st2 := st2.record
          if c2 then solveLoop tol late r fuel st2 else .ok st2

/-- `consistent_path_dual_solver.py:638-745` `solve_system_with_sweeps`. -/
def solve (h : Heap) (r : SystemRef) (tol : ℚ) (late : Nat → Bool) (fuel : Nat) :
    Except SolveError Sweep :=
  solveLoop tol late r fuel ⟨h, none, [], [], [], []⟩

/-! ## Extraction and commitment -/

/-- `consistent_path_dual_solver.py:797-810` (and `984-997`): the loop forbidding values in the
subproblems. -/
def forbidSubs (v : Nat) (bad : Nat → Bool) : List SubRef → Heap → Heap
  | [], h => h
  | s :: ss, h =>
    match s.index v with
    | none => forbidSubs v bad ss h
    | some k =>
      forbidSubs v bad ss
        (setPenalties h s.memo k (fun x => if bad x then ⊤ else h.mats s.memo.pen k x))

/-- `consistent_path_dual_solver.py:788-810` (and `977-997`): forbidding values of a variable. -/
def forbid (h : Heap) (r : SystemRef) (v : Nat) (bad : Nat → Bool) : Heap :=
  forbidSubs v bad r.subs
    (h.setMat r.extra (fun u x => if u = v ∧ bad x = true then ⊤ else h.mats r.extra u x))

/-- `consistent_path_dual_solver.py:782-810`: the loop of `greedy_extract`. -/
def greedyLoop (r : SystemRef) : List Nat → Heap → (Nat → Nat) → Option Cost →
    Option (Heap × (Nat → Nat) × Option Cost)
  | [], h, a, c => some (h, a, c)
  | v :: vs, h, a, _ =>
    match systemMarginals h r v with
    | none => none
    | some (h', mm) =>
      if r.numValues = 0 then none else
      let choice := argMin r.numValues mm
      greedyLoop r vs (forbid h' r v (fun x => decide (x ≠ choice)))
        (fun u => if u = v then choice else a u) (some (mm choice))

/-- `consistent_path_dual_solver.py:748-813` `greedy_extract`. -/
def greedy (h : Heap) (r : SystemRef) (dir : Direction) :
    Option (Heap × List Nat × Option Cost) :=
  let a := cloneData h r
  match greedyLoop a.2 (dir.order a.2.numKeys) a.1 (fun _ => 0) none with
  | none => none
  | some (h', f, c) => some (h', (List.range a.2.numKeys).map f, c)

/-- `consistent_path_dual_solver.py:903-912`: aggregated min-marginals. -/
def collectMarginals (r : SystemRef) : List Nat → Heap → (Nat → Nat → Cost) →
    Option (Heap × (Nat → Nat → Cost))
  | [], h, agg => some (h, agg)
  | v :: vs, h, agg =>
    match systemMarginals h r v with
    | none => none
    | some (h', mm) => collectMarginals r vs h' (fun u => if u = v then mm else agg u)

/-- `consistent_path_dual_solver.py:962-997`: the loop forbidding values. -/
def commitLoop (gap : Cost) (r : SystemRef) : List Nat → Heap → Cost → Nat →
    Option (Heap × Cost × Nat)
  | [], h, bound, count => some (h, bound, count)
  | v :: vs, h, bound, count =>
    match systemMarginals h r v with
    | none => none
    | some (h', mm) =>
      let best := arrayMin r.numValues mm
      let bound' := if bound < best then best else bound
      let bad := fun x => decide (bound' + gap < mm x)
      let new := ((List.range r.numValues).filter fun x => bad x && decide (mm x < ⊤)).length
      commitLoop gap r vs (forbid h' r v bad) bound' (count + new)

/-- `consistent_path_dual_solver.py:824-1003` `partially_commit`. -/
def partiallyCommit (h : Heap) (r : SystemRef) (dir : Direction)
    (quantile : (Nat → Nat → Cost) → Quantile) (strictness epsilon : ℚ) :
    Option (Heap × CommitStatus) :=
  if r.numKeys = 0 then none
  else
    match collectMarginals r (dir.order r.numKeys) h (fun _ _ => 0) with
    | none => none
    | some (h1, agg) =>
      let bounds := (List.range r.numKeys).map fun v => arrayMin r.numValues (agg v)
      let bound := bounds.foldl max (bounds.headD 0)
      let commit := fun (gap : ℚ) =>
        (commitLoop ((gap * strictness : ℚ) : Cost) r (dir.order r.numKeys) h1 bound 0).map fun x =>
          (x.1, if x.2.2 = 0 then CommitStatus.stuck else CommitStatus.madePartialAssignment)
      match quantile agg with
      | .negInf => some (h1, .needsGreedyExtract)
      | .nan => commit 0
      | .val q =>
        if (q : Cost) ≤ bound + (epsilon : Cost) then some (h1, .needsGreedyExtract)
        else commit (max 0 (q - bound.untopD 0))

/-! ## Constraints -/

/-- `consistent_path_dual_solver.py:1065-1080` and `1131-1146`: the loop dividing extra costs among the
subproblems. -/
def addUnarySubs (v : Nat) (p : Nat → Cost) (n : Nat) : List SubRef → Heap → Heap
  | [], h => h
  | s :: ss, h =>
    match s.index v with
    | none => addUnarySubs v p n ss h
    | some k =>
      addUnarySubs v p n ss (setPenalties h s.memo k
        (fun x => h.mats s.memo.pen k x + (p x).map (· / (n : ℚ))))

/-- `consistent_path_dual_solver.py:1053-1080` and `1119-1146`. -/
def addUnary (h : Heap) (r : SystemRef) (v : Nat) (p : Nat → Cost) : Heap :=
  addUnarySubs v p (r.subs.filter fun s => (s.index v).isSome).length r.subs
    (h.setMat r.extra (fun u x => if u = v then h.mats r.extra u x + p x else h.mats r.extra u x))

/-- `consistent_path_dual_solver.py:1028-1080` `constrain_system`; `none` is a `KeyError`. -/
def constrain {K V : Type} [DecidableEq K] [DecidableEq V] (penalty : Cost) (r : DualRef K V) :
    List (K × V) → Heap → Option Heap
  | [], h => some h
  | (k, x) :: cs, h =>
    match dictIndex r.keys k, dictIndex r.values x with
    | some v, some i =>
      constrain penalty r cs (addUnary h r.data v (setEntry (fun _ => penalty) i 0))
    | _, _ => none

/-- `consistent_path_dual_solver.py:1083-1146` `break_symmetry_randomly`. -/
def breakSymmetry (h : Heap) (r : SystemRef) (noise : Nat → Nat → ℚ) : Heap :=
  (List.range r.numKeys).foldl
    (fun (h : Heap) v => addUnary h r v (fun x => (noise v x : Cost))) h

/-! ## Programs -/

/-- An operation on one system. -/
inductive Op (K V : Type) where
  /-- `system_min_marginals` -/
  | marginals (v : Nat)
  /-- `min_marginal_average` -/
  | average (v : Nat)
  /-- `solve_system_with_sweeps` -/
  | sweeps (tol : ℚ) (late : Nat → Bool) (fuel : Nat)
  /-- `greedy_extract` -/
  | greedy (dir : Direction)
  /-- `partially_commit` -/
  | commit (dir : Direction) (quantile : (Nat → Nat → Cost) → Quantile) (strictness epsilon : ℚ)
  /-- `constrain_system` -/
  | constrain (penalty : Cost) (constraints : List (K × V))
  /-- `break_symmetry_randomly` -/
  | noise (draw : Nat → Nat → ℚ)

/-- What an operation returns. -/
inductive Output where
  | vector (t : Nat → Cost)
  | cost (c : Cost)
  | trace (objectiveAtStep : List Cost) (variableAtStep : List Nat)
      (objectiveAtSweep : List (Option Cost)) (stepsAtSweep : List Nat)
  | solution (a : List Nat) (c : Option Cost)
  | status (s : CommitStatus)
  | done

/-- A statement of a program that holds a list of systems. -/
inductive Command (K V : Type) where
  /-- `make_system`; the new system is appended to the list. -/
  | make (dags : List (PackedDag × List K × List V)) (weights : Option (List ℚ))
  /-- `clone_system` of the `i`-th system; the clone is appended to the list. -/
  | clone (i : Nat)
  /-- An operation on the `i`-th system. -/
  | run (i : Nat) (op : Op K V)

section
variable {K V : Type} [LinearOrder K] [DecidableEq V]

/-- An operation in memory; `none`: an exception, or the sweeps have not stopped. -/
def Op.inMemory (op : Op K V) (h : Heap) (r : DualRef K V) : Option (Heap × Output) :=
  match op with
  | .marginals v => (systemMarginals h r.data v).map fun x => (x.1, .vector x.2)
  | .average v => (Memory.average h r.data v).map fun x => (x.1, .cost x.2)
  | .sweeps tol late fuel =>
    match solve h r.data tol late fuel with
    | .error _ => none
    | .ok st => some (st.heap, .trace st.objectiveAtStep st.variableAtStep st.objectiveAtSweep
        st.stepsAtSweep)
  | .greedy dir => (Memory.greedy h r.data dir).map fun x => (x.1, .solution x.2.1 x.2.2)
  | .commit dir q s e => (partiallyCommit h r.data dir q s e).map fun x => (x.1, .status x.2)
  | .constrain p cs => (Memory.constrain p r cs h).map fun h' => (h', .done)
  | .noise n => some (breakSymmetry h r.data n, .done)

/-- Running a program: the memory, the systems and the results so far. -/
def runMemory (invalid : Cost) : List (Command K V) → Heap × List (DualRef K V) × List Output →
    Option (Heap × List (DualRef K V) × List Output)
  | [], st => some st
  | .make dags weights :: cs, (h, rs, out) =>
    match makeSystem invalid h dags weights with
    | .error _ => none
    | .ok (h', r) => runMemory invalid cs (h', rs ++ [r], out)
  | .clone i :: cs, (h, rs, out) =>
    match rs[i]? with
    | none => none
    | some r =>
      let a := cloneSystem h r
      runMemory invalid cs (a.1, rs ++ [a.2], out)
  | .run i op :: cs, (h, rs, out) =>
    match rs[i]? with
    | none => none
    | some r =>
      match op.inMemory h r with
      | none => none
      | some (h', o) => runMemory invalid cs (h', rs, out ++ [o])

end

end RUSure.Memory
