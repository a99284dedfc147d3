import Verif.Model.Convert

/-!
# Model of the dual solver `r_u_sure/decision_diagrams/consistent_path_dual_solver.py`

Conventions and simplifications:
* `dag_tables[i]`, the column `dag_variable_index_map[:, i]` and `dag_update_proportions[i]` are kept
  together in one record `Sub`; `-1` in the index map is `none`.
* Arrays over variables and values are functions; loops over the subproblems are recursions over the
  list of records, in order.
* Floats are exact: finite numbers are rationals, `inf` is `⊤`. Dividing or multiplying by positive
  numbers leaves `⊤` unchanged. `-inf`, the initial value of the best bound, is `none`.
* A failed assertion (a subproblem without variables, `packed_dags.py:1330`) or an exception makes
  the whole operation `none`; the partly mutated system it leaves behind is not modelled.
* Wall clock time is an arbitrary function telling after which sweeps the timeout has passed.
* `np.quantile` and random numbers are arbitrary parameters.
-/

namespace RUSure

/-- `consistent_path_dual_solver.py:64-114`: one subproblem of
`DualDecompositionDiagramSystemComputationData`. -/
structure Sub where
  memo : Memo
  index : Nat → Option Nat
  weight : ℚ

/-- `consistent_path_dual_solver.py:64-114` `DualDecompositionDiagramSystemComputationData`. -/
structure System where
  subs : List Sub
  extra : Nat → Nat → Cost
  numKeys : Nat
  numValues : Nat

/-- `consistent_path_dual_solver.py:117-135` `DualDecompositionDiagramSystem`, without the
conversion data. -/
structure DualSystem (K V : Type) where
  data : System
  keys : List K
  values : List V

/-- What `make_system` can raise (lines 183, 192). -/
inductive SystemError where
  | noDags
  | valuesDiffer
  deriving DecidableEq, Repr

section
variable {K V : Type} [LinearOrder K] [DecidableEq V]

/-- `consistent_path_dual_solver.py:138-150`, `225-235`: the keys of all DAGs, each once, sorted. -/
def systemKeys (dags : List (PackedDag × List K × List V)) : List K :=
  (firstSeen id (dags.flatMap fun d => d.2.1)).mergeSort (· ≤ ·)

/-- `consistent_path_dual_solver.py:153-164`, `237-246`: the column of the index map for one DAG. -/
def indexColumn (keys dagKeys : List K) (v : Nat) : Option Nat :=
  (keys[v]?).bind (dictIndex dagKeys)

/-- `consistent_path_dual_solver.py:186-187`: the weight of a subproblem. -/
def subWeight (weights : Option (List ℚ)) (i : Nat) : ℚ :=
  match weights with
  | none => 1
  | some w => w.getD i 0

/-- `consistent_path_dual_solver.py:167-271` `make_system`. Each DAG comes with the variable keys and
values of its conversion data. Without weights each subproblem has weight one. -/
def makeSystem (invalid : Cost) (dags : List (PackedDag × List K × List V))
    (weights : Option (List ℚ)) : Except SystemError (DualSystem K V) :=
  match dags with
  | [] => .error .noDags
  | d :: ds =>
    if ds.any (fun d' => decide (d'.2.2 ≠ d.2.2)) then .error .valuesDiffer
    else
      let keys := systemKeys (d :: ds)
      .ok {
        keys := keys
        values := d.2.2
        data := {
          subs := (d :: ds).zipIdx.map fun x =>
            ⟨emptyUnpenalizedTable invalid x.1.1, indexColumn keys x.1.2.1,
              subWeight weights x.2⟩
          extra := fun _ _ => 0
          numKeys := keys.length
          numValues := d.2.2.length } }

end

/-- `consistent_path_dual_solver.py:332-347`: the loop of `system_min_marginals`. -/
def marginalsLoop (v : Nat) : List Sub → (Nat → Cost) → Option (List Sub × (Nat → Cost))
  | [], t => some ([], t)
  | s :: ss, t =>
    match s.index v with
    | none =>
      match s.memo.minimalCost .fromMiddle with
      | none => none
      | some (m, c) =>
        match marginalsLoop v ss (fun x => t x + c) with
        | none => none
        | some (ss', t') => some ({ s with memo := m } :: ss', t')
    | some k =>
      match s.memo.minMarginals k with
      | none => none
      | some (m, mm) =>
        match marginalsLoop v ss (fun x => t x + mm x) with
        | none => none
        | some (ss', t') => some ({ s with memo := m } :: ss', t')

/-- `consistent_path_dual_solver.py:325-349` `system_min_marginals`. -/
def System.minMarginals (S : System) (v : Nat) : Option (System × (Nat → Cost)) :=
  (marginalsLoop v S.subs (fun _ => 0)).map fun r => ({ S with subs := r.1 }, r.2)

/-- The accumulators of the first loop of `min_marginal_average` (lines 527-532). -/
structure AverageState where
  total : Nat → Cost
  weight : ℚ
  skipped : Cost

/-- `consistent_path_dual_solver.py:533-564`: the first loop of `min_marginal_average`. Each
participating subproblem is returned with its variable index and its min-marginals
(`subprob_info`). -/
def averageOpen (v : Nat) : List Sub → AverageState →
    Option (List (Sub × Option (Nat × (Nat → Cost))) × AverageState)
  | [], st => some ([], st)
  | s :: ss, st =>
    match s.index v with
    | none =>
      match s.memo.minimalCost .fromMiddle with
      | none => none
      | some (m, c) =>
        match averageOpen v ss { st with skipped := st.skipped + c } with
        | none => none
        | some (ss', st') => some (({ s with memo := m }, none) :: ss', st')
    | some k =>
      match (s.memo.setPenalties k (fun _ => 0)).minMarginals k with
      | none => none
      | some (m, mm) =>
        match averageOpen v ss
            { st with total := fun x => st.total x + mm x, weight := st.weight + s.weight } with
        | none => none
        | some (ss', st') => some (({ s with memo := m }, some (k, mm)) :: ss', st')

/-- `consistent_path_dual_solver.py:578-593`: the new penalty of one value. If the desired
min-marginal is finite, so is the current one. -/
def newPenalty (total : Cost) (share : ℚ) (mm : Cost) : Cost :=
  if total = ⊤ then ⊤ else ((total.untopD 0 * share - mm.untopD 0 : ℚ) : Cost)

/-- `consistent_path_dual_solver.py:572-598`: the second loop of `min_marginal_average`. -/
def averageClose (total : Nat → Cost) (W : ℚ) (r : Sub × Option (Nat × (Nat → Cost))) : Sub :=
  match r.2 with
  | none => r.1
  | some (k, mm) =>
    let p := fun x => newPenalty (total x) (r.1.weight / W) (mm x)
    { r.1 with memo := r.1.memo.setPenalties k p }

/-- `consistent_path_dual_solver.py:352-612` `min_marginal_average`. -/
def System.average (S : System) (v : Nat) : Option (System × Cost) :=
  (averageOpen v S.subs ⟨fun _ => 0, 0, 0⟩).map fun r =>
    let total := fun x => r.2.total x + S.extra v x
    ({ S with subs := r.1.map (averageClose total r.2.weight) },
      arrayMin S.numValues total + r.2.skipped)

/-! ## Sweeps -/

/-- The state of `solve_system_with_sweeps` (lines 676-693). -/
structure SweepState where
  system : System
  last : Option Cost
  objectiveAtStep : List Cost
  variableAtStep : List Nat
  objectiveAtSweep : List (Option Cost)
  stepsAtSweep : List Nat

/-- `consistent_path_dual_solver.py:709`: `(new - last) > tolerance`. `inf - inf` is NaN, which is
not greater. -/
def improved (last : Option Cost) (new : Cost) (tol : ℚ) : Bool :=
  match last with
  | none => true
  | some l => if l = ⊤ then false else decide (l + (tol : Cost) < new)

/-- `consistent_path_dual_solver.py:707-717`: one sweep; the flag is `saw_any_change`. -/
def runSweep (tol : ℚ) : List Nat → SweepState → Bool → Option (SweepState × Bool)
  | [], st, c => some (st, c)
  | v :: vs, st, c =>
    match st.system.average v with
    | none => none
    | some (S', b) =>
      runSweep tol vs
        { st with
          system := S'
          last := some b
          objectiveAtStep := st.objectiveAtStep ++ [b]
          variableAtStep := st.variableAtStep ++ [v] }
        (c || improved st.last b tol)

/-- `consistent_path_dual_solver.py:698-704`: the variables of a sweep. -/
def forwardVars (n : Nat) : List Nat := List.range (n - 1)

/-- `consistent_path_dual_solver.py:703-704`: `range(n - 1, 0, -1)`. -/
def reverseVars (n : Nat) : List Nat := (List.range' 1 (n - 1)).reverse

/-- `consistent_path_dual_solver.py:719-726`: recording a finished sweep. -/
def SweepState.record (st : SweepState) : SweepState :=
  { st with
    objectiveAtSweep := st.objectiveAtSweep ++ [st.last]
    stepsAtSweep := st.stepsAtSweep ++ [st.objectiveAtStep.length] }

/-- What the sweep solver can do besides returning: fail an assertion, or not have stopped yet after
the given number of iterations. -/
inductive SolveError where
  | assertion
  | running
  deriving DecidableEq, Repr

/-- `consistent_path_dual_solver.py:695-734`: the main loop, for a bounded number of iterations.
`late i` tells whether the timeout has passed after the `i`-th sweep; this only breaks the loop over
the two directions. -/
def solveLoop (tol : ℚ) (late : Nat → Bool) : Nat → SweepState → Except SolveError SweepState
  | 0, _ => .error .running
  | fuel + 1, st =>
    match runSweep tol (forwardVars st.system.numKeys) st false with
    | none => .error .assertion
    | some (st1, c1) =>
      let st1 := st1.record
      if late st1.objectiveAtSweep.length then
        if c1 then solveLoop tol late fuel st1 else .ok st1
      else
        match runSweep tol (reverseVars st.system.numKeys) st1 c1 with
        | none => .error .assertion
        | some (st2, c2) =>
          let st2 := st2.record
          if c2 then solveLoop tol late fuel st2 else .ok st2

/-- `consistent_path_dual_solver.py:638-745` `solve_system_with_sweeps`. -/
def System.solve (S : System) (tol : ℚ) (late : Nat → Bool) (fuel : Nat) :
    Except SolveError SweepState :=
  solveLoop tol late fuel ⟨S, none, [], [], [], []⟩

/-! ## Extraction -/

/-- `np.argmin` of an array of `n` costs: the first index of a smallest entry. -/
def argMin (n : Nat) (t : Nat → Cost) : Nat :=
  (List.range n).foldl (fun best x => if t x < t best then x else best) 0

/-- `consistent_path_dual_solver.py:792-810` (and `978-997`): forbidding values of a variable: the
extra costs and the penalties of all participating subproblems become infinite there. -/
def System.forbid (S : System) (v : Nat) (bad : Nat → Bool) : System :=
  { S with
    extra := fun u x => if u = v ∧ bad x = true then ⊤ else S.extra u x
    subs := S.subs.map fun s =>
      match s.index v with
      | none => s
      | some k =>
        let p := fun x => if bad x then ⊤ else s.memo.pen k x
        { s with memo := s.memo.setPenalties k p } }

/-- `consistent_path_dual_solver.py:782-810`: the loop of `greedy_extract`. `np.argmin` raises if there
are no values. -/
def greedyLoop : List Nat → System → (Nat → Nat) → Option Cost →
    Option (System × (Nat → Nat) × Option Cost)
  | [], S, a, c => some (S, a, c)
  | v :: vs, S, a, _ =>
    match S.minMarginals v with
    | none => none
    | some (S', mm) =>
      if S.numValues = 0 then none else
      let choice := argMin S.numValues mm
      greedyLoop vs (S'.forbid v (fun x => decide (x ≠ choice)))
        (fun u => if u = v then choice else a u) (some (mm choice))

/-- `consistent_path_dual_solver.py:55-59` `SweepDirection`. -/
inductive Direction where
  | forward
  | reverse
  deriving DecidableEq, Repr

/-- `consistent_path_dual_solver.py:773-778`: the order in which variables are fixed. -/
def Direction.order (n : Nat) : Direction → List Nat
  | .forward => List.range n
  | .reverse => (List.range n).reverse

/-- `consistent_path_dual_solver.py:748-813` `greedy_extract`: the assignment vector and the cost
(`none` is NaN). The system passed in is cloned first, so it is unchanged. -/
def System.greedy (S : System) (dir : Direction) : Option (List Nat × Option Cost) :=
  (greedyLoop (dir.order S.numKeys) S (fun _ => 0) none).map fun r =>
    ((List.range S.numKeys).map r.2.1, r.2.2)

/-- `consistent_path_dual_solver.py:1006-1025` `assignments_from_assignment_vector`; `none` is an
`IndexError`. -/
def assignmentPairs {K V : Type} (keys : List K) (values : List V) (a : List Nat) :
    Option (List (K × V)) :=
  mapAll (fun (x : Nat × Nat) =>
    (keys[x.2]?).bind fun k => (values[x.1]?).map fun v => (k, v)) a.zipIdx

/-! ## Constraints -/

/-- The number of subproblems in which a variable takes part (lines 1059-1063). -/
def System.numRelevant (S : System) (v : Nat) : Nat :=
  (S.subs.filter fun s => (s.index v).isSome).length

/-- `consistent_path_dual_solver.py:1053-1080` and `1119-1146`: adding extra costs for one variable,
divided evenly among the subproblems that assign it. -/
def System.addUnary (S : System) (v : Nat) (p : Nat → Cost) : System :=
  { S with
    extra := fun u x => if u = v then S.extra u x + p x else S.extra u x
    subs := S.subs.map fun s =>
      match s.index v with
      | none => s
      | some k =>
        let p' := fun x => s.memo.pen k x + (p x).map (· / (S.numRelevant v : ℚ))
        { s with memo := s.memo.setPenalties k p' } }

/-- `consistent_path_dual_solver.py:1028-1080` `constrain_system`; `none` is a `KeyError`. -/
def DualSystem.constrain {K V : Type} [DecidableEq K] [DecidableEq V] (penalty : Cost) :
    List (K × V) → DualSystem K V → Option (DualSystem K V)
  | [], D => some D
  | (k, x) :: cs, D =>
    match dictIndex D.keys k, dictIndex D.values x with
    | some v, some i =>
      constrain penalty cs { D with data := D.data.addUnary v (setEntry (fun _ => penalty) i 0) }
    | _, _ => none

/-- `consistent_path_dual_solver.py:1083-1146` `break_symmetry_randomly`; `noise v` is the random
vector drawn for variable `v`. -/
def System.breakSymmetry (S : System) (noise : Nat → Nat → ℚ) : System :=
  (List.range S.numKeys).foldl (fun S v => S.addUnary v (fun x => (noise v x : Cost))) S

/-! ## Partial commitment -/

/-- The result of `np.quantile` on an array which may contain `-inf`. -/
inductive Quantile where
  | nan
  | negInf
  | val (q : ℚ)

/-- `consistent_path_dual_solver.py:816-821` `PartialCommitmentStatus`. -/
inductive CommitStatus where
  | madePartialAssignment
  | needsGreedyExtract
  | stuck
  deriving DecidableEq, Repr

/-- `consistent_path_dual_solver.py:903-912`: aggregated min-marginals. -/
def collectMarginals : List Nat → System → (Nat → Nat → Cost) → Option (System × (Nat → Nat → Cost))
  | [], S, agg => some (S, agg)
  | v :: vs, S, agg =>
    match S.minMarginals v with
    | none => none
    | some (S', mm) => collectMarginals vs S' (fun u => if u = v then mm else agg u)

/-- `consistent_path_dual_solver.py:962-997`: the loop forbidding values. Returns the system, the
bound and the count of newly forbidden values. -/
def commitLoop (gap : Cost) : List Nat → System → Cost → Nat → Option (System × Cost × Nat)
  | [], S, bound, count => some (S, bound, count)
  | v :: vs, S, bound, count =>
    match S.minMarginals v with
    | none => none
    | some (S', mm) =>
      let best := arrayMin S.numValues mm
      let bound' := if bound < best then best else bound
      let bad := fun x => decide (bound' + gap < mm x)
      let new := ((List.range S.numValues).filter fun x => bad x && decide (mm x < ⊤)).length
      commitLoop gap vs (S'.forbid v bad) bound' (count + new)

/-- `consistent_path_dual_solver.py:824-1003` `partially_commit`. `quantile` stands for lines 922-934
and may be any function of the aggregated min-marginals. `none`: a failed assertion, or `np.max` of
an empty array (no variables). -/
def System.partiallyCommit (S : System) (dir : Direction) (quantile : (Nat → Nat → Cost) → Quantile)
    (strictness epsilon : ℚ) : Option (System × CommitStatus) :=
  if S.numKeys = 0 then none
  else
    match collectMarginals (dir.order S.numKeys) S (fun _ _ => 0) with
    | none => none
    | some (S1, agg) =>
      let bounds := (List.range S.numKeys).map fun v => arrayMin S.numValues (agg v)
      let bound := bounds.foldl max (bounds.headD 0)
      let commit := fun (gap : ℚ) =>
        (commitLoop ((gap * strictness : ℚ) : Cost) (dir.order S.numKeys) S1 bound 0).map fun r =>
          (r.1, if r.2.2 = 0 then CommitStatus.stuck else CommitStatus.madePartialAssignment)
      match quantile agg with
      | .negInf => some (S1, .needsGreedyExtract)
      | .nan => commit 0
      | .val q =>
        if (q : Cost) ≤ bound + (epsilon : Cost) then some (S1, .needsGreedyExtract)
        else commit (max 0 (q - bound.untopD 0))

end RUSure
