import Verif.Model.PrefixBaselines
import Verif.Model.System
import Mathlib.Data.List.Sort

/-!
# Information about a solution

`wrappers/edit_distance_wrapper_base.py` (`solution_info`), `wrappers/call_sequence_wrapper.py`
(`solution_info`), `wrappers/wrapper_base.py` (`compute_sample_system_info`): which parts are shown, and
what they cost for each target.
-/

namespace RUSure

/-- What `solution_info` can raise. -/
inductive SolutionError where
  /-- a key or value that is not in the conversion data -/
  | key
  /-- there is no path that agrees with the assignments: `extract_minimal_cost_path_and_assignments`
  goes astray -/
  | noPath
  /-- `assert len(system.data.dag_tables) == 2` -/
  | assertion
  | regions (e : ExtractError)
  deriving DecidableEq, Repr

section
variable {S I : Type}

/-- `packed_dags.py:1514-1544` `constrained_best_path`, with the translation of keys and values (lines
1537-1538) and of the path (lines 1499-1509). -/
def Part.bestPath (p : Part S I) (invalid : Cost) (a : Decisions) :
    Except SolutionError (List (Edge S DecisionKey DecisionValue I)) :=
  match mapAll (fun kv => (dictIndex p.conversion.keys kv.1).bind fun i =>
      (dictIndex p.conversion.values kv.2).map fun j => (i, j)) a with
  | none => .error .key
  | some cs =>
    match (p.conversion.packed.scale p.scale).constrainedBestPath invalid cs with
    | none => .error .noPath
    | some (q, _) => .ok (p.conversion.originalPath p.dag q)

/-- `wrapper_base.py:243`, `edit_distance_wrapper_base.py:222`: the sum of the costs of the edges of the
original path, which are not scaled. -/
def Part.bestCost (p : Part S I) (invalid : Cost) (a : Decisions) : Except SolutionError Cost :=
  match p.bestPath invalid a with
  | .error e => .error e
  | .ok path => .ok (path.map Edge.cost).sum

/-- `wrapper_base.py:230-243`: the loop over the utility DAGs. -/
def sampleCosts (invalid : Cost) (a : Decisions) : List (Part S I) → Except SolutionError (List Cost)
  | [] => .ok []
  | p :: ps =>
    match p.bestCost invalid a with
    | .error e => .error e
    | .ok c =>
      match sampleCosts invalid a ps with
      | .error e => .error e
      | .ok cs => .ok (c :: cs)

end

/-- The Python standard library's `bisect.bisect_left`, for at most `fuel` halvings of the range from
`lo` to `hi`. -/
def bisectLeft (l : List Cost) (x : Cost) : Nat → Nat → Nat → Nat
  | 0, lo, _ => lo
  | fuel + 1, lo, hi =>
    if lo < hi then
      let mid := (lo + hi) / 2
      if l.getD mid 0 < x then bisectLeft l x fuel (mid + 1) hi else bisectLeft l x fuel lo mid
    else lo

/-- The finite numbers of a list; `none` if there is an infinite one. -/
def finiteCosts : List Cost → Option (List ℚ) := mapAll fun c => match c with
  | none => none
  | some q => some q

/-- `np.mean`; `none` is NaN. -/
def mean (l : List ℚ) : Option ℚ := if l = [] then none else some (l.sum / (l.length : ℚ))

/-- `np.var` with `ddof=1`; `none` is NaN. -/
def sampleVariance (l : List ℚ) : Option ℚ :=
  match mean l with
  | none => none
  | some m => if l.length = 1 then none else some ((l.map fun x => (x - m) ^ 2).sum / ((l.length : ℚ) - 1))

/-- `wrapper_base.py:245-254`: the result of `compute_sample_system_info`. -/
structure SampleInfo where
  unsorted : List Cost
  sorted : List Cost
  average : Option ℚ
  variance : Option ℚ
  rank : Option Nat

/-- `wrapper_base.py:245-254`. (Simplification: the average and the variance are only given if all costs
are finite.) -/
def sampleInfo (costs : List Cost) (total : Option Cost) : SampleInfo :=
  let sorted := costs.mergeSort fun a b => decide (a ≤ b)
  { unsorted := costs
    sorted := sorted
    average := (finiteCosts sorted).bind mean
    variance := (finiteCosts sorted).bind sampleVariance
    rank := total.map fun t => bisectLeft sorted t sorted.length 0 sorted.length }

/-- `edit_distance_wrapper_base.py:203-245`, `call_sequence_wrapper.py:553-640`: the result of
`solution_info` (the summary of the path for the evaluation target is a function of the path). -/
structure SolutionInfo (P : Type) where
  parts : List MarkedToken
  total : Option (Cost × P)
  samples : Option SampleInfo

section
variable {S I C M P : Type}

/-- `edit_distance_wrapper_base.py:190-245`, `call_sequence_wrapper.py:541-640` `solution_info`: `system` is
the system of the evaluation target, if there is one; `summary` makes the summary of the path. -/
def solutionInfo (invalid : Cost) (summary : List (Edge S DecisionKey DecisionValue I) → P)
    (proto : List (Node M)) (a : Decisions) (system sampleSystem : Option (BuiltSystem S I C)) :
    Except SolutionError (SolutionInfo P) := do
  let parts ← match extractRegions (pack proto) (fun k => a.lookup k) [] with
    | .error e => .error (.regions e)
    | .ok parts => .ok parts
  let total ← match system with
    | none => .ok none
    | some B =>
      match B.utilities with
      | [p] =>
        match p.bestPath invalid a with
        | .error e => .error e
        | .ok path => .ok (some ((path.map Edge.cost).sum, summary path))
      | _ => .error .assertion
  let samples ← match sampleSystem with
    | none => .ok none
    | some B =>
      match sampleCosts invalid a B.utilities with
      | .error e => .error e
      | .ok costs => .ok (some (sampleInfo costs (total.map Prod.fst)))
  return ⟨parts, total, samples⟩

end

end RUSure
