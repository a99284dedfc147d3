import Verif.Model.GatedDag

/-!
# Model of `dag_from_paths` (`gated_state_dag_test_lib.py:240-288`)

Python sorts the items of a dictionary; here the order is a parameter, any function that permutes lists.
-/

namespace RUSure.FromPaths

section
variable {K V : Type}

/-- `gated_state_dag_test_lib.py:263-277`: the edges of the assignments of a path, with `current_state`
and `next_state`. -/
def addAssignments : List (K × V) → PartialDag Nat K V Unit → Nat → Nat →
    Except AddError (PartialDag Nat K V Unit × Nat × Nat)
  | [], d, current, next => .ok (d, current, next)
  | kv :: rest, d, current, next =>
    match d.addEdge ⟨current, next, 0, some kv, ()⟩ with
    | .error err => .error err
    | .ok d' => addAssignments rest d' next (next + 1)

/-- `gated_state_dag_test_lib.py:261-287`: the loop over paths. -/
def addPaths (sort : List (K × V) → List (K × V)) : List (List (K × V) × Cost) → PartialDag Nat K V Unit → Nat →
    Except AddError (PartialDag Nat K V Unit)
  | [], d, _ => .ok d
  | (assignments, cost) :: paths, d, next =>
    match addAssignments (sort assignments) d 0 next with
    | .error err => .error err
    | .ok (d', current, next') =>
      match d'.addEdge ⟨current, 1, cost, none, ()⟩ with
      | .error err => .error err
      | .ok d'' => addPaths sort paths d'' next'

/-- `gated_state_dag_test_lib.py:240-288` `dag_from_paths`. -/
def dagFromPaths (sort : List (K × V) → List (K × V)) (paths : List (List (K × V) × Cost)) :
    Except AddError (Dag Nat K V Unit) :=
  match addPaths sort paths (PartialDag.start 0) 2 with
  | .error err => .error err
  | .ok d => .ok (d.finish 1)

end

end RUSure.FromPaths
