import Verif.Model.RoundedDual

/-!
# Greedy extraction in machine arithmetic

`greedy_extract` of `consistent_path_dual_solver.py`, with the machine's min-marginals. Forbidding
values and choosing a smallest entry do no arithmetic and are those of `Model/Dual.lean`.
-/

namespace RUSure.Rounded

variable (A : Arith)

/-- `consistent_path_dual_solver.py:782-810`: the loop of `greedy_extract`. -/
def greedyLoop : List Nat → System → (Nat → Nat) → Option Cost →
    Option (System × (Nat → Nat) × Option Cost)
  | [], S, a, c => some (S, a, c)
  | v :: vs, S, a, _ =>
    match systemMarginals A S v with
    | none => none
    | some (S', mm) =>
      if S.numValues = 0 then none else
      let choice := argMin S.numValues mm
      greedyLoop vs (S'.forbid v (fun x => decide (x ≠ choice)))
        (fun u => if u = v then choice else a u) (some (mm choice))

/-- `consistent_path_dual_solver.py:748-813` `greedy_extract`: the assignment vector and the cost
(`none` is NaN). The system passed in is cloned first, so it is unchanged. -/
def greedy (S : System) (dir : Direction) : Option (List Nat × Option Cost) :=
  (greedyLoop A (dir.order S.numKeys) S (fun _ => 0) none).map fun r =>
    ((List.range S.numKeys).map r.2.1, r.2.2)

end RUSure.Rounded
