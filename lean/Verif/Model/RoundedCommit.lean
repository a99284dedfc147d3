import Verif.Model.RoundedGreedy

/-!
# `partially_commit` of `consistent_path_dual_solver.py` in machine arithmetic

`Model/Dual.lean` has the same functions with exact rational costs.
-/

namespace RUSure.Rounded

variable (A : Arith)

/-- `consistent_path_dual_solver.py:903-912`: aggregated min-marginals. -/
def collectMarginals : List Nat → System → (Nat → Nat → Cost) → Option (System × (Nat → Nat → Cost))
  | [], S, agg => some (S, agg)
  | v :: vs, S, agg =>
    match systemMarginals A S v with
    | none => none
    | some (S', mm) => collectMarginals vs S' (fun u => if u = v then mm else agg u)

/-- `consistent_path_dual_solver.py:914-917`: the largest of the smallest min-marginals. -/
def costBound (numKeys numValues : Nat) (agg : Nat → Nat → Cost) : Cost :=
  let bounds := (List.range numKeys).map fun v => arrayMin numValues (agg v)
  bounds.foldl max (bounds.headD 0)

/-- `consistent_path_dual_solver.py:962-997`: the loop forbidding values. Returns the system, the
bound and the count of newly forbidden values. -/
def commitLoop (gap : Cost) : List Nat → System → Cost → Nat → Option (System × Cost × Nat)
  | [], S, bound, count => some (S, bound, count)
  | v :: vs, S, bound, count =>
    match systemMarginals A S v with
    | none => none
    | some (S', mm) =>
      let best := arrayMin S.numValues mm
      let bound' := if bound < best then best else bound
      let bad := fun x => decide (A.add bound' gap < mm x)
      let new := ((List.range S.numValues).filter fun x => bad x && decide (mm x < ⊤)).length
      commitLoop gap vs (S'.forbid v bad) bound' (count + new)

/-- `consistent_path_dual_solver.py:824-1003` `partially_commit`. `quantile` stands for lines 922-934
and may be any function of the aggregated min-marginals. `none`: a failed assertion, or `np.max` of
an empty array (no variables). A gap that overflows is infinite here and in the code, or NaN in the code
if the strictness is 0; in either case no value exceeds it. -/
def partiallyCommit (S : System) (dir : Direction) (quantile : (Nat → Nat → Cost) → Quantile)
    (strictness epsilon : ℚ) : Option (System × CommitStatus) :=
  if S.numKeys = 0 then none
  else
    match collectMarginals A (dir.order S.numKeys) S (fun _ _ => 0) with
    | none => none
    | some (S1, agg) =>
      let bound := costBound S.numKeys S.numValues agg
      let commit := fun (gap : Cost) =>
        (commitLoop A (A.mul gap strictness) (dir.order S.numKeys) S1 bound 0).map fun r =>
          (r.1, if r.2.2 = 0 then CommitStatus.stuck else CommitStatus.madePartialAssignment)
      match quantile agg with
      | .negInf => some (S1, .needsGreedyExtract)
      | .nan => commit 0
      | .val q =>
        if (q : Cost) ≤ A.add bound (epsilon : Cost) then some (S1, .needsGreedyExtract)
        else commit (max 0 (A.add (q : Cost) (negate bound)))

end RUSure.Rounded
