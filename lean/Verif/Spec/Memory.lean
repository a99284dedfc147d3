import Verif.Model.Memory

/-!
# Systems as values

What a program over several systems means if systems are values: an operation on one system replaces
that system in the list and touches no other, and a clone is just the same value once more.
-/

namespace RUSure.Memory

variable {K V : Type} [LinearOrder K] [DecidableEq V]

/-- An operation on a value. -/
def Op.onValue (op : Op K V) (D : DualSystem K V) : Option (DualSystem K V × Output) :=
  match op with
  | .marginals v => (D.data.minMarginals v).map fun x => ({ D with data := x.1 }, .vector x.2)
  | .average v => (D.data.average v).map fun x => ({ D with data := x.1 }, .cost x.2)
  | .sweeps tol late fuel =>
    match D.data.solve tol late fuel with
    | .error _ => none
    | .ok st => some ({ D with data := st.system }, .trace st.objectiveAtStep st.variableAtStep
        st.objectiveAtSweep st.stepsAtSweep)
  | .greedy dir => (D.data.greedy dir).map fun x => (D, .solution x.1 x.2)
  | .commit dir q s e =>
    (D.data.partiallyCommit dir q s e).map fun x => ({ D with data := x.1 }, .status x.2)
  | .constrain p cs => (D.constrain p cs).map fun D' => (D', .done)
  | .noise n => some ({ D with data := D.data.breakSymmetry n }, .done)

/-- Running a program on values. -/
def runValues (invalid : Cost) : List (Command K V) → List (DualSystem K V) × List Output →
    Option (List (DualSystem K V) × List Output)
  | [], st => some st
  | .make dags weights :: cs, (Ds, out) =>
    match RUSure.makeSystem invalid dags weights with
    | .error _ => none
    | .ok D => runValues invalid cs (Ds ++ [D], out)
  | .clone i :: cs, (Ds, out) =>
    match Ds[i]? with
    | none => none
    | some D => runValues invalid cs (Ds ++ [D], out)
  | .run i op :: cs, (Ds, out) =>
    match Ds[i]? with
    | none => none
    | some D =>
      match op.onValue D with
      | none => none
      | some (D', o) => runValues invalid cs (Ds.set i D', out ++ [o])

/-- A command that is not an operation on the `i`-th system. (Making systems and cloning any system,
also the `i`-th, is allowed.) -/
def Command.avoids (i : Nat) : Command K V → Prop
  | .run j _ => j ≠ i
  | _ => True

end RUSure.Memory
