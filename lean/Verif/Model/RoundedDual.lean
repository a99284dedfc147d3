import Verif.Model.Dual
import Verif.Model.Float64

/-!
# The dual solver of `consistent_path_dual_solver.py` in machine arithmetic

`Model/Dual.lean` computes with exact rational costs. This file models the averaging steps and sweeps
with machine addition, multiplication and division, in the order in which the code computes. The state
(`System`) is that of the exact model: penalties, extra costs and weights are the numbers stored.
Subtraction of floating point numbers is the addition of the negated number. NaN and `-inf` are not
modelled, nor is an overflow of the sum of the weights.
-/

namespace RUSure.Rounded

/-- Machine addition, multiplication of a cost by a share, and division of weights. `inf` times a
positive share is `inf`. -/
structure Arith extends Machine where
  mul : Cost → ℚ → Cost
  div : ℚ → ℚ → ℚ
  mul_top : ∀ s, mul ⊤ s = ⊤

/-- Exact arithmetic. -/
def exactArith : Arith :=
  { exact with mul := fun c s => c.map (· * s), div := fun a b => a / b, mul_top := fun _ => rfl }

/-- `float64` arithmetic (`gated_state_dag.py:53`, `consistent_path_dual_solver.py:528`). -/
def float64Arith : Arith :=
  { float64 with
    mul := fun c s => match c with
      | some a => nearest64 (a * s)
      | none => ⊤
    div := fun a b => (nearest64 (a / b)).untopD 0
    mul_top := fun _ => rfl }

/-- Negation of a finite cost. -/
def negate (c : Cost) : Cost := ((-(c.untopD 0) : ℚ) : Cost)

variable (A : Arith)

/-- `consistent_path_dual_solver.py:332-347`: the loop of `system_min_marginals`. -/
def marginalsLoop (v : Nat) : List Sub → (Nat → Cost) → Option (List Sub × (Nat → Cost))
  | [], t => some ([], t)
  | s :: ss, t =>
    match s.index v with
    | none =>
      match minimalCost A.toMachine s.memo .fromMiddle with
      | none => none
      | some (m, c) =>
        match marginalsLoop v ss (fun x => A.add (t x) c) with
        | none => none
        | some (ss', t') => some ({ s with memo := m } :: ss', t')
    | some k =>
      match minMarginals A.toMachine s.memo k with
      | none => none
      | some (m, mm) =>
        match marginalsLoop v ss (fun x => A.add (t x) (mm x)) with
        | none => none
        | some (ss', t') => some ({ s with memo := m } :: ss', t')

/-- `consistent_path_dual_solver.py:325-349` `system_min_marginals`. -/
def systemMarginals (S : System) (v : Nat) : Option (System × (Nat → Cost)) :=
  (marginalsLoop A v S.subs (fun _ => 0)).map fun r => ({ S with subs := r.1 }, r.2)

/-- `consistent_path_dual_solver.py:533-564`: the first loop of `min_marginal_average`. -/
def averageOpen (v : Nat) : List Sub → AverageState →
    Option (List (Sub × Option (Nat × (Nat → Cost))) × AverageState)
  | [], st => some ([], st)
  | s :: ss, st =>
    match s.index v with
    | none =>
      match minimalCost A.toMachine s.memo .fromMiddle with
      | none => none
      | some (m, c) =>
        match averageOpen v ss { st with skipped := A.add st.skipped c } with
        | none => none
        | some (ss', st') => some (({ s with memo := m }, none) :: ss', st')
    | some k =>
      match minMarginals A.toMachine (s.memo.setPenalties k (fun _ => 0)) k with
      | none => none
      | some (m, mm) =>
        match averageOpen v ss
            { st with
              total := fun x => A.add (st.total x) (mm x)
              weight := (A.add st.weight s.weight).untopD 0 } with
        | none => none
        | some (ss', st') => some (({ s with memo := m }, some (k, mm)) :: ss', st')

/-- `consistent_path_dual_solver.py:578-593`: the new penalty of one value. -/
def newPenalty (total : Cost) (share : ℚ) (mm : Cost) : Cost :=
  if A.mul total share = ⊤ then ⊤ else A.add (A.mul total share) (negate mm)

/-- `consistent_path_dual_solver.py:572-598`: the second loop of `min_marginal_average`. -/
def averageClose (total : Nat → Cost) (W : ℚ) (r : Sub × Option (Nat × (Nat → Cost))) : Sub :=
  match r.2 with
  | none => r.1
  | some (k, mm) =>
    let p := fun x => newPenalty A (total x) (A.div r.1.weight W) (mm x)
    { r.1 with memo := r.1.memo.setPenalties k p }

/-- `consistent_path_dual_solver.py:352-612` `min_marginal_average`. -/
def average (S : System) (v : Nat) : Option (System × Cost) :=
  (averageOpen A v S.subs ⟨fun _ => 0, 0, 0⟩).map fun r =>
    let total := fun x => A.add (r.2.total x) (S.extra v x)
    ({ S with subs := r.1.map (averageClose A total r.2.weight) },
      A.add (arrayMin S.numValues total) r.2.skipped)

/-- `consistent_path_dual_solver.py:709`: `(new - last) > tolerance`. `inf - inf` is NaN and
`x - inf` is `-inf`, which are not greater. -/
def improved (last : Option Cost) (new : Cost) (tol : ℚ) : Bool :=
  match last with
  | none => true
  | some l => if l = ⊤ then false else decide ((tol : Cost) < A.add new (negate l))

/-- `consistent_path_dual_solver.py:707-717`: one sweep; the flag is `saw_any_change`. -/
def runSweep (tol : ℚ) : List Nat → SweepState → Bool → Option (SweepState × Bool)
  | [], st, c => some (st, c)
  | v :: vs, st, c =>
    match average A st.system v with
    | none => none
    | some (S', b) =>
      runSweep tol vs
        { st with
          system := S'
          last := some b
          objectiveAtStep := st.objectiveAtStep ++ [b]
          variableAtStep := st.variableAtStep ++ [v] }
        (c || improved A st.last b tol)

/-- `consistent_path_dual_solver.py:695-734`: the main loop, for a bounded number of iterations. -/
def solveLoop (tol : ℚ) (late : Nat → Bool) : Nat → SweepState → Except SolveError SweepState
  | 0, _ => .error .running
  | fuel + 1, st =>
    match runSweep A tol (forwardVars st.system.numKeys) st false with
    | none => .error .assertion
    | some (st1, c1) =>
      let st1 := st1.record
      if late st1.objectiveAtSweep.length then
        if c1 then solveLoop tol late fuel st1 else .ok st1
      else
        match runSweep A tol (reverseVars st.system.numKeys) st1 c1 with
        | none => .error .assertion
        | some (st2, c2) =>
          let st2 := st2.record
          if c2 then solveLoop tol late fuel st2 else .ok st2

/-- `consistent_path_dual_solver.py:638-745` `solve_system_with_sweeps`. -/
def solve (S : System) (tol : ℚ) (late : Nat → Bool) (fuel : Nat) : Except SolveError SweepState :=
  solveLoop A tol late fuel ⟨S, none, [], [], [], []⟩

end RUSure.Rounded
