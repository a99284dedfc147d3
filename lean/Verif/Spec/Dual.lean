import Verif.Model.Dual
import Verif.Spec.PackedDag

/-!
# Specification vocabulary for systems of DAGs
-/

namespace RUSure.Spec
open RUSure

/-- What `make_system` is documented to be given: a packed DAG together with its variable keys (no
duplicates) and values. -/
structure GoodDag {K V : Type} (d : PackedDag × List K × List V) : Prop where
  wf : PackedWF d.1
  keys_nodup : d.2.1.Nodup
  keys_length : d.2.1.length = d.1.numKeys
  values_length : d.2.2.length = d.1.numValues

/-- The update proportions `make_system` is documented to be given: none, or one positive number for
each DAG. -/
def GoodWeights (n : Nat) (weights : Option (List ℚ)) : Prop :=
  ∀ w, weights = some w → w.length = n ∧ ∀ q ∈ w, 0 < q

/-- A joint solution: a value for every variable, and for every subproblem a complete path that
assigns these values. -/
structure Joint (S : System) (a : Nat → Nat) (paths : List (List PackedEdge)) : Prop where
  values : ∀ v < S.numKeys, a v < S.numValues
  paths : List.Forall₂ (fun (s : Sub) p => Complete s.memo.dag p ∧
    ∀ v k x, s.index v = some k → (k, x) ∈ assignments p → x = a v) S.subs paths

/-- The true cost of a joint solution: the costs of all edges and the extra costs of the values;
penalties do not count. -/
def jointCost (S : System) (a : Nat → Nat) (paths : List (List PackedEdge)) : Cost :=
  (paths.map (weight PackedEdge.cost)).sum + ((List.range S.numKeys).map fun v => S.extra v (a v)).sum

/-- Some joint solution of finite cost gives variable `v` the value `x`. -/
def Feasible (S : System) (v x : Nat) : Prop :=
  ∃ a paths, Joint S a paths ∧ jointCost S a paths < ⊤ ∧ a v = x

/-- The dual value: the sum of the minimal penalised costs of all subproblems. -/
def dualValue (S : System) : Cost :=
  (S.subs.map fun s => ((s.memo.minimalCost .atStart).map Prod.snd).getD 0).sum

/-- The penalty a subproblem currently charges for giving system variable `v` the value `x`. -/
def Sub.charge (s : Sub) (v x : Nat) : Cost :=
  match s.index v with
  | none => 0
  | some k => s.memo.pen k x

/-- The systems that can be reached from a system by the operations that change it in place. -/
inductive SystemReach {K V : Type} [DecidableEq K] [DecidableEq V] (D : DualSystem K V) :
    DualSystem K V → Prop
  | start : SystemReach D D
  | average {D' : DualSystem K V} {v : Nat} {S : System} {c : Cost} : SystemReach D D' →
      v < D'.data.numKeys → D'.data.average v = some (S, c) → SystemReach D { D' with data := S }
  | minMarginals {D' : DualSystem K V} {v : Nat} {S : System} {mm : Nat → Cost} :
      SystemReach D D' → v < D'.data.numKeys → D'.data.minMarginals v = some (S, mm) →
      SystemReach D { D' with data := S }
  | solve {D' : DualSystem K V} {tol : ℚ} {late : Nat → Bool} {fuel : Nat} {st : SweepState} :
      SystemReach D D' → D'.data.solve tol late fuel = .ok st →
      SystemReach D { D' with data := st.system }
  | constrain {D' D'' : DualSystem K V} {penalty : Cost} {cs : List (K × V)} :
      SystemReach D D' → DualSystem.constrain penalty cs D' = some D'' → SystemReach D D''
  | breakSymmetry {D' : DualSystem K V} {noise : Nat → Nat → ℚ} : SystemReach D D' →
      SystemReach D { D' with data := D'.data.breakSymmetry noise }
  | partiallyCommit {D' : DualSystem K V} {dir : Direction}
      {quantile : (Nat → Nat → Cost) → Quantile} {strictness epsilon : ℚ} {S : System}
      {status : CommitStatus} : SystemReach D D' →
      D'.data.partiallyCommit dir quantile strictness epsilon = some (S, status) →
      SystemReach D { D' with data := S }

end RUSure.Spec
