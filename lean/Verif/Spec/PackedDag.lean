import Verif.Model.PackedDag
import Verif.Spec.Paths

/-!
# Specification vocabulary for packed DAGs and their tables
-/

namespace RUSure.Spec
open RUSure

/-- Paths of a packed DAG. -/
abbrev PackedWalk (d : PackedDag) : Nat → Nat → List PackedEdge → Prop :=
  Walk PackedEdge.source PackedEdge.dest d.edges

/-- Complete paths: from the first to the last state. -/
def Complete (d : PackedDag) (p : List PackedEdge) : Prop := PackedWalk d 0 (d.numStates - 1) p

/-- The cost of a path including penalties. -/
def pathCost (pen : Penalties) (p : List PackedEdge) : Cost :=
  weight (fun e => e.cost + e.penalty pen) p

/-- The assignments a path makes, in order. -/
def assignments (p : List PackedEdge) : List (Nat × Nat) := p.filterMap PackedEdge.req

/-- `s` is tagged `τ`. -/
def HasTag (d : PackedDag) (τ s : Nat) : Prop := d.sb τ ≤ s ∧ s < d.sb (τ + 1)

/-- The documented invariants of packed DAGs (`packed_dags.py:93-158`), which the conversion is
proved to establish. Tags are shifted by one as in the model. -/
structure PackedWF (d : PackedDag) : Prop where
  sb_zero : d.sb 0 = 0
  sb_last : d.sb (d.numKeys + 1) = d.numStates
  sb_mono : ∀ i, i ≤ d.numKeys → d.sb i ≤ d.sb (i + 1)
  eb_zero : d.eb 0 = 0
  eb_last : d.eb (2 * d.numKeys + 1) = d.edges.length
  eb_mono : ∀ i, i ≤ 2 * d.numKeys → d.eb i ≤ d.eb (i + 1)
  /-- edges between assignments stay within a tag and assign nothing -/
  between : ∀ τ ≤ d.numKeys, ∀ k e, d.eb (2 * τ) ≤ k → k < d.eb (2 * τ + 1) →
    d.edges[k]? = some e → e.req = none ∧ HasTag d τ e.source ∧ HasTag d τ e.dest
  /-- edges assigning a variable lead from the tag before it to its tag -/
  assigning : ∀ v < d.numKeys, ∀ k e, d.eb (2 * v + 1) ≤ k → k < d.eb (2 * v + 2) →
    d.edges[k]? = some e → (∃ x < d.numValues, e.req = some (v, x))
      ∧ HasTag d v e.source ∧ HasTag d (v + 1) e.dest
  topo : Topo PackedEdge.source PackedEdge.dest d.edges
  start : HasTag d 0 0
  final : HasTag d d.numKeys (d.numStates - 1)

/-- Operations on a memo. Where an assertion of the code fails the operation has no effect. -/
inductive MemoOp where
  | setPenalties (v : Nat) (p : Nat → Cost)
  | updatePrefixes (τ : Nat)
  | updateSuffixes (τ : Nat)
  | makeFullyValid
  | minMarginals (v : Nat)
  | allMinMarginals
  | minimalCost (s : Strategy)
  | extractPath

/-- Run one operation, keeping the memo. -/
def MemoOp.run (m : Memo) : MemoOp → Memo
  | .setPenalties v p => if v < m.dag.numKeys then m.setPenalties v p else m
  | .updatePrefixes τ => if τ ≤ m.dag.numKeys then m.updatePrefixes τ else m
  | .updateSuffixes τ => if τ ≤ m.dag.numKeys then m.updateSuffixes τ else m
  | .makeFullyValid => m.makeFullyValid
  | .minMarginals v => ((m.minMarginals v).map (·.1)).getD m
  | .allMinMarginals => m.allMinMarginals.1
  | .minimalCost s => ((m.minimalCost s).map (·.1)).getD m
  | .extractPath => (m.extractPath.map (·.1)).getD m

/-- The memo after a history of operations, started empty. -/
def memoAfter (invalid : Cost) (d : PackedDag) (pen : Penalties) (history : List MemoOp) : Memo :=
  history.foldl MemoOp.run (emptyTable invalid d pen)

/-- The penalties after a history of operations: each variable has the penalties last set. -/
def penaltiesAfter (d : PackedDag) (pen : Penalties) (history : List MemoOp) : Penalties :=
  history.foldl
    (fun pen op => match op with
      | .setPenalties v p => if v < d.numKeys then fun k => if k = v then p else pen k else pen
      | _ => pen)
    pen

end RUSure.Spec
