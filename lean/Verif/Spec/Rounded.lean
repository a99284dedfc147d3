import Verif.Model.Rounded
import Verif.Spec.PackedDag

/-!
# Specification vocabulary for paths priced in machine arithmetic
-/

namespace RUSure.Spec
open RUSure RUSure.Rounded

/-- The cost of a path added up edge by edge from its start, rounding after each addition. -/
def forwardCost (A : Machine) (pen : Penalties) (p : List PackedEdge) : Cost :=
  p.foldl (fun c e => A.add (A.add c e.cost) (e.penalty pen)) 0

/-- The cost of a path added up edge by edge from its end, rounding after each addition. -/
def backwardCost (A : Machine) (pen : Penalties) (p : List PackedEdge) : Cost :=
  p.foldr (fun e c => A.add (A.add c e.cost) (e.penalty pen)) 0

/-- The cost of the path `p`, `e`, `q`: what comes before `e` is added up from the start, what comes
after it from the end. -/
def middleCost (A : Machine) (pen : Penalties) (p : List PackedEdge) (e : PackedEdge)
    (q : List PackedEdge) : Cost :=
  A.add (A.add (A.add (forwardCost A pen p) e.cost) (e.penalty pen)) (backwardCost A pen q)

/-- Run one operation in machine arithmetic, keeping the memo. -/
def runRounded (A : Machine) (m : Memo) : MemoOp → Memo
  | .setPenalties v p => if v < m.dag.numKeys then m.setPenalties v p else m
  | .updatePrefixes τ => if τ ≤ m.dag.numKeys then updatePrefixes A m τ else m
  | .updateSuffixes τ => if τ ≤ m.dag.numKeys then updateSuffixes A m τ else m
  | .makeFullyValid => makeFullyValid A m
  | .minMarginals v => ((minMarginals A m v).map (·.1)).getD m
  | .allMinMarginals => (allMinMarginals A m).1
  | .minimalCost s => ((minimalCost A m s).map (·.1)).getD m
  | .extractPath => ((extractPath A m).map (·.1)).getD m

/-- The memo after a history of operations in machine arithmetic, started empty. -/
def roundedAfter (A : Machine) (invalid : Cost) (d : PackedDag) (pen : Penalties)
    (history : List MemoOp) : Memo :=
  history.foldl (runRounded A) (emptyTable invalid d pen)

/-- Sums of two numbers of the set `F` are again in `F`, with a relative error of at most `u`, as long
as the exact sum does not exceed `limit`. `F` are the numbers the machine can represent and `u` is its
unit roundoff (`2⁻⁵³` for `float64`). -/
structure Accurate (A : Machine) (F : ℚ → Prop) (u limit : ℚ) : Prop where
  zero : F 0
  add : ∀ a c : ℚ, F a → F c → |a + c| ≤ limit →
    ∃ r : ℚ, F r ∧ A.add a c = r ∧ |r - (a + c)| ≤ u * |a + c|

/-- The finite `float64` numbers: a significand of 53 bits times a power of two (the upper end of
the range is given by `limit` above). -/
def IsFloat64 (x : ℚ) : Prop := ∃ m e : ℤ, |m| ≤ 2 ^ 53 ∧ -1074 ≤ e ∧ x = m * 2 ^ e

/-- The numbers that are added up along a path. -/
def summands (pen : Penalties) (p : List PackedEdge) : List Cost :=
  p.flatMap fun e => [e.cost, e.penalty pen]

/-- All summands of the path are finite and in `F`, and their absolute values sum to `t`. -/
def TotalSize (F : ℚ → Prop) (pen : Penalties) (p : List PackedEdge) (t : ℚ) : Prop :=
  ∃ l : List ℚ, summands pen p = l.map (fun x : ℚ => (x : Cost)) ∧ (∀ x ∈ l, F x)
    ∧ (l.map abs).sum = t

/-- What the three strategies compute. -/
def StrategyCost (A : Machine) (d : PackedDag) (pen : Penalties) (c : Cost) : Strategy → Prop
  | .atStart => IsMinimum (Complete d) (backwardCost A pen) c
  | .atEnd => IsMinimum (Complete d) (forwardCost A pen) c
  | .fromMiddle => ∃ v < d.numKeys,
      IsMinimum (fun y : List PackedEdge × PackedEdge × List PackedEdge =>
          Complete d (y.1 ++ y.2.1 :: y.2.2) ∧ ∃ x, y.2.1.req = some (v, x))
        (fun y => middleCost A pen y.1 y.2.1 y.2.2) c

/-- Finite costs and penalties are in `F`, complete paths have at most `n` edges, and those with finite
costs and penalties have a total size of at most `size`. -/
structure InRange (F : ℚ → Prop) (d : PackedDag) (pen : Penalties) (n : Nat) (size : ℚ) :
    Prop where
  member : ∀ e ∈ d.edges, ∀ x : ℚ, e.cost = x ∨ e.penalty pen = x → F x
  length : ∀ p, Complete d p → p.length ≤ n
  total : ∀ p, Complete d p → ∀ t, TotalSize F pen p t → t ≤ size

end RUSure.Spec
