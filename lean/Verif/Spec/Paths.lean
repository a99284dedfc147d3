import Mathlib.Algebra.Order.Monoid.WithTop
import Mathlib.Algebra.Order.Ring.Rat
import Verif.Model.GatedDag

/-!
# Specification vocabulary for paths in graphs given by edge lists
-/

namespace RUSure.Spec
open RUSure

/-- `Walk src dst E a b p`: the list of edges `p`, all taken from `E`, leads from `a` to `b`. -/
inductive Walk {σ ε : Type} (src dst : ε → σ) (E : List ε) : σ → σ → List ε → Prop
  | nil (a : σ) : Walk src dst E a a []
  | cons {e : ε} {b : σ} {p : List ε} : e ∈ E → Walk src dst E (dst e) b p →
      Walk src dst E (src e) b (e :: p)

/-- Edges are listed in topological order, possibly with self loops: no edge is listed after an edge
that leaves its destination. -/
def TopoWeak {σ ε : Type} (src dst : ε → σ) (E : List ε) : Prop :=
  E.Pairwise (fun e e' => dst e' ≠ src e)

/-- Edges are listed in topological order: also no edge leads from a state to itself. -/
def Topo {σ ε : Type} (src dst : ε → σ) (E : List ε) : Prop :=
  TopoWeak src dst E ∧ ∀ e ∈ E, dst e ≠ src e

/-- Total weight of a path. -/
def weight {ε : Type} (w : ε → Cost) (p : List ε) : Cost := (p.map w).sum

/-- `c` is the minimum of `cost` over the things satisfying `P`, where the minimum over nothing is
`+inf`. -/
structure IsMinimum {α : Type} (P : α → Prop) (cost : α → Cost) (c : Cost) : Prop where
  le : ∀ a, P a → c ≤ cost a
  attained : c = ⊤ ∨ ∃ a, P a ∧ cost a = c

section Dag
variable {S K V I : Type}

/-- A path of a gated state DAG from `a` to `b`. -/
abbrev DagWalk (d : Dag S K V I) : S → S → List (Edge S K V I) → Prop :=
  Walk Edge.source Edge.dest d.edges

/-- The solutions of a DAG: paths from the initial to the final state with finite cost. -/
def DagSolution (d : Dag S K V I) (p : List (Edge S K V I)) : Prop :=
  DagWalk d d.initial d.final p ∧ ∀ e ∈ p, e.cost < ⊤

/-- The edges of a DAG are listed in topological order (self loops allowed). -/
abbrev DagTopo (d : Dag S K V I) : Prop := TopoWeak Edge.source Edge.dest d.edges

end Dag

end RUSure.Spec
