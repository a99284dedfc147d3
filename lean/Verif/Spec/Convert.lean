import Verif.Model.Convert
import Verif.Spec.PackedDag

/-!
# Specification vocabulary for the conversion to packed DAGs
-/

namespace RUSure.Spec
open RUSure

section
variable {S K V I : Type}

/-- The keys a path of the original DAG assigns, in order. -/
def assignedKeys (p : List (Edge S K V I)) : List K := p.filterMap fun e => e.req.map Prod.fst

/-- The value a path assigns to a key, if any. -/
def valueOn [DecidableEq K] (p : List (Edge S K V I)) (k : K) : Option V :=
  p.findSome? fun e => match e.req with
    | some (k', x) => if k' = k then some x else none
    | none => none

/-- Every path from the initial state assigns variables in increasing order (so each at most once). -/
def OrderRespecting [LT K] (d : Dag S K V I) : Prop :=
  ∀ s p, DagWalk d d.initial s p → (assignedKeys p).Pairwise (· < ·)

/-- Every edge has finite cost and lies on a path from the initial to the final state. -/
def Pruned (d : Dag S K V I) : Prop :=
  ∀ e ∈ d.edges, e.cost < ⊤ ∧ (∃ p, DagWalk d d.initial e.source p)
    ∧ ∃ q, DagWalk d e.dest d.final q

/-- A path of a packed DAG given with the positions of its edges. -/
def IndexedPath (d : PackedDag) (q : List (Nat × PackedEdge)) : Prop :=
  ∀ o ∈ q, d.edges[o.1]? = some o.2

end

end RUSure.Spec
