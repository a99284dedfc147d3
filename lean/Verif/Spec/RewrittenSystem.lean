import Verif.Model.RewrittenSystem
import Verif.Spec.GatedDag
import Verif.Spec.PackedDag

/-!
# What a system with renumbered states should have in common with the plain system
-/

namespace RUSure.Spec
open RUSure
variable {S I : Type}

/-- `p'` is `p` with other names for the states: the same packed DAG, variables, values and scale factor; the
names of different states are different; and a path of the packed DAG stands for the same edges, between the
renamed states, and makes the same assignments. -/
structure SamePart (p : Part S I) (p' : Part Nat I) : Prop where
  packed : p'.conversion.packed = p.conversion.packed
  keys : p'.conversion.keys = p.conversion.keys
  values : p'.conversion.values = p.conversion.values
  scale : p'.scale = p.scale
  renamed : ∃ f : S → Nat, p'.dag = renameStates f p.dag
    ∧ (∀ s s', DagState p.dag s → DagState p.dag s' → f s = f s' → s = s')
    ∧ ∀ path, p'.conversion.originalPath p'.dag path
        = (p.conversion.originalPath p.dag path).map fun e => ⟨f e.source, f e.dest, e.cost, e.req, e.info⟩
  assignments : ∀ path, p'.conversion.pathAssignments path = p.conversion.pathAssignments path

end RUSure.Spec
