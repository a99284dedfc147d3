import Verif.Spec.Paths

/-!
# Specification vocabulary for gated state DAGs
-/

namespace RUSure.Spec
open RUSure

section
variable {S K V I : Type}

/-- A state lies on some finite-cost path from the initial to the final state. -/
def OnSolution (d : Dag S K V I) (s : S) : Prop :=
  (∃ p, DagWalk d d.initial s p ∧ ∀ e ∈ p, e.cost < ⊤)
    ∧ ∃ q, DagWalk d s d.final q ∧ ∀ e ∈ q, e.cost < ⊤

/-- States named by a DAG. -/
def DagState (d : Dag S K V I) (s : S) : Prop :=
  s = d.initial ∨ s = d.final ∨ ∃ e ∈ d.edges, s = e.source ∨ s = e.dest

/-- The DAG with its states renamed by `f`. -/
def renameStates {T : Type} (f : S → T) (d : Dag S K V I) : Dag T K V I where
  initial := f d.initial
  edges := d.edges.map fun e => ⟨f e.source, f e.dest, e.cost, e.req, e.info⟩
  final := f d.final

open Classical in
/-- The states for which the first pass of the renumbering requests a number, in order: the initial
state, the destinations of the edges it can traverse, and the final state. -/
noncomputable def createdOrder (d : Dag S K V I) : List S :=
  d.initial :: (d.edges.filter (fun e => decide (e.cost < ⊤
    ∧ ∃ p, DagWalk d d.initial e.source p ∧ ∀ x ∈ p, x.cost < ⊤))).map Edge.dest ++ [d.final]

/-- No state gives up its slot of the scratch table to another state and is then requested again. -/
def NoReturn (h : S → Nat) (requests : List S) : Prop :=
  ∀ s s', s ≠ s' → h s = h s' → ¬ [s, s', s].Sublist requests

/-- The builder after a history of attempted edge additions; a rejected edge raises, and the caller
goes on with the builder it has. -/
def attemptAll [DecidableEq S] (start : S) (history : List (Edge S K V I)) : PartialDag S K V I :=
  history.foldl
    (fun d e => match d.addEdge e with
      | .ok d' => d'
      | .error _ => d)
    (PartialDag.start start)

end

end RUSure.Spec
