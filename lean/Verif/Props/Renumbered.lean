import Verif.Lemmas.RewrittenSystem
import Verif.Props.Pipeline

/-!
# C54: renumbering before packing
-/

namespace RUSure.Props
open RUSure RUSure.Spec RUSure.Lemmas

variable {S K V I : Type} [DecidableEq S] [LinearOrder K] [LinearOrder V]

/-- C54: pruning, renumbering and packing keep the minimal penalised cost, whatever the penalties, if no state
that gave up its slot is requested again; and packing succeeds exactly if it does without renumbering, with the
same packed DAG. -/
theorem C54_renumbered (slot : S → Nat) (d : Dag S K V I) (ht : Topo Edge.source Edge.dest d.edges)
    (hs : ∃ p, DagSolution d p) (hn : NoReturn slot (createdOrder d)) (missing : V) (ordering : Option (List V)) :
    ∃ d', d.pruneRewrite slot = some d'
      ∧ (∀ e, d'.convert missing ordering = .error e ↔ d.prune.convert missing ordering = .error e)
      ∧ ∀ c', d'.convert missing ordering = .ok c' →
        (∃ c, d.prune.convert missing ordering = .ok c ∧ c'.packed = c.packed ∧ c'.keys = c.keys
          ∧ c'.values = c.values)
        ∧ ∀ (pen : K → V → Cost) (x : Cost), IsMinimum (Complete c'.packed) (pathCost (packedPenalties c' pen)) x
          ↔ IsMinimum (DagSolution d) (penalizedCost c'.keys missing pen) x := by
  have htd : DagTopo d := ht.1
  obtain ⟨h1, h2⟩ := C25_rename_partial slot d htd hn
  cases hd : d.pruneRewrite slot with
  | none => exact absurd hs (h1.1 hd)
  | some d' =>
    obtain ⟨f, n, rfl, hinj, -⟩ := h2 d' hd
    have hinj' : ∀ s s', DagState d.prune s → DagState d.prune s' → f s = f s' → s = s' := fun s s' a b =>
      hinj s s' (prune_states htd hs a) (prune_states htd hs b)
    refine ⟨_, rfl, fun e => ?_, fun c' hc' => ?_⟩
    · rw [convert_renOn d.prune hinj']
      cases d.prune.convert missing ordering <;> simp [Except.map]
    · rw [convert_renOn d.prune hinj'] at hc'
      cases hc : d.prune.convert missing ordering with
      | error e => rw [hc] at hc'; cases hc'
      | ok c =>
        rw [hc] at hc'
        injection hc' with hc'
        subst hc'
        exact ⟨⟨c, rfl, rfl, rfl, rfl⟩, fun pen x => C54_minimum d ht missing ordering c hc pen x⟩

/-- The hypotheses hold, with two states in one slot, and packing succeeds. -/
example : ∃ d' c', pipelineDag.pruneRewrite (fun s => if s = 4 then 0 else s) = some d'
    ∧ d'.convert 0 none = .ok c' := by
  obtain ⟨c, hc, p, hp, -⟩ := pipelineDag_converts
  have hn : NoReturn (fun s => if s = 4 then 0 else s) (createdOrder pipelineDag) := by
    have hsub : (createdOrder pipelineDag).Sublist [0, 1, 2, 3, 4, 4, 4, 4] := by
      have : ([0, 1, 2, 3, 4, 4, 4, 4] : List Nat)
        = pipelineDag.initial :: pipelineDag.edges.map Edge.dest ++ [pipelineDag.final] := rfl
      rw [this, createdOrder]
      exact ((List.filter_sublist.map _).cons_cons _).append (List.Sublist.refl _)
    intro s s' hne he hs
    have h3 := hs.trans hsub
    have hmem : ∀ x ∈ [s, s', s], x ∈ ([0, 1, 2, 3, 4, 4, 4, 4] : List Nat) := fun x hx => h3.subset hx
    have hs1 := hmem s (by simp)
    have hs2 := hmem s' (by simp)
    simp only [List.mem_cons, List.not_mem_nil, or_false] at hs1 hs2
    revert h3
    rcases hs1 with rfl | rfl | rfl | rfl | rfl | rfl | rfl | rfl <;>
      rcases hs2 with rfl | rfl | rfl | rfl | rfl | rfl | rfl | rfl <;> simp_all
    all_goals decide
  obtain ⟨d', h1, h2, -⟩ := C54_renumbered (fun s => if s = 4 then 0 else s) pipelineDag pipelineDag_topo ⟨p, hp⟩ hn
    0 none
  refine ⟨d', ?_⟩
  cases h : d'.convert 0 none with
  | error e => rw [(h2 e).1 h] at hc; cases hc
  | ok c' => exact ⟨c', h1, rfl⟩

end RUSure.Props
