import Verif.Spec.System
import Verif.Props.Pipeline
import Verif.Props.PackedDag
import Verif.Props.Dual
import Verif.Props.Constraint

/-!
# The systems built from a prototype and targets
-/

namespace RUSure.Lemmas
open RUSure RUSure.Spec RUSure.Props

/-- The order of the values. -/
abbrev allValues : List DecisionValue := [.no, .yes, .na]

theorem allValues_nodup : allValues.Nodup := by decide

section
variable {S I : Type} [DecidableEq S]

/-- A path of the DAG makes the decisions `α`. -/
def PathFor (d : Dag S DecisionKey DecisionValue I) (keys : List DecisionKey)
    (α : DecisionKey → DecisionValue) (w : List (Edge S DecisionKey DecisionValue I)) : Prop :=
  DagSolution d w ∧ ∀ k ∈ keys, α k = (valueOn w k).getD .na

theorem packPart_ok {E : Type} {d : Dag S DecisionKey DecisionValue I} {s : ℚ} {p : Part S I}
    (h : packPart (E := E) d s = .ok p) :
    ∃ c, d.prune.convert .na (some allValues) = .ok c ∧ p = ⟨d.prune, c, s⟩ := by
  unfold packPart at h
  split at h
  · cases h
  · rename_i c hc
    injection h with h
    exact ⟨c, hc, h.symm⟩

theorem convert_values {d : Dag S DecisionKey DecisionValue I}
    (ht : Topo Edge.source Edge.dest d.edges) {c : Conversion S DecisionKey DecisionValue}
    (h : d.convert .na (some allValues) = .ok c) : c.values = allValues
      ∧ c.packed.numValues = 3 := by
  obtain ⟨T, hT⟩ := convert_ok ht h
  exact ⟨hT.asm.values_eq, hT.asm.numValues⟩

theorem part_good {d : Dag S DecisionKey DecisionValue I}
    (ht : Topo Edge.source Edge.dest d.edges) {c : Conversion S DecisionKey DecisionValue}
    (h : d.prune.convert .na (some allValues) = .ok c) {s : ℚ} (hs : 0 < s) :
    GoodDag (⟨d.prune, c, s⟩ : Part S I).entry := by
  have htp := prune_topo d ht
  obtain ⟨wf, hk, hsort, -⟩ := C27_convert d.prune htp _ _ c h
  obtain ⟨hv, hn⟩ := convert_values htp h
  obtain ⟨wf', -, hk', hv', -⟩ := C34_scale_paths c.packed wf s hs
  refine ⟨wf', hsort.imp fun h => ne_of_lt h, ?_, ?_⟩
  · change c.keys.length = _
    rw [show (⟨d.prune, c, s⟩ : Part S I).entry.1.numKeys = c.packed.numKeys from hk', hk]
  · change c.values.length = _
    rw [show (⟨d.prune, c, s⟩ : Part S I).entry.1.numValues = c.packed.numValues from hv', hv, hn]
    rfl

/-- The values on a packed path. -/
theorem part_values {d : Dag S DecisionKey DecisionValue I}
    (ht : Topo Edge.source Edge.dest d.edges) {c : Conversion S DecisionKey DecisionValue}
    (h : d.prune.convert .na (some allValues) = .ok c)
    {a : Nat → Nat} {α : DecisionKey → DecisionValue}
    (hα : ∀ v k, c.keys[v]? = some k → allValues[a v]? = some (α k)) :
    ∀ (q : List (Nat × PackedEdge)), IndexedPath c.packed q →
      Complete c.packed (q.map Prod.snd) →
      ((∀ v y, (v, y) ∈ assignments (q.map Prod.snd) → y = a v)
        ↔ ∀ k ∈ c.keys, α k = (valueOn (c.originalPath d.prune q) k).getD .na) := by
  have htp := prune_topo d ht
  obtain ⟨hv, -⟩ := convert_values htp h
  intro q hi hq
  obtain ⟨-, -, b3, b4⟩ := C26_backward d.prune htp _ _ c h q hi hq
  have hb : c.pathAssignments q
      = c.keys.map fun k => (k, (valueOn (c.originalPath d.prune q) k).getD .na) := by
    rw [b3]
    exact List.map_congr_left fun k _ => by rw [valueOn_inst]
  rw [hb, List.map_map, hv] at b4
  constructor
  · intro hall k hk
    have hmem : ((some k, some ((valueOn (c.originalPath d.prune q) k).getD .na)) :
        Option DecisionKey × Option DecisionValue) ∈ (assignments (q.map Prod.snd)).map
          (fun kv => (c.keys[kv.1]?, allValues[kv.2]?)) := by
      rw [b4]
      exact List.mem_map.2 ⟨k, hk, rfl⟩
    obtain ⟨⟨v, y⟩, hvy, he⟩ := List.mem_map.1 hmem
    simp only [Prod.mk.injEq] at he
    have := hα v k he.1
    rw [← hall v y hvy, he.2] at this
    exact (Option.some.inj this).symm
  · intro hall v y hvy
    have hmem := List.mem_map_of_mem
      (f := fun (kv : Nat × Nat) => (c.keys[kv.1]?, allValues[kv.2]?)) hvy
    rw [b4] at hmem
    obtain ⟨k, hk, he⟩ := List.mem_map.1 hmem
    simp only [Function.comp, Prod.mk.injEq] at he
    have h1 := hα v k he.1.symm
    rw [← hall k hk, ← h1] at he
    have hlt : y < allValues.length := by
      by_contra hc
      have hn : allValues[y]? = none := List.getElem?_eq_none (not_lt.1 hc)
      rw [hn, h1] at he
      simp at he
    exact ((List.getElem?_inj hlt allValues_nodup).1 he.2.symm)

/-- The complete paths of a packed and scaled DAG are the solutions of the DAG. -/
theorem part_paths {d : Dag S DecisionKey DecisionValue I}
    (ht : Topo Edge.source Edge.dest d.edges) {c : Conversion S DecisionKey DecisionValue}
    (h : d.prune.convert .na (some allValues) = .ok c) {s : ℚ} (hs : 0 < s)
    {a : Nat → Nat} {α : DecisionKey → DecisionValue}
    (hα : ∀ v k, c.keys[v]? = some k → allValues[a v]? = some (α k)) (x : Cost) :
    (∃ q, Complete (c.packed.scale s) q ∧ (∀ v y, (v, y) ∈ assignments q → y = a v)
        ∧ weight PackedEdge.cost q = x)
      ↔ ∃ w, PathFor d c.keys α w ∧ x = (weight Edge.cost w).map (· * s) := by
  have htp := prune_topo d ht
  obtain ⟨wf, hkn, hsort, -, hrange⟩ := C27_convert d.prune htp _ _ c h
  obtain ⟨hv, -⟩ := convert_values htp h
  have hnd : c.keys.Nodup := hsort.imp fun h => ne_of_lt h
  obtain ⟨-, -, -, -, f, hinj, hf, hfwd, hbwd, hcost⟩ := C34_scale_paths c.packed wf s hs
  have hasg : ∀ p : List PackedEdge, assignments (p.map f) = assignments p := by
    intro p
    unfold assignments
    rw [List.filterMap_map]
    congr 1
    funext e
    exact (hf e).2.2
  have hpc : ∀ p, weight PackedEdge.cost p = plainCost p := fun _ => rfl
  have hvals := part_values ht h hα
  constructor
  · rintro ⟨q, hq, hqa, rfl⟩
    obtain ⟨p, rfl, hp⟩ := hbwd q hq
    obtain ⟨p', hi, rfl⟩ := exists_indexed _ hp
    obtain ⟨b1, b2, -⟩ := C26_backward d.prune htp _ _ c h p' hi hp
    refine ⟨_, ⟨(C23_solutions d ht.1 _).1 b1, (hvals p' hi hp).1 ?_⟩, ?_⟩
    · rw [hasg] at hqa; exact hqa
    · rw [hpc, hcost, b2]
  · rintro ⟨w, ⟨hw, hwα⟩, rfl⟩
    obtain ⟨q, h1, h2, h3⟩ := C26_forward d.prune htp _ _ c h w ((C23_solutions d ht.1 w).2 hw)
    obtain ⟨-, b2, -⟩ := C26_backward d.prune htp _ _ c h q h1 h2
    refine ⟨_, hfwd _ h2, ?_, ?_⟩
    · rw [hasg]
      refine (hvals q h1 h2).2 ?_
      rw [h3]; exact hwα
    · rw [hpc, hcost, b2, h3]

end

end RUSure.Lemmas
