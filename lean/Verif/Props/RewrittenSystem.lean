import Verif.Lemmas.RewrittenSystem
import Verif.Props.System

/-!
# C79: the default configuration, which renumbers states, builds the same system
-/

namespace RUSure.Props
open RUSure RUSure.Spec RUSure.Lemmas

variable {M : Type} [DecidableEq M]

/-- C79: if no state gives up its slot of the scratch table and is requested again, then `build_system` with
renumbered states fails exactly as it does without, and otherwise builds the same system: the same packed DAGs
with the same costs, variables, values and messages. Its utility DAGs and its constraint DAG only have other
names for the states, and different states have different names. -/
theorem C79_edit (slot : EditState → Nat) (slotC : ConstraintState → Nat) (invalid : Cost) (prm : Params)
    (proto : List (Node M)) (targets : List (List (Node M))) (factors : Option (List ℚ))
    (ht : ∀ t ∈ targets, DecisionFree t)
    (hn : ∀ t ∈ targets, ∀ d, constructEditDag prm proto t = .ok d → NoReturn slot (createdOrder d))
    (hc : ∀ d, constructConstraintDag proto = .ok d → NoReturn slotC (createdOrder d)) :
    (∀ e, buildEditSystem invalid prm proto targets factors = .error e →
      rewrittenEditSystem slot slotC invalid prm proto targets factors = .error e)
    ∧ ∀ B, buildEditSystem invalid prm proto targets factors = .ok B →
      ∃ B', rewrittenEditSystem slot slotC invalid prm proto targets factors = .ok B'
        ∧ B'.system = B.system ∧ List.Forall₂ SamePart B.utilities B'.utilities
        ∧ SamePart B.constraint B'.constraint :=
  buildRewritten_same (fun t htm d hd => edit_good prm proto t (ht t htm) d hd) hn hc

/-- C79: the same for selections. -/
theorem C79_selection (slot : SelState → Nat) (slotC : ConstraintState → Nat) (invalid : Cost) (f : SelUtility M)
    (proto : List (Node M)) (targets : List (List (Node M))) (factors : Option (List ℚ))
    (hx : ¬ Occurs proto .exit)
    (hn : ∀ t ∈ targets, ∀ d, constructSelectionDag f (pack proto) (pack t) = .ok d →
      NoReturn slot (createdOrder d))
    (hc : ∀ d, constructConstraintDag proto = .ok d → NoReturn slotC (createdOrder d)) :
    (∀ e, buildSelectionSystem invalid f proto targets factors = .error e →
      rewrittenSelectionSystem slot slotC invalid f proto targets factors = .error e)
    ∧ ∀ B, buildSelectionSystem invalid f proto targets factors = .ok B →
      ∃ B', rewrittenSelectionSystem slot slotC invalid f proto targets factors = .ok B'
        ∧ B'.system = B.system ∧ List.Forall₂ SamePart B.utilities B'.utilities
        ∧ SamePart B.constraint B'.constraint :=
  buildRewritten_same (fun t _ d hd => selection_good f proto t hx d hd) hn hc

/-- C79: so in the default configuration, if no evicted state is requested again, `build_system` does not fail
for usable scale factors, and at any time greedy extraction returns well-formed decisions for the whole
prototype with the exact weighted total of the cheapest edit scripts; they are optimal if this is at most the
dual value. -/
theorem C79_edit_greedy (slot : EditState → Nat) (slotC : ConstraintState → Nat) (invalid : Cost) (prm : Params)
    (proto : List (Node M)) (targets : List (List (Node M))) (factors : Option (List ℚ))
    (ht : ∀ t ∈ targets, DecisionFree t) (hf : GoodFactors targets factors)
    (hn : ∀ t ∈ targets, ∀ d, constructEditDag prm proto t = .ok d → NoReturn slot (createdOrder d))
    (hc : ∀ d, constructConstraintDag proto = .ok d → NoReturn slotC (createdOrder d))
    (hk : seqKeys 0 proto ≠ []) :
    ∃ B, rewrittenEditSystem slot slotC invalid prm proto targets factors = .ok B
      ∧ ∀ D, SolverReach B.system D → ∀ dir, ∃ (vec : List Nat) (α : DecisionKey → DecisionValue) (x : ℚ),
        D.data.greedy dir = some (vec, some (x : Cost))
        ∧ assignmentPairs D.keys D.values vec = some ((seqKeys 0 proto).map fun k => (k, α k))
        ∧ WellFormedRegions α proto
        ∧ WeightedTotal (LeastEditCost prm proto α)
            (targets.zip (targetWeights targets.length factors)) x
        ∧ ((x : Cost) ≤ dualValue D.data → ∀ β, WellFormedRegions β proto → ∀ y,
            WeightedTotal (LeastEditCost prm proto β)
              (targets.zip (targetWeights targets.length factors)) y → x ≤ y) := by
  obtain ⟨B, hB, -⟩ := C59_builds invalid prm proto targets factors ht hf
  obtain ⟨B', h1, h2, -⟩ := (C79_edit slot slotC invalid prm proto targets factors ht hn hc).2 B hB
  refine ⟨B', h1, fun D hr dir => ?_⟩
  rw [h2] at hr
  obtain ⟨vec, α, x, g1, g2, g3, g4, -, g6⟩ := C59_greedy hB ht hf hr hk dir
  exact ⟨vec, α, x, g1, g2, g3, g4, g6⟩

/-- C79: whatever collides and whatever is evicted: if the default configuration builds a system, then there is
one packed DAG for each target with a scale factor, in order, and every complete path of it stands for an edit
script from the prototype to the target. The path has the price of the script, before scaling, and makes the
decisions of the script. So costs are never too low, but scripts may be missing. Every complete path of the
packed constraint DAG makes well-formed decisions, if all decisions are variables of it. -/
theorem C79_edit_sound (slot : EditState → Nat) (slotC : ConstraintState → Nat) (invalid : Cost) (prm : Params)
    (proto : List (Node M)) (targets : List (List (Node M))) (factors : Option (List ℚ))
    (B : RewrittenSystem (Option EditInfo))
    (h : rewrittenEditSystem slot slotC invalid prm proto targets factors = .ok B) :
    List.Forall₂ (fun (ts : List (Node M) × ℚ) p => p.scale = ts.2
        ∧ ∀ q, IndexedPath p.conversion.packed q → Complete p.conversion.packed (q.map Prod.snd) →
          ∃ ss, (∃ r, (r = none ∨ r = some .high) ∧ Edits prm .advancing .high 0 proto 0 ts.1 ss r)
            ∧ plainCost (q.map Prod.snd) = ((scriptPrice prm proto ts.1 ss : ℚ) : Cost)
            ∧ p.conversion.pathAssignments q
              = p.conversion.keys.map fun k => (k, decided (ss.filterMap EditStep.decision) k))
      (targets.zip (targetWeights targets.length factors)) B.utilities
    ∧ B.constraint.scale = (targetWeights targets.length factors).sum
    ∧ (B.constraint.conversion.keys = seqKeys 0 proto → ∀ q, IndexedPath B.constraint.conversion.packed q →
        Complete B.constraint.conversion.packed (q.map Prod.snd) → ∃ α, WellFormedRegions α proto
          ∧ B.constraint.conversion.pathAssignments q = (seqKeys 0 proto).map fun k => (k, α k))
    ∧ makeSystem invalid (B.utilities.map Part.entry ++ [B.constraint.entry])
        (some (B.utilities.map Part.scale ++ [B.constraint.scale])) = .ok B.system := by
  obtain ⟨h1, h2, ⟨dc, hdc, h3⟩, h4⟩ := buildRewritten_sound
    (fun t _ d hd => (C45_edit prm proto t d hd).1) h
  refine ⟨?_, h2, ?_, h4⟩
  · refine h1.imp ?_
    rintro ts p ⟨hs, d, hd, hp⟩
    refine ⟨hs, fun q hi hq => ?_⟩
    obtain ⟨w, hw, w1, -, w3⟩ := hp q hi hq
    refine ⟨scriptOf w, (C46_scripts prm proto ts.1 d hd _).1 ⟨w, hw, rfl⟩, ?_, ?_⟩
    · rw [w1, C47_cost prm proto ts.1 d hd w hw, script_edits]
      rfl
    · rw [w3]
      refine List.map_congr_left fun k _ => ?_
      rw [valueOn_lookup, ← decisionsOf_eq, script_decs]
      rfl
  · intro hkeys q hi hq
    obtain ⟨w, hw, -, -, w3⟩ := h3 q hi hq
    refine ⟨fun k => (valueOn w k).getD .na, (C42_accepts proto dc hdc _).1 ⟨w, hw, fun _ _ => rfl⟩, ?_⟩
    rw [w3, hkeys]

/-- C79: the same for selections. -/
theorem C79_selection_sound (slot : SelState → Nat) (slotC : ConstraintState → Nat) (invalid : Cost)
    (f : SelUtility M) (proto : List (Node M)) (targets : List (List (Node M))) (factors : Option (List ℚ))
    (B : RewrittenSystem (Option SelInfo))
    (h : rewrittenSelectionSystem slot slotC invalid f proto targets factors = .ok B) :
    List.Forall₂ (fun (ts : List (Node M) × ℚ) p => p.scale = ts.2
        ∧ ∀ q, IndexedPath p.conversion.packed q → Complete p.conversion.packed (q.map Prod.snd) →
          ∃ ss, Selects f (items 0 proto) (items 0 ts.1) ss
            ∧ plainCost (q.map Prod.snd)
              = ((((ss.filterMap SelStep.info).map (selPrice f proto)).sum : ℚ) : Cost)
            ∧ p.conversion.pathAssignments q
              = p.conversion.keys.map fun k => (k, decided (ss.filterMap SelStep.decision) k))
      (targets.zip (targetWeights targets.length factors)) B.utilities
    ∧ B.constraint.scale = (targetWeights targets.length factors).sum
    ∧ makeSystem invalid (B.utilities.map Part.entry ++ [B.constraint.entry])
        (some (B.utilities.map Part.scale ++ [B.constraint.scale])) = .ok B.system := by
  obtain ⟨h1, h2, -, h4⟩ := buildRewritten_sound
    (fun t _ d hd => (C45_selection f proto t d hd).1) h
  refine ⟨?_, h2, h4⟩
  refine h1.imp ?_
  rintro ts p ⟨hs, d, hd, hp⟩
  refine ⟨hs, fun q hi hq => ?_⟩
  obtain ⟨w, hw, w1, -, w3⟩ := hp q hi hq
  refine ⟨selectionOf w, (C50_paths f proto ts.1 d hd _).1 ⟨w, hw, rfl⟩, ?_, ?_⟩
  · rw [w1, C50_cost f proto ts.1 d hd w hw, selInfos_eq]
    rfl
  · rw [w3]
    refine List.map_congr_left fun k _ => ?_
    rw [valueOn_lookup]
    have : (w.flatMap fun e => e.req.toList) = selDecisions w := (selDecisions_flat w).symm
    rw [this, selDecisions_eq]
    rfl

/-! ## The hypotheses can be met -/

/-- For any requests there are slots with which no evicted state is requested again. -/
theorem slots_exist {S : Type} [DecidableEq S] (requests : List (List S)) :
    ∃ slot : S → Nat, ∀ l ∈ requests, NoReturn slot l := by
  refine ⟨fun s => requests.flatten.idxOf s, fun l hl s s' hne he hsub => hne ?_⟩
  have hs : s ∈ requests.flatten := List.mem_flatten.2 ⟨l, hl, hsub.subset (by simp)⟩
  exact (List.idxOf_inj hs).1 he

/-- For the DAGs of any targets there are such slots. -/
theorem slots_exist_for {T E S I : Type} [DecidableEq S]
    (make : T → Except E (Dag S DecisionKey DecisionValue I)) (targets : List T) :
    ∃ slot : S → Nat, ∀ t ∈ targets, ∀ d, make t = .ok d → NoReturn slot (createdOrder d) := by
  classical
  obtain ⟨slot, h⟩ := slots_exist (targets.map fun t => match make t with
    | .ok d => createdOrder d
    | .error _ => [])
  refine ⟨slot, fun t ht d hd => h _ (List.mem_map.2 ⟨t, ht, ?_⟩)⟩
  rw [hd]

/-- C79 on the example of C59: with suitable slots the same system is built, and greedy extraction finds
decisions. -/
example : ∃ slot slotC B B', buildEditSystem 0 sysParams sysProto sysTargets (some [1, 3 / 2]) = .ok B
    ∧ rewrittenEditSystem slot slotC 0 sysParams sysProto sysTargets (some [1, 3 / 2]) = .ok B'
    ∧ B'.system = B.system ∧ List.Forall₂ SamePart B.utilities B'.utilities
    ∧ ∃ vec x, B'.system.data.greedy .forward = some (vec, some ((x : ℚ) : Cost)) := by
  obtain ⟨slot, hn⟩ := slots_exist_for (constructEditDag sysParams sysProto) sysTargets
  obtain ⟨slotC, hc⟩ := slots_exist_for (fun _ : Unit => constructConstraintDag sysProto) [()]
  have hc' := hc () (by simp)
  obtain ⟨B, hB, -⟩ := C59_builds 0 sysParams sysProto sysTargets (some [1, 3 / 2]) sysTargets_free
    sysTargets_factors
  obtain ⟨B', h1, h2, h3, -⟩ := (C79_edit slot slotC 0 sysParams sysProto sysTargets (some [1, 3 / 2])
    sysTargets_free hn hc').2 B hB
  obtain ⟨B'', h1', h4⟩ := C79_edit_greedy slot slotC 0 sysParams sysProto sysTargets (some [1, 3 / 2])
    sysTargets_free sysTargets_factors hn hc' (by rw [sysProto_keys]; simp)
  rw [h1] at h1'
  cases h1'
  obtain ⟨vec, α, x, h5, -⟩ := h4 _ .start .forward
  exact ⟨slot, slotC, B, B', hB, h1, h2, h3, vec, x, h5⟩

end RUSure.Props
