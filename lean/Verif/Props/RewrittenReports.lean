import Verif.Lemmas.RewrittenReports
import Verif.Props.RewrittenRunner

/-!
# C79: what the default configuration reports about edits and calls
-/

namespace RUSure.Props
open RUSure RUSure.Spec RUSure.Lemmas

section
variable {M : Type} [DecidableEq M]

/-- C79: in the default configuration, if no evicted state is requested again, the report about the edits of any
decisions is the same as without renumbering: the metrics and the total of the edit sequence against a true
target, the cost and the average over the targets. `B0` stands for the targets and `B` for the true target. -/
theorem C79_edit_report (slot : EditState → Nat) (slotC : ConstraintState → Nat) (invalid : Cost) (prm : Params)
    (proto truth : List (Node M)) (targets : List (List (Node M))) (factors : Option (List ℚ))
    (ht : ∀ t ∈ truth :: targets, DecisionFree t)
    (hn : ∀ t ∈ truth :: targets, ∀ d, constructEditDag prm proto t = .ok d → NoReturn slot (createdOrder d))
    (hc : ∀ d, constructConstraintDag proto = .ok d → NoReturn slotC (createdOrder d))
    (B B0 : BuiltSystem EditState (Option EditInfo))
    (hB : buildEditSystem invalid prm proto [truth] none = .ok B)
    (hB0 : buildEditSystem invalid prm proto targets factors = .ok B0) :
    ∃ B' B0', rewrittenEditSystem slot slotC invalid prm proto [truth] none = .ok B'
      ∧ rewrittenEditSystem slot slotC invalid prm proto targets factors = .ok B0'
      ∧ ∀ a, solutionInfo invalid (fun path => (editMetrics (pack proto) (pack truth) path,
              editSequenceTotal (pack proto) (pack truth) path)) proto a (some B') (some B0')
          = solutionInfo invalid (fun path => (editMetrics (pack proto) (pack truth) path,
              editSequenceTotal (pack proto) (pack truth) path)) proto a (some B) (some B0) := by
  obtain ⟨B', h1, -, h3, -⟩ := (C79_edit slot slotC invalid prm proto [truth] none
    (fun t h => ht t (by simp at h; simp [h])) (fun t h => hn t (by simp at h; simp [h])) hc).2 B hB
  obtain ⟨B0', k1, -, k3, -⟩ := (C79_edit slot slotC invalid prm proto targets factors
    (fun t h => ht t (by simp [h])) (fun t h => hn t (by simp [h])) hc).2 B0 hB0
  refine ⟨B', B0', h1, k1, fun a => solutionInfo_same (fun f path => ?_) (.some h3) (.some k3) invalid proto a⟩
  rw [editMetrics_ren, editSequenceTotal_ren]

/-- C79: the HTML with the edits for every target is the same. -/
theorem C79_edit_html (slot : EditState → Nat) (slotC : ConstraintState → Nat) (invalid : Cost) (prm : Params)
    (proto : List (Node M)) (targets : List (List (Node M))) (factors : Option (List ℚ))
    (ht : ∀ t ∈ targets, DecisionFree t)
    (hn : ∀ t ∈ targets, ∀ d, constructEditDag prm proto t = .ok d → NoReturn slot (createdOrder d))
    (hc : ∀ d, constructConstraintDag proto = .ok d → NoReturn slotC (createdOrder d))
    (B : BuiltSystem EditState (Option EditInfo))
    (hB : buildEditSystem invalid prm proto targets factors = .ok B) :
    ∃ B', rewrittenEditSystem slot slotC invalid prm proto targets factors = .ok B'
      ∧ ∀ context a marker style, pairwiseHtml invalid proto targets context B' a marker style
          = pairwiseHtml invalid proto targets context B a marker style := by
  obtain ⟨B', h1, -, h3, -⟩ := (C79_edit slot slotC invalid prm proto targets factors ht hn hc).2 B hB
  exact ⟨B', h1, fun context a marker style =>
    pairwiseHtml_same invalid proto targets context h3 a marker style⟩

/-- C79: the HTML with the matched calls for every target is the same. -/
theorem C79_call_html (slot : SelState → Nat) (slotC : ConstraintState → Nat) (invalid : Cost) (f : SelUtility M)
    (proto : List (Node M)) (targets : List (List (Node M))) (factors : Option (List ℚ))
    (hx : ¬ Occurs proto .exit)
    (hn : ∀ t ∈ targets, ∀ d, constructSelectionDag f (pack proto) (pack t) = .ok d →
      NoReturn slot (createdOrder d))
    (hc : ∀ d, constructConstraintDag proto = .ok d → NoReturn slotC (createdOrder d))
    (B : BuiltSystem SelState (Option SelInfo))
    (hB : buildSelectionSystem invalid f proto targets factors = .ok B) :
    ∃ B', rewrittenSelectionSystem slot slotC invalid f proto targets factors = .ok B'
      ∧ ∀ a, callPairwiseHtml invalid proto targets B' a = callPairwiseHtml invalid proto targets B a := by
  obtain ⟨B', h1, -, h3, -⟩ := (C79_selection slot slotC invalid f proto targets factors hx hn hc).2 B hB
  exact ⟨B', h1, fun a => callPairwiseHtml_same invalid proto targets h3 a⟩

end

/-- C79: the counts of novel and expected calls are the same. -/
theorem C79_call_report (slot : SelState → Nat) (slotC : ConstraintState → Nat) (invalid : Cost)
    (f : SelUtility CallType) (proto truth : List (Node CallType)) (targets : List (List (Node CallType)))
    (factors : Option (List ℚ)) (hx : ¬ Occurs proto .exit)
    (hn : ∀ t ∈ truth :: targets, ∀ d, constructSelectionDag f (pack proto) (pack t) = .ok d →
      NoReturn slot (createdOrder d))
    (hc : ∀ d, constructConstraintDag proto = .ok d → NoReturn slotC (createdOrder d))
    (B B0 : BuiltSystem SelState (Option SelInfo))
    (hB : buildSelectionSystem invalid f proto [truth] none = .ok B)
    (hB0 : buildSelectionSystem invalid f proto targets factors = .ok B0) :
    ∃ B' B0', rewrittenSelectionSystem slot slotC invalid f proto [truth] none = .ok B'
      ∧ rewrittenSelectionSystem slot slotC invalid f proto targets factors = .ok B0'
      ∧ ∀ a, solutionInfo invalid (fun path => callCounts (pack proto) path) proto a (some B') (some B0')
          = solutionInfo invalid (fun path => callCounts (pack proto) path) proto a (some B) (some B0) := by
  obtain ⟨B', h1, -, h3, -⟩ := (C79_selection slot slotC invalid f proto [truth] none hx
    (fun t h => hn t (by simp at h; simp [h])) hc).2 B hB
  obtain ⟨B0', k1, -, k3, -⟩ := (C79_selection slot slotC invalid f proto targets factors hx
    (fun t h => hn t (by simp [h])) hc).2 B0 hB0
  exact ⟨B', B0', h1, k1, fun a => solutionInfo_same (fun f path => callCounts_ren f _ path) (.some h3) (.some k3)
    invalid proto a⟩

/-! ## Example -/

/-- C79 on the example of C59, with its first target as the true target. -/
example : ∃ slot slotC B', rewrittenEditSystem slot slotC 0 sysParams sysProto sysTargets (some [1, 3 / 2]) = .ok B'
    ∧ ∃ B, buildEditSystem 0 sysParams sysProto sysTargets (some [1, 3 / 2]) = .ok B
    ∧ ∀ a, pairwiseHtml 0 sysProto sysTargets [] B' a ['|'] [] = pairwiseHtml 0 sysProto sysTargets [] B a ['|'] [] := by
  obtain ⟨slot, hn⟩ := slots_exist_for (constructEditDag sysParams sysProto) sysTargets
  obtain ⟨slotC, hc⟩ := slots_exist_for (fun _ : Unit => constructConstraintDag sysProto) [()]
  obtain ⟨B, hB, -⟩ := C59_builds 0 sysParams sysProto sysTargets (some [1, 3 / 2]) sysTargets_free
    sysTargets_factors
  obtain ⟨B', h1, h2⟩ := C79_edit_html slot slotC 0 sysParams sysProto sysTargets (some [1, 3 / 2])
    sysTargets_free hn (hc () (by simp)) B hB
  exact ⟨slot, slotC, B', h1, B, hB, fun a => h2 [] a ['|'] []⟩

end RUSure.Props
