import Verif.Lemmas.SystemSolve
import Verif.Props.Edit
import Verif.Props.Selection

/-!
# C59: what `build_system` builds, and what is extracted from it
-/

namespace RUSure.Props
open RUSure RUSure.Spec RUSure.Lemmas

variable {M : Type} [DecidableEq M]

/-! ## Utility DAGs -/

theorem edit_good (prm : Params) (proto target : List (Node M)) (ht : DecisionFree target)
    (d : Dag EditState DecisionKey DecisionValue (Option EditInfo))
    (h : constructEditDag prm proto target = .ok d) : GoodUtility proto d :=
  ⟨(C45_edit prm proto target d h).1, (C45_edit_packs prm proto target ht d h).1,
    (C45_edit_packs prm proto target ht d h).2, fun α hα => C57_feasible prm proto target ht d h α hα⟩

theorem edit_price (prm : Params) (proto target : List (Node M)) (α : DecisionKey → DecisionValue)
    (x : Cost) :
    PathPrice (constructEditDag prm proto) (seqKeys 0 proto) α target x
      ↔ ∃ ss, ScriptFor prm proto target α ss ∧ x = ((scriptPrice prm proto target ss : ℚ) : Cost) := by
  have hval : ∀ (w : List EditEdge) k, (valueOn w k).getD .na
      = decided ((scriptOf w).filterMap EditStep.decision) k := by
    intro w k
    rw [valueOn_lookup, ← decisionsOf_eq, script_decs]
    rfl
  obtain ⟨d, hd⟩ := C46_builds prm proto target
  constructor
  · rintro ⟨d', w, hd', ⟨hw, hα⟩, rfl⟩
    rw [hd] at hd'
    obtain rfl := Except.ok.inj hd'
    refine ⟨scriptOf w, ⟨(C46_scripts prm proto target d hd _).1 ⟨w, hw, rfl⟩, ?_⟩, ?_⟩
    · intro k hk
      rw [hα k hk, hval]
    · rw [C47_cost prm proto target d hd w hw, script_edits]
      rfl
  · rintro ⟨ss, ⟨hs, hα⟩, rfl⟩
    obtain ⟨w, hw, rfl⟩ := (C46_scripts prm proto target d hd ss).2 hs
    refine ⟨d, w, hd, ⟨hw, fun k hk => by rw [hα k hk, hval]⟩, ?_⟩
    rw [C47_cost prm proto target d hd w hw, script_edits]
    rfl

theorem edit_least (prm : Params) (proto target : List (Node M)) (α : DecisionKey → DecisionValue)
    (c : ℚ) :
    LeastPath (constructEditDag prm proto) (seqKeys 0 proto) α target c
      ↔ LeastEditCost prm proto α target c := by
  unfold LeastPath LeastEditCost
  simp only [edit_price]
  constructor
  · rintro ⟨⟨ss, h1, h2⟩, h3⟩
    refine ⟨⟨ss, h1, (WithTop.coe_injective h2).symm⟩, fun ss' hs' => ?_⟩
    exact WithTop.coe_le_coe.1 (h3 _ ⟨ss', hs', rfl⟩)
  · rintro ⟨⟨ss, h1, h2⟩, h3⟩
    refine ⟨⟨ss, h1, by rw [h2]⟩, ?_⟩
    rintro x ⟨ss', hs', rfl⟩
    exact WithTop.coe_le_coe.2 (h3 ss' hs')

theorem selDecisions_flat (p : List SelEdge) :
    selDecisions p = p.flatMap fun e => e.req.toList := by
  unfold selDecisions
  induction p with
  | nil => rfl
  | cons e p ih => cases h : e.req <;> simp [List.filterMap_cons, List.flatMap_cons, h, ih]

theorem selection_good (f : SelUtility M) (proto target : List (Node M)) (hx : ¬ Occurs proto .exit)
    (d : Dag SelState DecisionKey DecisionValue (Option SelInfo))
    (h : constructSelectionDag f (pack proto) (pack target) = .ok d) : GoodUtility proto d := by
  refine ⟨(C45_selection f proto target d h).1, (C45_selection_packs f proto target hx d h).1,
    (C45_selection_packs f proto target hx d h).2, fun α hα => ?_⟩
  obtain ⟨dc, hdc⟩ := C42_builds proto
  obtain ⟨q, hq, hqα⟩ := (C42_accepts proto dc hdc α).2 hα
  obtain ⟨p, hp, hpd⟩ := C50_decisions f proto target hx d h dc hdc q hq
  refine ⟨p, hp, fun k hk => ?_⟩
  rw [hqα k hk, valueOn_lookup, valueOn_lookup, ← hpd, selDecisions_flat]

theorem selection_price (f : SelUtility M) (proto target : List (Node M))
    (hb : ∃ d, constructSelectionDag f (pack proto) (pack target) = .ok d)
    (α : DecisionKey → DecisionValue) (x : Cost) :
    PathPrice (fun t => constructSelectionDag f (pack proto) (pack t)) (seqKeys 0 proto) α target x
      ↔ ∃ ss, LookupFor f proto target α ss
        ∧ x = ((((ss.filterMap SelStep.info).map (selPrice f proto)).sum : ℚ) : Cost) := by
  have hval : ∀ (w : List SelEdge) k, (valueOn w k).getD .na
      = decided ((selectionOf w).filterMap SelStep.decision) k := by
    intro w k
    rw [valueOn_lookup]
    have : (w.flatMap fun e => e.req.toList) = selDecisions w :=
      (selDecisions_flat w).symm
    rw [this, selDecisions_eq]
    rfl
  obtain ⟨d, hd⟩ := hb
  constructor
  · rintro ⟨d', w, hd', ⟨hw, hα⟩, rfl⟩
    simp only [hd] at hd'
    obtain rfl := Except.ok.inj hd'
    refine ⟨selectionOf w, ⟨(C50_paths f proto target d hd _).1 ⟨w, hw, rfl⟩, ?_⟩, ?_⟩
    · intro k hk
      rw [hα k hk, hval]
    · rw [C50_cost f proto target d hd w hw, selInfos_eq]
      rfl
  · rintro ⟨ss, ⟨hs, hα⟩, rfl⟩
    obtain ⟨w, hw, rfl⟩ := (C50_paths f proto target d hd ss).2 hs
    refine ⟨d, w, hd, ⟨hw, fun k hk => by rw [hα k hk, hval]⟩, ?_⟩
    rw [C50_cost f proto target d hd w hw, selInfos_eq]
    rfl

theorem selection_least (f : SelUtility M) (proto target : List (Node M))
    (hb : ∃ d, constructSelectionDag f (pack proto) (pack target) = .ok d)
    (α : DecisionKey → DecisionValue) (c : ℚ) :
    LeastPath (fun t => constructSelectionDag f (pack proto) (pack t)) (seqKeys 0 proto) α target c
      ↔ LeastLookupCost f proto α target c := by
  unfold LeastPath LeastLookupCost
  simp only [selection_price f proto target hb]
  constructor
  · rintro ⟨⟨ss, h1, h2⟩, h3⟩
    refine ⟨⟨ss, h1, (WithTop.coe_injective h2).symm⟩, fun ss' hs' => ?_⟩
    exact WithTop.coe_le_coe.1 (h3 _ ⟨ss', hs', rfl⟩)
  · rintro ⟨⟨ss, h1, h2⟩, h3⟩
    refine ⟨⟨ss, h1, by rw [h2]⟩, ?_⟩
    rintro x ⟨ss', hs', rfl⟩
    exact WithTop.coe_le_coe.2 (h3 ss' hs')

/-! ## Building a system of edit DAGs -/

/-- C59: `build_system` never fails if there is a target, the targets contain no decisions, and the
scale factors are positive. The variables of the system are the decisions there are for the
prototype. There is one utility DAG for each target with a scale factor, in order. -/
theorem C59_builds (invalid : Cost) (prm : Params) (proto : List (Node M))
    (targets : List (List (Node M))) (factors : Option (List ℚ))
    (ht : ∀ t ∈ targets, DecisionFree t) (hf : GoodFactors targets factors) :
    ∃ B, buildEditSystem invalid prm proto targets factors = .ok B
      ∧ B.system.keys = seqKeys 0 proto ∧ B.system.values = [.no, .yes, .na]
      ∧ B.utilities.map Part.scale = (targetWeights targets.length factors).take targets.length := by
  obtain ⟨B, hB⟩ := buildSystem_total (invalid := invalid) (make := constructEditDag prm proto)
    (proto := proto) (targets := targets) hf (fun t htm => by
      obtain ⟨d, hd⟩ := C46_builds prm proto t
      exact ⟨d, hd, edit_good prm proto t (ht t htm) d hd⟩)
  have hb := built_of hf (fun t htm d hd => edit_good prm proto t (ht t htm) d hd) hB
  refine ⟨B, hB, hb.keys.1, hb.keys.2.1, ?_⟩
  have h1 := hb.parts
  have h2 : ∀ (l : List (List (Node M) × ℚ)) (ps : List (Part EditState (Option EditInfo))),
      List.Forall₂ (PartOf (constructEditDag prm proto)) l ps → ps.map Part.scale = l.map Prod.snd := by
    intro l ps h
    induction h with
    | nil => rfl
    | cons h1 _ ih =>
      obtain ⟨d, c, -, -, rfl⟩ := h1
      rw [List.map_cons, List.map_cons, ih]
  have h3 : ∀ (ts : List (List (Node M))) (fs : List ℚ),
      (ts.zip fs).map Prod.snd = fs.take ts.length := by
    intro ts
    induction ts with
    | nil => simp
    | cons t ts ih =>
      intro fs
      cases fs with
      | nil => simp
      | cons f fs => simp [ih fs]
  rw [h2 _ _ h1, h3]

/-- C59: without targets and scale factors, `build_system` divides by zero. -/
theorem C59_no_targets (invalid : Cost) (prm : Params) (proto : List (Node M)) :
    buildEditSystem invalid prm proto [] none = .error .noTargets := rfl

/-- C59: targets without a scale factor are ignored. -/
theorem C59_fewer_factors (invalid : Cost) (prm : Params) (proto : List (Node M))
    (targets : List (List (Node M))) (fs : List ℚ) :
    buildEditSystem invalid prm proto targets (some fs)
      = buildEditSystem invalid prm proto (targets.take fs.length) (some fs) := by
  have hz : targets.zip fs = (targets.take fs.length).zip fs := by
    induction targets generalizing fs with
    | nil => simp
    | cons t ts ih =>
      cases fs with
      | nil => simp
      | cons f fs => simpa using ih fs
  unfold buildEditSystem buildSystem
  simp only [scaleFactors]
  rw [hz]

section
variable {invalid : Cost} {prm : Params} {proto : List (Node M)} {targets : List (List (Node M))}
  {factors : Option (List ℚ)} {B : BuiltSystem EditState (Option EditInfo)}
  {D : DualSystem DecisionKey DecisionValue}

theorem edit_total {α : DecisionKey → DecisionValue} {l : List (List (Node M) × ℚ)} {x : ℚ} :
    WeightedTotal (LeastPath (constructEditDag prm proto) (seqKeys 0 proto) α) l x
      ↔ WeightedTotal (LeastEditCost prm proto α) l x :=
  total_congr fun ts _ c => edit_least prm proto ts.1 α c

/-- C59: at any time, well-formed decisions cost the weighted total of the cheapest edit scripts to
the targets that make these decisions. Other decisions have no joint solution. Any decisions can be
written as a vector of value indices. -/
theorem C59_cost (hB : buildEditSystem invalid prm proto targets factors = .ok B)
    (ht : ∀ t ∈ targets, DecisionFree t) (hf : GoodFactors targets factors)
    (hr : SolverReach B.system D) (α : DecisionKey → DecisionValue) :
    (∃ a, VectorMeans D a α)
    ∧ ∀ a, VectorMeans D a α →
      (WellFormedRegions α proto →
        ∃ x : ℚ, WeightedTotal (LeastEditCost prm proto α)
            (targets.zip (targetWeights targets.length factors)) x
          ∧ IsMinimum (Joint D.data a) (jointCost D.data a) x)
      ∧ (¬ WellFormedRegions α proto → ∀ paths, ¬ Joint D.data a paths) := by
  have hb := built_of hf (fun t htm d hd => edit_good prm proto t (ht t htm) d hd) hB
  refine ⟨⟨_, hb.vector hr α⟩, fun a ha => ⟨fun hwf => ?_, fun hwf => hb.infeasible hr ha hwf⟩⟩
  obtain ⟨x, hx⟩ := hb.least hwf
  exact ⟨x, edit_total.1 hx, hb.minimum hr ha hwf hx⟩

/-- C59: at any time, the dual value is a lower bound of the cost of all well-formed decisions. -/
theorem C59_bound (hB : buildEditSystem invalid prm proto targets factors = .ok B)
    (ht : ∀ t ∈ targets, DecisionFree t) (hf : GoodFactors targets factors)
    (hr : SolverReach B.system D) (α : DecisionKey → DecisionValue)
    (hα : WellFormedRegions α proto) (x : ℚ)
    (hx : WeightedTotal (LeastEditCost prm proto α)
      (targets.zip (targetWeights targets.length factors)) x) :
    dualValue D.data ≤ x :=
  (built_of hf (fun t htm d hd => edit_good prm proto t (ht t htm) d hd) hB).bound hr hα
    (edit_total.2 hx)

/-- C59: if there is anything to decide, then at any time greedy extraction returns well-formed
decisions for the whole prototype, and the returned cost is exactly the weighted total of the
cheapest edit scripts for them. If it does not exceed the dual value, no well-formed decisions are
better. -/
theorem C59_greedy (hB : buildEditSystem invalid prm proto targets factors = .ok B)
    (ht : ∀ t ∈ targets, DecisionFree t) (hf : GoodFactors targets factors)
    (hr : SolverReach B.system D) (hk : seqKeys 0 proto ≠ []) (dir : Direction) :
    ∃ (vec : List Nat) (α : DecisionKey → DecisionValue) (x : ℚ),
      D.data.greedy dir = some (vec, some (x : Cost))
      ∧ assignmentPairs D.keys D.values vec = some ((seqKeys 0 proto).map fun k => (k, α k))
      ∧ WellFormedRegions α proto
      ∧ WeightedTotal (LeastEditCost prm proto α)
          (targets.zip (targetWeights targets.length factors)) x
      ∧ dualValue D.data ≤ x
      ∧ ((x : Cost) ≤ dualValue D.data → ∀ β, WellFormedRegions β proto → ∀ y,
          WeightedTotal (LeastEditCost prm proto β)
            (targets.zip (targetWeights targets.length factors)) y → x ≤ y) := by
  have hb := built_of hf (fun t htm d hd => edit_good prm proto t (ht t htm) d hd) hB
  obtain ⟨vec, α, x, h1, -, h3, h4, h5, h6⟩ := hb.greedy hr hk dir
  refine ⟨vec, α, x, h1, h3, h4, edit_total.1 h5, h6, fun hle β hβ y hy => ?_⟩
  exact WithTop.coe_le_coe.1 (hle.trans (hb.bound hr hβ (edit_total.2 hy)))

/-- C59: solving the system ends, whatever the clock says. -/
theorem C59_terminates (hB : buildEditSystem invalid prm proto targets factors = .ok B)
    (ht : ∀ t ∈ targets, DecisionFree t) (hf : GoodFactors targets factors)
    (hr : SolverReach B.system D) (hk : seqKeys 0 proto ≠ []) (tol : ℚ) (htol : 0 < tol)
    (late : Nat → Bool) :
    ∃ n st, ∀ fuel, n ≤ fuel → D.data.solve tol late fuel = .ok st :=
  (built_of hf (fun t htm d hd => edit_good prm proto t (ht t htm) d hd) hB).terminates hr hk tol
    htol late

end

/-! ## Building a system of selection DAGs -/

theorem selection_system {invalid : Cost} {f : SelUtility M} {proto : List (Node M)}
    {targets : List (List (Node M))} {factors : Option (List ℚ)}
    {B : BuiltSystem SelState (Option SelInfo)} (hx : ¬ Occurs proto .exit)
    (hf : GoodFactors targets factors)
    (hB : buildSelectionSystem invalid f proto targets factors = .ok B) :
    Built invalid (fun t => constructSelectionDag f (pack proto) (pack t)) proto
      (targets.zip (targetWeights targets.length factors))
      (targetWeights targets.length factors).sum B :=
  built_of hf (fun t _ d hd => selection_good f proto t hx d hd) hB

/-- C59: for selections, `build_system` never fails if there is a target, the prototype has no early
exit and does not begin with the end of a region, and the scale factors are positive. -/
theorem C59_selection_builds (invalid : Cost) (f : SelUtility M) (proto : List (Node M))
    (targets : List (List (Node M))) (factors : Option (List ℚ)) (hx : ¬ Occurs proto .exit)
    (hs : ∀ i, (items 0 proto).head? ≠ some (.stop i)) (hf : GoodFactors targets factors) :
    ∃ B, buildSelectionSystem invalid f proto targets factors = .ok B
      ∧ B.system.keys = seqKeys 0 proto ∧ B.system.values = [.no, .yes, .na] := by
  obtain ⟨B, hB⟩ := buildSystem_total (invalid := invalid)
    (make := fun t => constructSelectionDag f (pack proto) (pack t))
    (proto := proto) (targets := targets) hf (fun t _ => by
      obtain ⟨d, hd⟩ := (C50_builds f proto t).1.2 hs
      exact ⟨d, hd, selection_good f proto t hx d hd⟩)
  have hb := selection_system hx hf hB
  exact ⟨B, hB, hb.keys.1, hb.keys.2.1⟩

section
variable {invalid : Cost} {f : SelUtility M} {proto : List (Node M)}
  {targets : List (List (Node M))} {factors : Option (List ℚ)}
  {B : BuiltSystem SelState (Option SelInfo)} {D : DualSystem DecisionKey DecisionValue}

theorem selection_total (hs : ∀ i, (items 0 proto).head? ≠ some (.stop i))
    {α : DecisionKey → DecisionValue} {l : List (List (Node M) × ℚ)} {x : ℚ} :
    WeightedTotal (LeastPath (fun t => constructSelectionDag f (pack proto) (pack t))
      (seqKeys 0 proto) α) l x ↔ WeightedTotal (LeastLookupCost f proto α) l x :=
  total_congr fun ts _ c => selection_least f proto ts.1 ((C50_builds f proto ts.1).1.2 hs) α c

/-- C59: for selections, well-formed decisions cost the weighted total of the cheapest ways to look up
the selected parts in the targets. Other decisions have no joint solution. -/
theorem C59_selection_cost (hx : ¬ Occurs proto .exit)
    (hs : ∀ i, (items 0 proto).head? ≠ some (.stop i)) (hf : GoodFactors targets factors)
    (hB : buildSelectionSystem invalid f proto targets factors = .ok B)
    (hr : SolverReach B.system D) (α : DecisionKey → DecisionValue) :
    (∃ a, VectorMeans D a α)
    ∧ ∀ a, VectorMeans D a α →
      (WellFormedRegions α proto →
        ∃ x : ℚ, WeightedTotal (LeastLookupCost f proto α)
            (targets.zip (targetWeights targets.length factors)) x
          ∧ IsMinimum (Joint D.data a) (jointCost D.data a) x)
      ∧ (¬ WellFormedRegions α proto → ∀ paths, ¬ Joint D.data a paths) := by
  have hb := selection_system hx hf hB
  refine ⟨⟨_, hb.vector hr α⟩, fun a ha => ⟨fun hwf => ?_, fun hwf => hb.infeasible hr ha hwf⟩⟩
  obtain ⟨x, hxx⟩ := hb.least hwf
  exact ⟨x, (selection_total hs).1 hxx, hb.minimum hr ha hwf hxx⟩

/-- C59: for selections, greedy extraction returns well-formed decisions with their exact cost, never
below the dual value, and they are optimal if the cost does not exceed the dual value. -/
theorem C59_selection_greedy (hx : ¬ Occurs proto .exit)
    (hs : ∀ i, (items 0 proto).head? ≠ some (.stop i)) (hf : GoodFactors targets factors)
    (hB : buildSelectionSystem invalid f proto targets factors = .ok B)
    (hr : SolverReach B.system D) (hk : seqKeys 0 proto ≠ []) (dir : Direction) :
    ∃ (vec : List Nat) (α : DecisionKey → DecisionValue) (x : ℚ),
      D.data.greedy dir = some (vec, some (x : Cost))
      ∧ assignmentPairs D.keys D.values vec = some ((seqKeys 0 proto).map fun k => (k, α k))
      ∧ WellFormedRegions α proto
      ∧ WeightedTotal (LeastLookupCost f proto α)
          (targets.zip (targetWeights targets.length factors)) x
      ∧ dualValue D.data ≤ x
      ∧ ((x : Cost) ≤ dualValue D.data → ∀ β, WellFormedRegions β proto → ∀ y,
          WeightedTotal (LeastLookupCost f proto β)
            (targets.zip (targetWeights targets.length factors)) y → x ≤ y) := by
  have hb := selection_system hx hf hB
  obtain ⟨vec, α, x, h1, -, h3, h4, h5, h6⟩ := hb.greedy hr hk dir
  refine ⟨vec, α, x, h1, h3, h4, (selection_total hs).1 h5, h6, fun hle β hβ y hy => ?_⟩
  exact WithTop.coe_le_coe.1 (hle.trans (hb.bound hr hβ ((selection_total hs).2 hy)))

/-- C59: for selections, too, the dual value is a lower bound of the cost of all well-formed decisions. -/
theorem C59_selection_bound (hx : ¬ Occurs proto .exit)
    (hs : ∀ i, (items 0 proto).head? ≠ some (.stop i)) (hf : GoodFactors targets factors)
    (hB : buildSelectionSystem invalid f proto targets factors = .ok B)
    (hr : SolverReach B.system D) (α : DecisionKey → DecisionValue) (hα : WellFormedRegions α proto) (x : ℚ)
    (hx' : WeightedTotal (LeastLookupCost f proto α)
      (targets.zip (targetWeights targets.length factors)) x) :
    dualValue D.data ≤ x :=
  (selection_system hx hf hB).bound hr hα ((selection_total hs).2 hx')

/-- C59: solving a system of selections ends. -/
theorem C59_selection_terminates (hx : ¬ Occurs proto .exit) (hf : GoodFactors targets factors)
    (hB : buildSelectionSystem invalid f proto targets factors = .ok B)
    (hr : SolverReach B.system D) (hk : seqKeys 0 proto ≠ []) (tol : ℚ) (htol : 0 < tol)
    (late : Nat → Bool) :
    ∃ n st, ∀ fuel, n ≤ fuel → D.data.solve tol late fuel = .ok st :=
  (selection_system hx hf hB).terminates hr hk tol htol late

end

/-! ## Examples -/

section Examples

/-- A token that may be put into a region. -/
def sysProto : List (Node String) := [.rstart, .tok ['a'] "n", .rend, .tok ['b'] "n"]

/-- The targets: the same tokens, and other tokens. -/
def sysTargets : List (List (Node String)) :=
  [[.tok ['a'] "n", .tok ['b'] "n"], [.tok ['c'] "n", .tok ['b'] "n"]]

/-- Costs of edits. -/
def sysParams : Params := ⟨1, 1, 1 / 2, 1 / 2, 0, 1, 5, 2⟩

theorem sysTargets_free : ∀ t ∈ sysTargets, DecisionFree t := by
  intro t ht
  simp only [sysTargets, List.mem_cons, List.not_mem_nil, or_false] at ht
  rcases ht with rfl | rfl <;> simp [decisionFree_cons, decisionFree_nil, Node.isDecision]

theorem sysTargets_uniform : GoodFactors sysTargets none := ⟨by simp [sysTargets], by simp⟩

theorem sysTargets_factors : GoodFactors sysTargets (some [1, 3 / 2]) := by
  refine ⟨by simp, ?_⟩
  intro fs hfs
  obtain rfl := Option.some.inj hfs
  refine ⟨by simp, fun s hs => ?_⟩
  simp only [List.mem_cons, List.not_mem_nil, or_false] at hs
  rcases hs with rfl | rfl <;> norm_num

theorem sysProto_keys : seqKeys 0 sysProto
    = [⟨0, .start⟩, ⟨1, .inRegion⟩, ⟨2, .stop⟩, ⟨3, .inRegion⟩] := by
  simp [sysProto, seqKeys, nodeKeys, nodeSize]

/-- A region around the first token. -/
def sysDecisions : List Decision :=
  [(⟨0, .start⟩, .yes), (⟨1, .inRegion⟩, .yes), (⟨2, .stop⟩, .yes), (⟨3, .inRegion⟩, .no)]

theorem sysDecisions_wellFormed : WellFormedRegions (decided sysDecisions) sysProto := by
  refine (validRegions_iff sysProto).1 ⟨false, sysDecisions, ?_, fun _ _ => rfl⟩
  exact .region (mid := [.tok ['a'] "n"]) (.tok (.nil _ _)) (.tok (.nil _ _))

/-- C59 on an example: the system is built with weights 1 and 3/2, the decisions that put the first
token into a region have a cost in it, and greedy extraction finds decisions. -/
example : ∃ B, buildEditSystem 0 sysParams sysProto sysTargets (some [1, 3 / 2]) = .ok B
    ∧ (∃ a x, VectorMeans B.system a (decided sysDecisions)
        ∧ WeightedTotal (LeastEditCost sysParams sysProto (decided sysDecisions))
            (sysTargets.zip [1, 3 / 2]) x
        ∧ IsMinimum (Joint B.system.data a) (jointCost B.system.data a) ((x : ℚ) : Cost))
    ∧ ∃ vec x, B.system.data.greedy .forward = some (vec, some ((x : ℚ) : Cost)) := by
  obtain ⟨B, hB, -⟩ := C59_builds 0 sysParams sysProto sysTargets (some [1, 3 / 2]) sysTargets_free
    sysTargets_factors
  refine ⟨B, hB, ?_, ?_⟩
  · obtain ⟨⟨a, ha⟩, h⟩ := C59_cost hB sysTargets_free sysTargets_factors .start (decided sysDecisions)
    obtain ⟨x, h1, h2⟩ := (h a ha).1 sysDecisions_wellFormed
    exact ⟨a, x, ha, h1, h2⟩
  · obtain ⟨vec, -, x, h, -⟩ := C59_greedy hB sysTargets_free sysTargets_factors .start
      (by rw [sysProto_keys]; simp) .forward
    exact ⟨vec, x, h⟩

/-- C59 for selections on the same prototype. -/
example (f : SelUtility String) : ∃ B, buildSelectionSystem 0 f sysProto sysTargets none = .ok B
    ∧ ∃ vec x, B.system.data.greedy .forward = some (vec, some ((x : ℚ) : Cost)) := by
  have hx : ¬ Occurs sysProto .exit := by
    rw [← plain_items sysProto 0]
    simp [sysProto, items, IsContent.tok, IsContent.opens, IsContent.closes, IsMarker.start,
      IsMarker.stop]
  have hs : ∀ i, (items 0 sysProto).head? ≠ some (.stop i) := by simp [sysProto, items]
  obtain ⟨B, hB, -⟩ := C59_selection_builds 0 f sysProto sysTargets none hx hs sysTargets_uniform
  obtain ⟨vec, -, x, h, -⟩ := C59_selection_greedy hx hs sysTargets_uniform hB .start
    (by rw [sysProto_keys]; simp) .forward
  exact ⟨B, hB, vec, x, h⟩

end Examples

end RUSure.Props
