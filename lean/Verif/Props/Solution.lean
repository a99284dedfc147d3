import Verif.Lemmas.Solution
import Verif.Props.System

/-!
# C60: what `solution_info` reports
-/

namespace RUSure.Props
open RUSure RUSure.Spec RUSure.Lemmas

variable {M : Type} [DecidableEq M]

/-! ## Paths and scripts -/

theorem edit_cheapest {prm : Params} {proto target : List (Node M)} {a : Decisions} {w : List EditEdge}
    (h : CheapestPath (constructEditDag prm proto) a target w) :
    CheapestScript prm proto target a (scriptOf w)
      ∧ weight Edge.cost w = ((scriptPrice prm proto target (scriptOf w) : ℚ) : Cost) := by
  have hval : ∀ (w : List EditEdge) k, (valueOn w k).getD .na
      = decided ((scriptOf w).filterMap EditStep.decision) k := by
    intro w k
    rw [valueOn_lookup, ← decisionsOf_eq, script_decs]
    rfl
  obtain ⟨d, hd, hw, hwa, hmin⟩ := h
  have hprice : ∀ w, DagSolution d w →
      weight Edge.cost w = ((scriptPrice prm proto target (scriptOf w) : ℚ) : Cost) := by
    intro w hw
    rw [C47_cost prm proto target d hd w hw, script_edits]
    rfl
  refine ⟨⟨⟨(C46_scripts prm proto target d hd _).1 ⟨w, hw, rfl⟩, fun kv hkv => ?_⟩, ?_⟩, hprice w hw⟩
  · rw [← hval]; exact hwa kv hkv
  · rintro ss' ⟨hs', ha'⟩
    obtain ⟨w', hw', rfl⟩ := (C46_scripts prm proto target d hd ss').2 hs'
    have := hmin w' hw' fun kv hkv => by rw [hval]; exact ha' kv hkv
    rw [hprice w hw, hprice w' hw'] at this
    exact WithTop.coe_le_coe.1 this

theorem selection_cheapest {f : SelUtility M} {proto target : List (Node M)} {a : Decisions}
    {w : List SelEdge}
    (h : CheapestPath (fun t => constructSelectionDag f (pack proto) (pack t)) a target w) :
    CheapestLookup f proto target a (selectionOf w)
      ∧ weight Edge.cost w = ((lookupPrice f proto (selectionOf w) : ℚ) : Cost) := by
  have hval : ∀ (w : List SelEdge) k, (valueOn w k).getD .na
      = decided ((selectionOf w).filterMap SelStep.decision) k := by
    intro w k
    rw [valueOn_lookup]
    have : (w.flatMap fun e => e.req.toList) = selDecisions w :=
      (selDecisions_flat w).symm
    rw [this, selDecisions_eq]
    rfl
  obtain ⟨d, hd, hw, hwa, hmin⟩ := h
  have hprice : ∀ w, DagSolution d w →
      weight Edge.cost w = ((lookupPrice f proto (selectionOf w) : ℚ) : Cost) := by
    intro w hw
    rw [C50_cost f proto target d hd w hw, selInfos_eq]
    rfl
  refine ⟨⟨⟨(C50_paths f proto target d hd _).1 ⟨w, hw, rfl⟩, fun kv hkv => ?_⟩, ?_⟩, hprice w hw⟩
  · rw [← hval]; exact hwa kv hkv
  · rintro ss' ⟨hs', ha'⟩
    obtain ⟨w', hw', rfl⟩ := (C50_paths f proto target d hd ss').2 hs'
    have := hmin w' hw' fun kv hkv => by rw [hval]; exact ha' kv hkv
    rw [hprice w hw, hprice w' hw'] at this
    exact WithTop.coe_le_coe.1 this

/-! ## `solution_info`, for any utility DAGs -/

section
variable {T E S I P : Type} [DecidableEq S] {N : Type}
  {make : T → Except E (Dag S DecisionKey DecisionValue I)} {proto : List (Node N)}
  {inv : Cost} {l : List (T × ℚ)} {total : ℚ} {B : BuiltSystem S I}

theorem info_samples (hb : Built inv make proto l total B) (invalid : Cost)
    (summary : List (Edge S DecisionKey DecisionValue I) → P) {α : DecisionKey → DecisionValue}
    (hα : WellFormedRegions α proto) {a : Decisions} (ha : Records proto α a) :
    ∃ ws, solutionInfo invalid summary proto a none (some B)
        = .ok ⟨annotated α [] [] (kept α proto), none,
            some (sampleInfo (ws.map (weight Edge.cost)) none)⟩
      ∧ List.Forall₂ (fun ts w => CheapestPath make a ts.1 w) l ws := by
  obtain ⟨ws, h1, h2⟩ := sampleCosts_best hb.parts hb.pos hb.good invalid hα ha
  refine ⟨ws, ?_, h2⟩
  unfold solutionInfo
  simp only [records_extract hα ha, h1]
  rfl

theorem info_both (hb : Built inv make proto l total B) {inv' : Cost} {ts : T × ℚ} {total' : ℚ}
    {B' : BuiltSystem S I} (hb' : Built inv' make proto [ts] total' B') (invalid : Cost)
    (summary : List (Edge S DecisionKey DecisionValue I) → P) {α : DecisionKey → DecisionValue}
    (hα : WellFormedRegions α proto) {a : Decisions} (ha : Records proto α a) :
    ∃ w ws, solutionInfo invalid summary proto a (some B') (some B)
        = .ok ⟨annotated α [] [] (kept α proto), some (weight Edge.cost w, summary w),
            some (sampleInfo (ws.map (weight Edge.cost)) (some (weight Edge.cost w)))⟩
      ∧ CheapestPath make a ts.1 w ∧ List.Forall₂ (fun ts w => CheapestPath make a ts.1 w) l ws := by
  obtain ⟨ws, h1, h2⟩ := sampleCosts_best hb.parts hb.pos hb.good invalid hα ha
  have hp := hb'.parts
  cases hu : B'.utilities with
  | nil => rw [hu] at hp; cases hp
  | cons p ps =>
    rw [hu] at hp
    cases hp with
    | cons h3 h4 =>
      cases h4
      obtain ⟨w, h5, h6⟩ := given_best h3 (hb'.pos ts (by simp)) (hb'.good ts (by simp)) invalid hα ha
      refine ⟨w, ws, ?_, h6, h2⟩
      unfold solutionInfo
      simp only [records_extract hα ha, h1, hu, h5]
      rfl

theorem info_unknown (hb : Built inv make proto l total B) (hl : l ≠ []) (invalid : Cost)
    (summary : List (Edge S DecisionKey DecisionValue I) → P) {a : Decisions}
    {out : List MarkedToken} (hout : extractRegions (pack proto) (fun k => a.lookup k) [] = .ok out)
    {kv : DecisionKey × DecisionValue} (hkv : kv ∈ a) (hn : kv.1 ∉ seqKeys 0 proto) :
    solutionInfo invalid summary proto a none (some B) = .error .key := by
  have hp := hb.parts
  have : sampleCosts invalid a B.utilities = .error .key := by
    cases hu : B.utilities with
    | nil => rw [hu] at hp; cases hp; exact absurd rfl hl
    | cons p ps =>
      rw [hu] at hp
      cases hp with
      | @cons ts _ _ _ h3 h4 =>
        obtain ⟨d, c, hd, hc, rfl⟩ := h3
        have hk := (hb.good ts (by simp) d hd).keys c hc
        unfold sampleCosts Part.bestCost
        rw [bestPath_key invalid ⟨kv, hkv, by simpa [hk] using hn⟩]
  unfold solutionInfo
  simp only [hout, this]
  rfl

end

theorem forall₂_exists_right {A B C : Type} {R : A → B → Prop} {Q : A → C → Prop}
    {g : B → C} (hg : ∀ a b, R a b → Q a (g b)) {l : List A} {r : List B} (h : List.Forall₂ R l r) :
    List.Forall₂ Q l (r.map g) := by
  induction h with
  | nil => exact .nil
  | cons h1 _ ih => exact .cons (hg _ _ h1) ih

/-! ## Edit distances -/

section
variable {invalid inv : Cost} {prm : Params} {proto : List (Node M)} {targets : List (List (Node M))}
  {factors : Option (List ℚ)} {B : BuiltSystem EditState (Option EditInfo)}

omit [DecidableEq M] in
/-- C60: for a dictionary with all decisions, the cheapest edit scripts are those that the cost of a
system consists of. -/
theorem C60_all_decisions (prm : Params) (proto target : List (Node M)) (α : DecisionKey → DecisionValue)
    (c : ℚ) : LeastScriptPrice prm proto ((seqKeys 0 proto).map fun k => (k, α k)) target c
      ↔ LeastEditCost prm proto α target c := by
  have hg : ∀ ss, ScriptGiven prm proto target ((seqKeys 0 proto).map fun k => (k, α k)) ss
      ↔ ScriptFor prm proto target α ss := by
    intro ss
    unfold ScriptGiven ScriptFor
    refine and_congr_right fun _ => ?_
    simp only [List.mem_map, forall_exists_index, and_imp, forall_apply_eq_imp_iff₂]
    exact ⟨fun h k hk => (h k hk).symm, fun h k hk => (h k hk).symm⟩
  unfold LeastScriptPrice LeastEditCost CheapestScript
  simp only [hg]
  constructor
  · rintro ⟨ss, ⟨h1, h2⟩, rfl⟩
    exact ⟨⟨ss, h1, rfl⟩, h2⟩
  · rintro ⟨⟨ss, h1, rfl⟩, h2⟩
    exact ⟨ss, ⟨h1, h2⟩, rfl⟩

omit [DecidableEq M] in
/-- C60: the decisions of a system can be given to `solution_info`. -/
theorem C60_all_recorded (proto : List (Node M)) (α : DecisionKey → DecisionValue) :
    Records proto α ((seqKeys 0 proto).map fun k => (k, α k)) := by
  refine ⟨?_, ?_, ?_, ?_⟩
  · rw [List.map_map]
    have : (Prod.fst ∘ fun k : DecisionKey => (k, α k)) = id := rfl
    rw [this, List.map_id]
    exact (seqKeys_sorted proto 0).imp fun h => ne_of_lt h
  · simp
  · simp
  · exact fun k hk _ => ⟨α k, List.mem_map.2 ⟨k, hk, rfl⟩⟩

/-- C60: `solution_info` without evaluation target never fails for well-formed decisions. It shows the
parts that are kept, with the tokens in regions marked, and the costs of all samples: for each target
the price of the cheapest edit script with these decisions, not weighted, in the order of the
targets. -/
theorem C60_samples (hB : buildEditSystem inv prm proto targets factors = .ok B)
    (ht : ∀ t ∈ targets, DecisionFree t) (hf : GoodFactors targets factors)
    {P : Type} (summary : List EditEdge → P) {α : DecisionKey → DecisionValue}
    (hα : WellFormedRegions α proto) {a : Decisions} (ha : Records proto α a) :
    ∃ s costs, solutionInfo invalid summary proto a none (some B)
        = .ok ⟨annotated α [] [] (kept α proto), none, some s⟩
      ∧ List.Forall₂ (fun ts c => LeastScriptPrice prm proto a ts.1 c)
          (targets.zip (targetWeights targets.length factors)) costs
      ∧ Describes costs none s := by
  have hb := built_of hf (fun t htm d hd => edit_good prm proto t (ht t htm) d hd) hB
  obtain ⟨ws, h1, h2⟩ := info_samples hb invalid summary hα ha
  have hfin : ∀ w ∈ ws, ∃ q : ℚ, weight Edge.cost w = (q : Cost) := by
    intro w hw
    obtain ⟨ts, -, h⟩ := forall₂_mem_right' h2 hw
    exact ⟨_, (edit_cheapest h).2⟩
  refine ⟨_, ws.map fun w => ((weight Edge.cost w).untopD 0), h1, ?_, ?_⟩
  · refine forall₂_exists_right (fun ts w h => ?_) h2
    obtain ⟨g1, g2⟩ := edit_cheapest h
    exact ⟨_, g1, by rw [g2]; rfl⟩
  · have : ws.map (weight Edge.cost)
        = (ws.map fun w => ((weight Edge.cost w).untopD 0)).map fun c : ℚ => (c : Cost) := by
      rw [List.map_map]
      refine List.map_congr_left fun w hw => ?_
      obtain ⟨q, hq⟩ := hfin w hw
      simp [hq]
    rw [this]
    exact sampleInfo_describes _ none

/-- C60: with an evaluation target, `solution_info` also reports the price of the cheapest edit script
for the evaluation target with these decisions, a summary of that script, and how many of the costs of
the samples are below that price. -/
theorem C60_evaluation (hB : buildEditSystem inv prm proto targets factors = .ok B)
    (ht : ∀ t ∈ targets, DecisionFree t) (hf : GoodFactors targets factors)
    {target : List (Node M)} {factors' : Option (List ℚ)} {B' : BuiltSystem EditState (Option EditInfo)}
    (hB' : buildEditSystem inv prm proto [target] factors' = .ok B') (ht' : DecisionFree target)
    (hf' : GoodFactors [target] factors') {P : Type} (summary : List EditEdge → P)
    {α : DecisionKey → DecisionValue} (hα : WellFormedRegions α proto) {a : Decisions}
    (ha : Records proto α a) :
    ∃ w s costs, solutionInfo invalid summary proto a (some B') (some B)
        = .ok ⟨annotated α [] [] (kept α proto),
            some (((scriptPrice prm proto target (scriptOf w) : ℚ) : Cost), summary w), some s⟩
      ∧ CheapestScript prm proto target a (scriptOf w)
      ∧ List.Forall₂ (fun ts c => LeastScriptPrice prm proto a ts.1 c)
          (targets.zip (targetWeights targets.length factors)) costs
      ∧ Describes costs (some (scriptPrice prm proto target (scriptOf w))) s := by
  have hb := built_of hf (fun t htm d hd => edit_good prm proto t (ht t htm) d hd) hB
  have hb' := built_of hf' (fun t htm d hd => edit_good prm proto t (by simp at htm; exact htm ▸ ht') d hd) hB'
  have hz : ∃ s, [target].zip (targetWeights [target].length factors') = [(target, s)] := by
    cases hw : targetWeights [target].length factors' with
    | nil =>
      have := (scaleFactors_ok (E := AddError) hf').2.2
      rw [hw] at this
      simp at this
    | cons s r => exact ⟨s, by simp⟩
  obtain ⟨s', hs'⟩ := hz
  rw [hs'] at hb'
  obtain ⟨w, ws, h1, h3, h2⟩ := info_both hb hb' invalid summary hα ha
  obtain ⟨e1, e2⟩ := edit_cheapest h3
  have hfin : ∀ w ∈ ws, ∃ q : ℚ, weight Edge.cost w = (q : Cost) := by
    intro w hw
    obtain ⟨ts, -, h⟩ := forall₂_mem_right' h2 hw
    exact ⟨_, (edit_cheapest h).2⟩
  rw [e2] at h1
  refine ⟨w, _, ws.map fun w => ((weight Edge.cost w).untopD 0), h1, e1, ?_, ?_⟩
  · refine forall₂_exists_right (fun ts w h => ?_) h2
    obtain ⟨g1, g2⟩ := edit_cheapest h
    exact ⟨_, g1, by rw [g2]; rfl⟩
  · have : ws.map (weight Edge.cost)
        = (ws.map fun w => ((weight Edge.cost w).untopD 0)).map fun c : ℚ => (c : Cost) := by
      rw [List.map_map]
      refine List.map_congr_left fun w hw => ?_
      obtain ⟨q, hq⟩ := hfin w hw
      simp [hq]
    rw [this]
    exact sampleInfo_describes _ (some _)

/-- C60: decisions that are not about the prototype are reported as an error. -/
theorem C60_unknown_decision (hB : buildEditSystem inv prm proto targets factors = .ok B)
    (ht : ∀ t ∈ targets, DecisionFree t) (hf : GoodFactors targets factors) (hne : targets ≠ [])
    {P : Type} (summary : List EditEdge → P) {a : Decisions} {out : List MarkedToken}
    (hout : extractRegions (pack proto) (fun k => a.lookup k) [] = .ok out)
    {kv : DecisionKey × DecisionValue} (hkv : kv ∈ a) (hn : kv.1 ∉ seqKeys 0 proto) :
    solutionInfo invalid summary proto a none (some B) = .error .key := by
  have hb := built_of hf (fun t htm d hd => edit_good prm proto t (ht t htm) d hd) hB
  refine info_unknown hb ?_ invalid summary hout hkv hn
  have := (scaleFactors_ok (E := AddError) hf).2.2
  intro h
  rcases List.zip_eq_nil_iff.1 h with h | h
  · exact hne h
  · rw [h] at this; simp at this

theorem total_uniform {T : Type} {L : T → ℚ → Prop} (hu : ∀ t c c', L t c → L t c' → c = c') (s : ℚ) :
    ∀ {ts : List T} {x : ℚ} {costs : List ℚ},
      WeightedTotal L (ts.zip (List.replicate ts.length s)) x →
      List.Forall₂ (fun t c => L t.1 c) (ts.zip (List.replicate ts.length s)) costs →
      x = costs.sum * s ∧ costs.length = ts.length := by
  intro ts
  induction ts with
  | nil =>
    intro x costs h1 h2
    cases h2
    exact ⟨by simpa [WeightedTotal] using h1, rfl⟩
  | cons t ts ih =>
    intro x costs h1 h2
    rw [List.length_cons, List.replicate_succ, List.zip_cons_cons] at h1 h2
    cases h2 with
    | @cons _ c _ costs g1 g2 =>
      obtain ⟨c', y, k1, k2, k3⟩ := h1
      obtain ⟨e1, e2⟩ := ih k2 g2
      obtain rfl := hu _ _ _ k1 g1
      exact ⟨by rw [k3, e1, List.sum_cons]; ring, by simp [e2]⟩

omit [DecidableEq M] in
theorem leastEdit_unique {α : DecisionKey → DecisionValue} {t : List (Node M)} {c c' : ℚ}
    (h : LeastEditCost prm proto α t c) (h' : LeastEditCost prm proto α t c') : c = c' := by
  obtain ⟨⟨ss, h1, h2⟩, h3⟩ := h
  obtain ⟨⟨ss', h1', h2'⟩, h3'⟩ := h'
  exact le_antisymm (h2' ▸ h3 ss' h1') (h2 ▸ h3' ss h1)

/-- C60: if all samples have the same weight, the reported average is the cost that the system gives to
the decisions. -/
theorem C60_average (hB : buildEditSystem inv prm proto targets none = .ok B)
    (ht : ∀ t ∈ targets, DecisionFree t) (hne : targets ≠ [])
    {P : Type} (summary : List EditEdge → P) {α : DecisionKey → DecisionValue}
    (hα : WellFormedRegions α proto) {x : ℚ}
    (hx : WeightedTotal (LeastEditCost prm proto α) (targets.zip (targetWeights targets.length none)) x) :
    ∃ s, solutionInfo invalid summary proto ((seqKeys 0 proto).map fun k => (k, α k)) none (some B)
        = .ok ⟨annotated α [] [] (kept α proto), none, some s⟩
      ∧ s.average = some x := by
  obtain ⟨s, costs, h1, h2, h3⟩ := C60_samples hB ht ⟨fun _ => hne, by simp⟩ summary hα
    (C60_all_recorded proto α) (invalid := invalid)
  refine ⟨s, h1, ?_⟩
  have h2 : List.Forall₂ (fun ts c => LeastEditCost prm proto α ts.1 c)
      (targets.zip (targetWeights targets.length none)) costs :=
    h2.imp fun ts c h => (C60_all_decisions prm proto ts.1 α c).1 h
  obtain ⟨e1, e2⟩ := total_uniform (L := LeastEditCost prm proto α)
    (fun _ _ _ h h' => leastEdit_unique h h') (1 / (targets.length : ℚ)) hx h2
  have hpos : costs ≠ [] := by
    rintro rfl
    exact hne (List.length_eq_zero_iff.1 e2.symm)
  cases havg : s.average with
  | none => exact absurd (h3.noAverage.1 havg) hpos
  | some m =>
    have := h3.average m havg
    have hl : (costs.length : ℚ) ≠ 0 := by
      exact_mod_cast fun h => hpos (List.length_eq_zero_iff.1 h)
    rw [e1, ← this, ← e2]
    field_simp

end

/-! ## Selections -/

section
variable {invalid inv : Cost} {f : SelUtility M} {proto : List (Node M)} {targets : List (List (Node M))}
  {factors : Option (List ℚ)} {B : BuiltSystem SelState (Option SelInfo)}

omit [DecidableEq M] in
theorem C60_selection_all_decisions (f : SelUtility M) (proto target : List (Node M))
    (α : DecisionKey → DecisionValue) (c : ℚ) :
    LeastLookupPrice f proto ((seqKeys 0 proto).map fun k => (k, α k)) target c
      ↔ LeastLookupCost f proto α target c := by
  have hg : ∀ ss, LookupGiven f proto target ((seqKeys 0 proto).map fun k => (k, α k)) ss
      ↔ LookupFor f proto target α ss := by
    intro ss
    unfold LookupGiven LookupFor
    refine and_congr_right fun _ => ?_
    simp only [List.mem_map, forall_exists_index, and_imp, forall_apply_eq_imp_iff₂]
    exact ⟨fun h k hk => (h k hk).symm, fun h k hk => (h k hk).symm⟩
  unfold LeastLookupPrice LeastLookupCost CheapestLookup lookupPrice
  simp only [hg]
  constructor
  · rintro ⟨ss, ⟨h1, h2⟩, rfl⟩
    exact ⟨⟨ss, h1, rfl⟩, h2⟩
  · rintro ⟨⟨ss, h1, rfl⟩, h2⟩
    exact ⟨ss, ⟨h1, h2⟩, rfl⟩

/-- C60: for selections, `solution_info` without evaluation target reports for each target the cost of
the cheapest way to look up the parts selected by the decisions. -/
theorem C60_selection_samples (hB : buildSelectionSystem inv f proto targets factors = .ok B)
    (hx : ¬ Occurs proto .exit) (hf : GoodFactors targets factors)
    {P : Type} (summary : List SelEdge → P) {α : DecisionKey → DecisionValue}
    (hα : WellFormedRegions α proto) {a : Decisions} (ha : Records proto α a) :
    ∃ s costs, solutionInfo invalid summary proto a none (some B)
        = .ok ⟨annotated α [] [] (kept α proto), none, some s⟩
      ∧ List.Forall₂ (fun ts c => LeastLookupPrice f proto a ts.1 c)
          (targets.zip (targetWeights targets.length factors)) costs
      ∧ Describes costs none s := by
  have hb := selection_system hx hf hB
  obtain ⟨ws, h1, h2⟩ := info_samples hb invalid summary hα ha
  have hfin : ∀ w ∈ ws, ∃ q : ℚ, weight Edge.cost w = (q : Cost) := by
    intro w hw
    obtain ⟨ts, -, h⟩ := forall₂_mem_right' h2 hw
    exact ⟨_, (selection_cheapest h).2⟩
  refine ⟨_, ws.map fun w => ((weight Edge.cost w).untopD 0), h1, ?_, ?_⟩
  · refine forall₂_exists_right (fun ts w h => ?_) h2
    obtain ⟨g1, g2⟩ := selection_cheapest h
    exact ⟨_, g1, by rw [g2]; rfl⟩
  · have : ws.map (weight Edge.cost)
        = (ws.map fun w => ((weight Edge.cost w).untopD 0)).map fun c : ℚ => (c : Cost) := by
      rw [List.map_map]
      refine List.map_congr_left fun w hw => ?_
      obtain ⟨q, hq⟩ := hfin w hw
      simp [hq]
    rw [this]
    exact sampleInfo_describes _ none

/-- C60: for selections with an evaluation target. -/
theorem C60_selection_evaluation (hB : buildSelectionSystem inv f proto targets factors = .ok B)
    (hx : ¬ Occurs proto .exit) (hf : GoodFactors targets factors)
    {target : List (Node M)} {factors' : Option (List ℚ)} {B' : BuiltSystem SelState (Option SelInfo)}
    (hB' : buildSelectionSystem inv f proto [target] factors' = .ok B')
    (hf' : GoodFactors [target] factors') {P : Type} (summary : List SelEdge → P)
    {α : DecisionKey → DecisionValue} (hα : WellFormedRegions α proto) {a : Decisions}
    (ha : Records proto α a) :
    ∃ w s costs, solutionInfo invalid summary proto a (some B') (some B)
        = .ok ⟨annotated α [] [] (kept α proto),
            some (((lookupPrice f proto (selectionOf w) : ℚ) : Cost), summary w), some s⟩
      ∧ CheapestLookup f proto target a (selectionOf w)
      ∧ List.Forall₂ (fun ts c => LeastLookupPrice f proto a ts.1 c)
          (targets.zip (targetWeights targets.length factors)) costs
      ∧ Describes costs (some (lookupPrice f proto (selectionOf w))) s := by
  have hb := selection_system hx hf hB
  have hb' := selection_system hx hf' hB'
  have hz : ∃ s, [target].zip (targetWeights [target].length factors') = [(target, s)] := by
    cases hw : targetWeights [target].length factors' with
    | nil =>
      have := (scaleFactors_ok (E := AddError) hf').2.2
      rw [hw] at this
      simp at this
    | cons s r => exact ⟨s, by simp⟩
  obtain ⟨s', hs'⟩ := hz
  rw [hs'] at hb'
  obtain ⟨w, ws, h1, h3, h2⟩ := info_both hb hb' invalid summary hα ha
  obtain ⟨e1, e2⟩ := selection_cheapest h3
  have hfin : ∀ w ∈ ws, ∃ q : ℚ, weight Edge.cost w = (q : Cost) := by
    intro w hw
    obtain ⟨ts, -, h⟩ := forall₂_mem_right' h2 hw
    exact ⟨_, (selection_cheapest h).2⟩
  rw [e2] at h1
  refine ⟨w, _, ws.map fun w => ((weight Edge.cost w).untopD 0), h1, e1, ?_, ?_⟩
  · refine forall₂_exists_right (fun ts w h => ?_) h2
    obtain ⟨g1, g2⟩ := selection_cheapest h
    exact ⟨_, g1, by rw [g2]; rfl⟩
  · have : ws.map (weight Edge.cost)
        = (ws.map fun w => ((weight Edge.cost w).untopD 0)).map fun c : ℚ => (c : Cost) := by
      rw [List.map_map]
      refine List.map_congr_left fun w hw => ?_
      obtain ⟨q, hq⟩ := hfin w hw
      simp [hq]
    rw [this]
    exact sampleInfo_describes _ (some _)

end

/-! ## Examples -/

section Examples

/-- C60 on an example: the decisions that put the first token into a region cost 0 for the first target,
which is equal to the prototype, so no sample is below the evaluation target if that is the same. -/
example : ∃ B B' w s, buildEditSystem 0 sysParams sysProto sysTargets none = .ok B
    ∧ buildEditSystem 0 sysParams sysProto [[.tok ['a'] "n", .tok ['b'] "n"]] none = .ok B'
    ∧ solutionInfo 0 (fun w => w) sysProto
        ((seqKeys 0 sysProto).map fun k => (k, decided sysDecisions k)) (some B') (some B)
      = .ok ⟨annotated (decided sysDecisions) [] [] (kept (decided sysDecisions) sysProto),
          some (((scriptPrice sysParams sysProto [.tok ['a'] "n", .tok ['b'] "n"] (scriptOf w) : ℚ) : Cost), w),
          some s⟩
    ∧ s.sorted.length = 2 ∧ ∃ m v r, s.average = some m ∧ s.variance = some v ∧ s.rank = some r := by
  have ht' : DecisionFree ([.tok ['a'] "n", .tok ['b'] "n"] : List (Node String)) :=
    sysTargets_free _ (by simp [sysTargets])
  have hf' : GoodFactors [([.tok ['a'] "n", .tok ['b'] "n"] : List (Node String))] none :=
    ⟨by simp, by simp⟩
  obtain ⟨B, hB, -⟩ := C59_builds 0 sysParams sysProto sysTargets none sysTargets_free sysTargets_uniform
  obtain ⟨B', hB', -⟩ := C59_builds 0 sysParams sysProto [[.tok ['a'] "n", .tok ['b'] "n"]] none
    (by simpa using ht') hf'
  obtain ⟨w, s, costs, h1, h2, h3, h4⟩ := C60_evaluation (invalid := 0) hB sysTargets_free sysTargets_uniform hB'
    ht' hf' (fun w => w) sysDecisions_wellFormed (C60_all_recorded sysProto _)
  have hl : costs.length = 2 := by rw [← h3.length_eq]; rfl
  refine ⟨B, B', w, s, hB, hB', h1, ?_, ?_⟩
  · rw [h4.perm.length_eq, h4.unsorted, List.length_map, hl]
  · cases ha : s.average with
    | none => rw [h4.noAverage.1 ha] at hl; simp at hl
    | some m =>
      cases hv : s.variance with
      | none => have := h4.noVariance.1 hv; omega
      | some v => exact ⟨m, v, _, rfl, rfl, h4.rank _ rfl⟩

end Examples

end RUSure.Props
