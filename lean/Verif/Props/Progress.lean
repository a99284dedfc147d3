import Verif.Spec.Progress
import Verif.Props.Views

/-!
# C83: the plots of the solver's progress
-/

namespace RUSure.Props
open RUSure RUSure.Spec RUSure.Lemmas

/-- The objectives after the sweeps are some of the objectives of the steps, in order. -/
def SweepsFromSteps (st : SweepState) : Prop :=
  ∃ cs : List Cost, st.objectiveAtSweep = cs.map some ∧ cs.Pairwise (· ≤ ·) ∧ ∀ c ∈ cs, c ∈ st.objectiveAtStep

theorem runSweep_steps {tol : ℚ} : ∀ (vs : List Nat) (st : SweepState) (c : Bool) (st' : SweepState) (c' : Bool),
    runSweep tol vs st c = some (st', c') → st.objectiveAtStep <+: st'.objectiveAtStep := by
  intro vs
  induction vs with
  | nil =>
    intro st c st' c' he
    simp only [runSweep, Option.some.injEq, Prod.mk.injEq] at he
    rw [he.1]
  | cons v vs ih =>
    intro st c st' c' he
    unfold runSweep at he
    split at he
    · cases he
    · exact (List.prefix_append _ _).trans (ih _ _ _ _ he)

theorem record_steps {S : System} {st0 st : SweepState} (hi : SweepInv S st) (h : SweepsFromSteps st0)
    (h1 : st.objectiveAtSweep = st0.objectiveAtSweep) (h2 : st0.objectiveAtStep <+: st.objectiveAtStep)
    (h3 : st.objectiveAtStep ≠ []) : SweepsFromSteps st.record := by
  obtain ⟨cs, e, hs, hm⟩ := h
  have hl : st.last = some (st.objectiveAtStep.getLast h3) := by
    rw [hi.last]
    exact List.getLast?_eq_some_getLast h3
  refine ⟨cs ++ [st.objectiveAtStep.getLast h3], ?_, ?_, ?_⟩
  · simp only [SweepState.record, h1, e, hl, List.map_append, List.map_cons, List.map_nil]
  · rw [List.pairwise_append]
    refine ⟨hs, List.pairwise_singleton _ _, fun a ha b hb => ?_⟩
    rw [List.mem_singleton.1 hb, hi.current _ hl]
    exact hi.upper a (h2.subset (hm a ha))
  · intro c hc
    rcases List.mem_append.1 hc with hc | hc
    · exact h2.subset (hm c hc)
    · rw [List.mem_singleton.1 hc]
      exact List.getLast_mem h3

theorem solveLoop_steps {S : System} (hk : 2 ≤ S.numKeys) {tol : ℚ} {late : Nat → Bool} :
    ∀ (fuel : Nat) (st st' : SweepState), SweepInv S st → SweepsFromSteps st → solveLoop tol late fuel st = .ok st' →
    SweepsFromSteps st' ∧ st'.objectiveAtStep ≠ [] := by
  intro fuel
  induction fuel with
  | zero => exact fun _ _ _ _ he => nomatch he
  | succ fuel ih =>
    intro st st' hi hq he
    have hn : st.system.numKeys = S.numKeys := hi.same.keys
    have ne_of : ∀ {vs : List Nat} {st st1 : SweepState} {c c1 : Bool}, vs ≠ [] → SweepInv S st →
        (∀ v ∈ vs, v < S.numKeys) → runSweep tol vs st c = some (st1, c1) → SweepInv S st1
        ∧ st1.objectiveAtSweep = st.objectiveAtSweep ∧ st1.objectiveAtStep ≠ [] := by
      intro vs st st1 c c1 hvs hi hv h
      obtain ⟨g1, g2, -, -, -, g6, -⟩ := runSweep_inv vs st c st1 c1 hi hv h
      refine ⟨g1, g2, fun h0 => ?_⟩
      have := g6 hvs
      rw [g1.last, h0] at this
      cases this
    have f1 : forwardVars S.numKeys ≠ [] := by
      unfold forwardVars
      intro h
      have := congrArg List.length h
      simp at this
      omega
    have f2 : ∀ v ∈ forwardVars S.numKeys, v < S.numKeys := by
      intro v hv
      unfold forwardVars at hv
      have := List.mem_range.1 hv
      omega
    have r1 : reverseVars S.numKeys ≠ [] := by
      unfold reverseVars
      intro h
      have := congrArg List.length h
      simp at this
      omega
    have r2 : ∀ v ∈ reverseVars S.numKeys, v < S.numKeys := by
      intro v hv
      unfold reverseVars at hv
      have := List.mem_range'_1.1 (List.mem_reverse.1 hv)
      omega
    unfold solveLoop at he
    rw [hn] at he
    split at he
    · cases he
    · rename_i st1 c1 h1
      obtain ⟨g1, g2, g3⟩ := ne_of f1 hi f2 h1
      have q1 := record_steps g1 hq g2 (runSweep_steps _ _ _ _ _ h1) g3
      have i1 : SweepInv S st1.record := ⟨g1.inv, g1.same, g1.sorted, g1.lower, g1.mono, g1.last, g1.current, g1.upper, g1.count, g1.vars⟩
      simp only [] at he
      split at he
      · split at he
        · exact ih _ _ i1 q1 he
        · cases he
          exact ⟨q1, g3⟩
      · split at he
        · cases he
        · rename_i st2 c2 h2
          obtain ⟨k1, k2, k3⟩ := ne_of r1 i1 r2 h2
          have q2 := record_steps k1 q1 k2 (runSweep_steps _ _ _ _ _ h2) k3
          have i2 : SweepInv S st2.record := ⟨k1.inv, k1.same, k1.sorted, k1.lower, k1.mono, k1.last, k1.current, k1.upper, k1.count, k1.vars⟩
          split at he
          · exact ih _ _ i2 q2 he
          · cases he
            exact ⟨q2, k3⟩

section
variable {M S I E C : Type}

theorem combine_solve {cc : CharClass} {digit : Char → Bool} {lang : HelperLanguage} {w : Wrapper M S I E C}
    {invalid : Cost} {tol : ℚ} {late : Nat → Bool} {fuel : Nat} {context : Text} {samples : List Text} {index : Int}
    {r : CombineResult M S I C}
    (hr : combine cc digit lang w invalid tol late fuel context samples index = .ok r) :
    r.system.system.data.solve tol late fuel = .ok r.results
    ∧ combineSolved (E := E) invalid r.prototype r.system r.results = .ok r.solution := by
  unfold combine at hr
  split at hr
  · cases hr
  split at hr
  · cases hr
  split at hr
  · cases hr
  split at hr
  · cases hr
  split at hr
  · cases hr
  rename_i st hst
  split at hr
  · cases hr
  rename_i sol hsol
  cases hr
  exact ⟨hst, hsol⟩

theorem solved_bound {invalid : Cost} {proto : List (Node M)} {B : BuiltSystem S I C} {st : SweepState}
    {sol : CombineSolution} (h : combineSolved (E := E) invalid proto B st = .ok (some sol)) :
    st.objectiveAtStep.getLast? = some sol.bound := by
  unfold combineSolved at h
  split at h
  · cases h
  · rename_i bound hb
    split at h
    · split at h
      · cases h
      · split at h
        · cases h
        · cases h
          exact hb
    · cases h

/-- What is shown for any solved system. -/
theorem progress_shown (clock : Nat → ℚ) {invalid : Cost} {tol : ℚ} {late : Nat → Bool} {fuel : Nat}
    {r : CombineResult M S I C} {sol : CombineSolution} (hinv : SysInv r.system.system.data)
    (hk : 2 ≤ r.system.system.data.numKeys)
    (h1 : r.system.system.data.solve tol late fuel = .ok r.results)
    (h2 : combineSolved (E := E) invalid r.prototype r.system r.results = .ok r.solution)
    (h3 : r.solution = some sol) {lower : Cost → Prop} (hlower : lower sol.bound)
    (hdown : ∀ x y, x ≤ y → lower y → lower x) (hcost : sol.bound ≤ sol.cost) :
    ∃ p, showOptimizationDetails clock r = some (some p)
      ∧ ShowsProgress r.system.system.data.numKeys clock lower sol.cost p := by
  obtain ⟨i1, i2, -, i4⟩ := solve_inv hinv h1
  obtain ⟨⟨cs, c1, c2, c3⟩, hne⟩ := solveLoop_steps hk fuel _ _ (start_inv hinv) ⟨[], rfl, .nil, nofun⟩ h1
  have hlast := solved_bound (h3 ▸ h2)
  have hle : ∀ c ∈ r.results.objectiveAtStep, c ≤ sol.bound := by
    intro c hc
    rw [i1.current _ (i1.last.trans hlast)]
    exact i1.upper c hc
  have e1 : plot (List.range r.results.objectiveAtStep.length) r.results.objectiveAtStep
      = some ((List.range r.results.objectiveAtStep.length).zip r.results.objectiveAtStep) :=
    if_pos (List.length_range)
  have e2 : plot r.results.variableAtStep r.results.objectiveAtStep
      = some (r.results.variableAtStep.zip r.results.objectiveAtStep) := if_pos i1.count
  have e3 : plot ((List.range r.results.stepsAtSweep.length).map clock) r.results.objectiveAtSweep
      = some (((List.range r.results.stepsAtSweep.length).map clock).zip r.results.objectiveAtSweep) :=
    if_pos (by simp [i2.lengths])
  have s1 : ((List.range r.results.objectiveAtStep.length).zip r.results.objectiveAtStep).map Prod.snd
      = r.results.objectiveAtStep := List.map_snd_zip (by simp)
  have s2 : (r.results.variableAtStep.zip r.results.objectiveAtStep).map Prod.snd
      = r.results.objectiveAtStep := List.map_snd_zip i1.count.ge
  have s3 : (((List.range r.results.stepsAtSweep.length).map clock).zip r.results.objectiveAtSweep).map Prod.snd
      = r.results.objectiveAtSweep := List.map_snd_zip (by simp [i2.lengths])
  refine ⟨_, by unfold showOptimizationDetails; simp only [h3, e1, e2, e3]; rfl, rfl, ⟨?_, ?_⟩, ?_, ?_, ?_, ⟨?_, ?_⟩, ⟨cs, ?_, c2, ?_, ?_⟩, ?_⟩
  · intro h
    exact hne (s1.symm.trans (congrArg (List.map Prod.snd) h))
  · simp only []
    rw [List.map_fst_zip (by simp)]
    simp
  · simp only [s1]
    exact i1.sorted
  · intro x hx
    exact hdown _ _ (hle _ (List.of_mem_zip hx).2) hlower
  · intro x hx
    exact (hle _ (List.of_mem_zip hx).2).trans hcost
  · simp only [s1, s2]
  · intro x hx
    exact i1.vars _ (List.of_mem_zip hx).1
  · exact s3.trans c1
  · simp only [s1]
    exact c3
  · simp only [s1]
    rw [c1, List.getLast?_map, i1.last] at i4
    cases h : cs.getLast? with
    | none => rw [h] at i4; cases i4
    | some c =>
      rw [h, Option.map_some] at i4
      exact (Option.some.inj i4)
  · simp only []
    rw [List.map_fst_zip (by simp [i2.lengths])]
    simp [i2.lengths]

end

section
variable {cc : CharClass} {digit : Char → Bool} {lang : HelperLanguage} {context sample : Text}
  {samples : List Text} {index : Int} {tol : ℚ}

/-- C83: after combining samples, the plots of the optimization are shown without an error: the message if there are
fewer than two decisions to make, and otherwise three plots of the bounds of the search. All heights (negated here) are
lower bounds of the mean costs of any well-formed decisions, they never get worse, and none of them is on the wrong
side of the line at the achieved cost. -/
theorem C83_edits (hd : DigitSane digit) (hb : BracketsVisible cc) (invalid : Cost) (prm : Params)
    (regions exits : Bool) (htol : 0 < tol) (late : Nat → Bool)
    (hp : lang = .parsed .python → ∀ s ∈ samples, context ++ s ≠ [])
    (hi : pyGet samples index = some sample) (clock : Nat → ℚ) :
    ∃ n r, (∀ fuel, n ≤ fuel → combine cc digit lang (editWrapper invalid prm regions exits) invalid tol late
        fuel context samples index = .ok r)
      ∧ ((seqKeys 0 r.prototype).length ≤ 1 → showOptimizationDetails clock r = some none)
      ∧ (2 ≤ (seqKeys 0 r.prototype).length → ∃ sol p, r.solution = some sol
        ∧ showOptimizationDetails clock r = some (some p)
        ∧ ShowsProgress (seqKeys 0 r.prototype).length clock
          (fun c => ∀ β, WellFormedRegions β r.prototype → ∀ y : ℚ,
            MeanCost (LeastEditCost prm r.prototype β) r.targets y → c ≤ y) sol.cost p) := by
  obtain ⟨n, r, h1, -, h3, h4, -, -, h6, h7⟩ := C61_edits hd hb invalid prm regions exits htol late hp hi
  have hmem := pyGet_mem' hi
  refine ⟨n, r, h1, fun hk => ?_, fun hk => ?_⟩
  · unfold showOptimizationDetails
    simp only [h6 hk]
  · obtain ⟨sol, α, k1, k2, -⟩ := h7 hk
    have hne : r.targets ≠ [] := by
      intro h
      have := List.length_pos_of_mem hmem
      rw [← h3, h] at this
      simp at this
    have hB : buildEditSystem invalid prm r.prototype r.targets none = .ok r.system :=
      combine_build (h1 n (le_refl _))
    have hbuilt := built_of (factors := none) ⟨fun _ => hne, by simp⟩
      (fun t htm d hd => edit_good prm r.prototype t (h4 t htm) d hd) hB
    have hinv := makeSystem_inv hbuilt.system (fun d hd => (hbuilt.entries d hd).1) hbuilt.weights
    have hn := (hbuilt.same .start).2.2.1
    obtain ⟨g1, g2⟩ := combine_solve (h1 n (le_refl _))
    obtain ⟨x, hx, hm⟩ := k2.cost
    obtain ⟨p, p1, p2⟩ := progress_shown clock hinv (by rw [hn]; exact hk) g1 g2 k1
      (lower := fun c => ∀ β, WellFormedRegions β r.prototype → ∀ y : ℚ,
        MeanCost (LeastEditCost prm r.prototype β) r.targets y → c ≤ y) k2.bound
      (fun x y hxy h β hβ z hz => hxy.trans (h β hβ z hz)) (by rw [hx]; exact k2.bound α k2.wellFormed x hm)
    exact ⟨sol, p, k1, p1, hn ▸ p2⟩

/-- C83: the same for the call wrapper. -/
theorem C83_calls (hd : DigitSane digit) (hb : BracketsVisible cc) (builtin : List Text) (invalid : Cost)
    (f : SelUtility CallType) (htol : 0 < tol) (late : Nat → Bool)
    (hp : lang = .parsed .python → ∀ s ∈ samples, context ++ s ≠ [])
    (hi : pyGet samples index = some sample) (clock : Nat → ℚ) :
    ∃ n r, (∀ fuel, n ≤ fuel → combine cc digit lang (callWrapper cc builtin invalid f) invalid tol late
        fuel context samples index = .ok r)
      ∧ ((seqKeys 0 r.prototype).length ≤ 1 → showOptimizationDetails clock r = some none)
      ∧ (2 ≤ (seqKeys 0 r.prototype).length → ∃ sol p, r.solution = some sol
        ∧ showOptimizationDetails clock r = some (some p)
        ∧ ShowsProgress (seqKeys 0 r.prototype).length clock
          (fun c => ∀ β, WellFormedRegions β r.prototype → ∀ y : ℚ,
            MeanCost (LeastLookupCost f r.prototype β) r.targets y → c ≤ y) sol.cost p) := by
  obtain ⟨n, r, h1, ⟨nodes, -, h2⟩, h3, h6, h7⟩ := C61_calls hd hb builtin invalid f htol late hp hi
  have hmem := pyGet_mem' hi
  have hx : ¬ Occurs r.prototype .exit := by
    obtain ⟨k, fs, -, -, h⟩ := C51_tree cc builtin nodes context.length
    rw [h2, h]
    exact noExit_of_placed (callTree_noExit fs)
  refine ⟨n, r, h1, fun hk => ?_, fun hk => ?_⟩
  · unfold showOptimizationDetails
    simp only [h6 hk]
  · obtain ⟨sol, α, k1, k2, -⟩ := h7 hk
    have hlen : r.targets.length = samples.length := h3.length_eq.symm
    have hne : r.targets ≠ [] := by
      intro h
      rw [h] at hlen
      have := List.length_pos_of_mem hmem
      simp at hlen
      omega
    have hB : buildSelectionSystem invalid f r.prototype r.targets none = .ok r.system :=
      combine_build (h1 n (le_refl _))
    have hbuilt := selection_system hx (factors := none) ⟨fun _ => hne, by simp⟩ hB
    have hinv := makeSystem_inv hbuilt.system (fun d hd => (hbuilt.entries d hd).1) hbuilt.weights
    have hn := (hbuilt.same .start).2.2.1
    obtain ⟨g1, g2⟩ := combine_solve (h1 n (le_refl _))
    obtain ⟨x, hx, hm⟩ := k2.cost
    obtain ⟨p, p1, p2⟩ := progress_shown clock hinv (by rw [hn]; exact hk) g1 g2 k1
      (lower := fun c => ∀ β, WellFormedRegions β r.prototype → ∀ y : ℚ,
        MeanCost (LeastLookupCost f r.prototype β) r.targets y → c ≤ y) k2.bound
      (fun x y hxy h β hβ z hz => hxy.trans (h β hβ z hz)) (by rw [hx]; exact k2.bound α k2.wellFormed x hm)
    exact ⟨sol, p, k1, p1, hn ▸ p2⟩

end

/-- C83 on the samples of the example of C61: there is something to plot. -/
example (late : Nat → Bool) (prm : Params) (invalid : Cost) (clock : Nat → ℚ) : ∃ n r p,
    (∀ fuel, n ≤ fuel → combine asciiClass asciiDigit .rawSimpleTokens (editWrapper invalid prm true true)
      invalid (1 / 1000) late fuel ['a', ' '] [['b', ' ', 'c'], ['b', ' ', 'd']] 0 = .ok r)
    ∧ showOptimizationDetails clock r = some (some p) ∧ p.steps ≠ [] := by
  obtain ⟨n, r, h1, -, h3⟩ := C83_edits (lang := .rawSimpleTokens)
    (context := ['a', ' ']) (samples := [['b', ' ', 'c'], ['b', ' ', 'd']]) (index := 0)
    (sample := ['b', ' ', 'c']) (tol := 1 / 1000) asciiDigit_sane ascii_brackets invalid prm true true
    (by norm_num) late (fun h => by cases h) rfl clock
  obtain ⟨n0, r0, g1, g2, g3, -, -, ⟨nodes0, g4, marked, g5, g6⟩, -⟩ := C61_edits (lang := .rawSimpleTokens)
    (context := ['a', ' ']) (samples := [['b', ' ', 'c'], ['b', ' ', 'd']]) (index := 0)
    (sample := ['b', ' ', 'c']) (tol := 1 / 1000) asciiDigit_sane ascii_brackets invalid prm true true
    (by norm_num) late (fun h => by cases h) rfl
  have hr : r = r0 := by
    have e1 := h1 (max n n0) (le_max_left _ _)
    rw [g1 (max n n0) (le_max_right _ _)] at e1
    cases e1; rfl
  subst hr
  have hk : 2 ≤ (seqKeys 0 r.prototype).length := by
    rw [g6, g5]
    cases g4
    decide +kernel
  obtain ⟨sol, p, -, h4, h5⟩ := h3 hk
  exact ⟨n, r, p, h1, h4, h5.steps.1⟩

end RUSure.Props
