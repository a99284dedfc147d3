import Verif.Lemmas.UncertainTokens
import Verif.Lemmas.SystemPenalty
import Verif.Props.Runner
import Verif.Props.System

/-!
# C64: baselines for uncertainty regions
-/

namespace RUSure.Props
open RUSure RUSure.Spec RUSure.Lemmas

section
variable {M : Type} {tokens : List (Text × LogProb)} {proto : List (Node M)} {all : Bool}
  {aligned : List (Int × LogProb)}

/-- C64: every baseline finds exactly its uncertain tokens, each once; for depths, the cutoffs must be
positive. -/
theorem C64_tokens (h : alignTokenLogProbs tokens (pack proto) all = some aligned) (exp : LogProb → ℚ)
    (b : UncertainBaseline) (hb : ∀ ancestor child, b = .cutoff ancestor child → 1 ≤ ancestor ∧ 1 ≤ child) :
    ∃ low, lowIndices (pack proto) aligned exp b = .ok low ∧ UncertainTokens proto aligned exp b low :=
  lowIndices_ok h exp b hb

/-- C64: other cutoffs are an error. -/
theorem C64_bad_cutoff (S : Storage M) (exp : LogProb → ℚ) {ancestor child : Int} (h : ancestor < 1 ∨ child < 1) :
    lowIndices S aligned exp (.cutoff ancestor child) = .error .value := by
  unfold lowIndices
  dsimp only
  by_cases h1 : child < 1
  · rw [if_pos h1]
  · rw [if_neg h1, if_pos (h.resolve_right h1)]

end

section
variable {M : Type} [DecidableEq M] {invalid : Cost} {prm : Params} {proto target : List (Node M)}
  {B : BuiltSystem EditState (Option EditInfo)}

theorem lowConstraints {low : List Nat} (h : low.Nodup) :
    low.foldl (fun d i => dictSet (⟨i, .inRegion⟩ : DecisionKey) DecisionValue.yes d) []
      = low.map fun i => (⟨i, .inRegion⟩, .yes) := by
  have key : ∀ (low : List Nat) (d : List (DecisionKey × DecisionValue)), low.Nodup →
      (∀ p ∈ d, ∀ i ∈ low, p.1 ≠ ⟨i, .inRegion⟩) →
      low.foldl (fun d i => dictSet (⟨i, .inRegion⟩ : DecisionKey) DecisionValue.yes d) d
        = d ++ low.map fun i => (⟨i, .inRegion⟩, .yes) := by
    intro low
    induction low with
    | nil => intro d _ _; simp
    | cons i low ih =>
      intro d hn hd
      rw [List.nodup_cons] at hn
      rw [List.foldl_cons, dictSet_new _ _ _ fun p hp => hd p hp i (by simp), ih _ hn.2]
      · simp
      · intro p hp j hj
        rcases List.mem_append.1 hp with hp | hp
        · exact hd p hp j (List.mem_cons_of_mem _ hj)
        · simp only [List.mem_singleton] at hp
          subst hp
          simp only [ne_eq, DecisionKey.mk.injEq, and_true]
          rintro rfl
          exact hn.1 hj
  simpa using key low [] h (by simp)

theorem missed_sum (low : List Nat) (α : DecisionKey → DecisionValue) (p : ℚ) :
    ((low.map fun i => ((⟨i, .inRegion⟩ : DecisionKey), DecisionValue.yes)).map
      fun c => if α c.1 = c.2 then 0 else p).sum = p * (missed low α : ℚ) := by
  induction low with
  | nil => simp [missed]
  | cons i low ih =>
    rw [List.map_cons, List.map_cons, List.sum_cons, ih]
    unfold missed
    by_cases h : α ⟨i, .inRegion⟩ = .yes
    · simp [h]
    · simp [h]
      ring

theorem single_total {α : DecisionKey → DecisionValue} {x : ℚ} :
    WeightedTotal (LeastEditCost prm proto α) ([target].zip (targetWeights [target].length none)) x
      ↔ LeastEditCost prm proto α target x := by
  simp [targetWeights, WeightedTotal]

/-- C64: the decisions for given tokens, for a system with one target. They are computed without an error,
whatever the clock says: all decisions, and they are well-formed. What the solver ends with is a lower bound for
the cost of all well-formed decisions, where the cost is that of the edits, and a million for every token that is
not in a region. If the cost of the decisions is not above this bound, no decisions are better; in particular,
compared to any decisions that put all tokens into regions, the million for each missed token is paid back by
cheaper edits. -/
theorem C64_assignment (hB : buildEditSystem invalid prm proto [target] none = .ok B) (ht : DecisionFree target)
    {tol : ℚ} (htol : 0 < tol) (late : Nat → Bool) {low : List Nat} (hn : low.Nodup)
    (hl : ∀ i ∈ low, ∃ x ∈ placed proto, x.idx = i ∧ x.isToken = true) :
    ∃ n α D st, DualSystem.constrain ((1000000 : ℚ) : Cost)
        (low.map fun i => ((⟨i, .inRegion⟩ : DecisionKey), DecisionValue.yes)) B.system = some D
      ∧ (∀ fuel, n ≤ fuel → D.data.solve tol late fuel = .ok st
        ∧ lowAssignment B.system tol late fuel low = .ok ((seqKeys 0 proto).map fun k => (k, α k)))
      ∧ WellFormedRegions α proto
      ∧ (∀ β, WellFormedRegions β proto → (∃ y, PenalisedCost prm proto target low β y)
        ∧ ∀ y : ℚ, PenalisedCost prm proto target low β y → dualValue st.system ≤ (y : Cost))
      ∧ (∀ c : ℚ, LeastEditCost prm proto α target c →
        ((c + 1000000 * (missed low α : ℚ) : ℚ) : Cost) ≤ dualValue st.system →
        (∀ β, WellFormedRegions β proto → ∀ y, PenalisedCost prm proto target low β y →
          c + 1000000 * (missed low α : ℚ) ≤ y)
        ∧ ∀ β, WellFormedRegions β proto → missed low β = 0 → ∀ c', LeastEditCost prm proto β target c' →
          1000000 * (missed low α : ℚ) ≤ c' - c) := by
  have hgf : GoodFactors [target] none := ⟨by simp, by simp⟩
  have hbuilt := built_of hgf (fun t htm d hd => edit_good prm proto t
    (by rw [List.mem_singleton] at htm; subst htm; exact ht) d hd) hB
  set cs : List (DecisionKey × DecisionValue) := low.map fun i => (⟨i, .inRegion⟩, .yes) with hcs
  have hkeys : ∀ c ∈ cs, c.1 ∈ seqKeys 0 proto := by
    intro c hc
    obtain ⟨i, hi, rfl⟩ := List.mem_map.1 hc
    obtain ⟨x, hx, rfl, hxt⟩ := hl i hi
    refine placed_key_mem hx ?_
    unfold Placed.isToken at hxt
    unfold Placed.key
    split at hxt
    · rename_i t mt hnode
      rw [hnode]
    · cases hxt
  have hsome := (C56_constrain_defined B.system ((1000000 : ℚ) : Cost) cs).2 (by
    rw [hbuilt.keys.1, hbuilt.keys.2.1]
    intro c hc
    refine ⟨hkeys c hc, ?_⟩
    obtain ⟨i, -, rfl⟩ := List.mem_map.1 hc
    simp)
  obtain ⟨D, hD⟩ := Option.isSome_iff_exists.1 hsome
  have hD : DualSystem.constrain ((1000000 : ℚ) : Cost) cs B.system = some D := constrain_any hD
  have hpen := Penalised.constrain hbuilt hkeys hD
  obtain ⟨n, st, hst⟩ := hpen.terminates hbuilt tol htol late
  have hpen' := hpen.solve hbuilt (hst n le_rfl)
  have hassign : ∃ α, WellFormedRegions α proto
      ∧ ∀ fuel, n ≤ fuel → lowAssignment B.system tol late fuel low = .ok ((seqKeys 0 proto).map fun k => (k, α k)) := by
    have hrun : ∀ vec c a, st.system.greedy .forward = some (vec, c) →
        assignmentPairs D.keys D.values vec = some a →
        ∀ fuel, n ≤ fuel → lowAssignment B.system tol late fuel low = .ok a := by
      intro vec c a h1 h2 fuel hf
      unfold lowAssignment
      rw [lowConstraints hn, hD]
      simp only [hst fuel hf, h1, h2]
    by_cases hne : seqKeys 0 proto = []
    · obtain ⟨α, hα⟩ := wellFormed_exists proto
      refine ⟨α, hα, ?_⟩
      have hk0 : st.system.numKeys = 0 := by
        rw [(hbuilt.kept hpen'.reach).2.2.1, hne]; rfl
      rw [hne]
      refine hrun [] none [] ?_ rfl
      unfold System.greedy
      rw [hk0]
      rfl
    · obtain ⟨vec, α, x, g1, g2, g3, -⟩ := hpen'.greedy hbuilt hne .forward
      exact ⟨α, g3, hrun vec _ _ g1 g2⟩
  obtain ⟨α, hα, hrun⟩ := hassign
  have hbound : ∀ β, WellFormedRegions β proto → ∀ y : ℚ, PenalisedCost prm proto target low β y →
      dualValue st.system ≤ (y : Cost) := by
    rintro β hβ y ⟨c, hc, rfl⟩
    have := hpen'.bound hbuilt hβ (edit_total.2 (single_total.2 hc))
    rwa [hcs, missed_sum] at this
  refine ⟨n, α, D, st, hD, fun fuel hf => ⟨hst fuel hf, hrun fuel hf⟩, hα, fun β hβ => ⟨?_, hbound β hβ⟩, ?_⟩
  · obtain ⟨x, hx⟩ := hbuilt.least hβ
    exact ⟨_, x, single_total.1 (edit_total.1 hx), rfl⟩
  · intro c hc hle
    have best : ∀ β, WellFormedRegions β proto → ∀ y, PenalisedCost prm proto target low β y →
        c + 1000000 * (missed low α : ℚ) ≤ y := fun β hβ y hy =>
      WithTop.coe_le_coe.1 (hle.trans (hbound β hβ y hy))
    refine ⟨best, fun β hβ hm c' hc' => ?_⟩
    have := best β hβ _ ⟨c', hc', rfl⟩
    rw [hm] at this
    simp only [Nat.cast_zero, mul_zero, add_zero] at this
    linarith

omit [DecidableEq M] in
theorem uncertain_isToken {aligned : List (Int × LogProb)} {exp : LogProb → ℚ} {b : UncertainBaseline}
    {low : List Nat} (h : UncertainTokens proto aligned exp b low) :
    ∀ i ∈ low, ∃ x ∈ placed proto, x.idx = i ∧ x.isToken = true := by
  intro i hi
  obtain ⟨l, x, r, h1, h2, h3⟩ := (h.which i).1 hi
  refine ⟨x, by rw [h1]; simp, h2, ?_⟩
  cases b with
  | nonempty p => exact isToken_word h3.1
  | cumulative p => exact isToken_word h3.1
  | fraction f => exact isToken_word h3.1
  | cutoff a c => exact h3.1

theorem configured_iff (c : UncertainConfig) (b : UncertainBaseline) : b ∈ c.names ↔ Configured c b := by
  unfold UncertainConfig.names
  cases b <;> simp [Configured]

/-- What is known about the decisions `d` of a baseline `b`. -/
def BaselineFor (B : BuiltSystem EditState (Option EditInfo)) (proto : List (Node M))
    (aligned : List (Int × LogProb)) (exp : LogProb → ℚ) (tol : ℚ) (late : Nat → Nat → Bool)
    (b : UncertainBaseline) (d : Decisions) : Prop :=
  ∃ low i n, UncertainTokens proto aligned exp b low
    ∧ (∀ fuel, n ≤ fuel → lowAssignment B.system tol (late i) fuel low = .ok d)
    ∧ ∃ α, d = (seqKeys 0 proto).map (fun k => (k, α k)) ∧ WellFormedRegions α proto

theorem uncertainResults_ok (hB : buildEditSystem invalid prm proto [target] none = .ok B)
    (ht : DecisionFree target) {tokens : List (Text × LogProb)} {aligned : List (Int × LogProb)}
    (ha : alignTokenLogProbs tokens (pack proto) false = some aligned) (exp : LogProb → ℚ) {tol : ℚ}
    (htol : 0 < tol) (late : Nat → Nat → Bool) : ∀ (bs : List UncertainBaseline) (i : Nat)
    (acc : List (UncertainBaseline × Decisions)),
    (∀ ancestor child, .cutoff ancestor child ∈ bs → 1 ≤ ancestor ∧ 1 ≤ child) →
    (acc.map Prod.fst).Nodup → (∀ b d, (b, d) ∈ acc → BaselineFor B proto aligned exp tol late b d) →
    ∃ n res, (∀ fuel, n ≤ fuel → uncertainResults (pack proto) aligned exp B.system tol late fuel i bs acc = .ok res)
      ∧ (res.map Prod.fst).Nodup ∧ (∀ b, b ∈ res.map Prod.fst ↔ b ∈ acc.map Prod.fst ∨ b ∈ bs)
      ∧ ∀ b d, (b, d) ∈ res → BaselineFor B proto aligned exp tol late b d
  | [], i, acc, _, hnd, hacc => ⟨0, acc, fun _ _ => rfl, hnd, by simp, hacc⟩
  | b :: bs, i, acc, hb, hnd, hacc => by
    obtain ⟨low, l1, l2⟩ := lowIndices_ok ha exp b fun x y h => hb x y (by rw [h]; simp)
    obtain ⟨n1, α, D, st, -, a1, a2, -⟩ := C64_assignment hB ht htol (late i) l2.once (uncertain_isToken l2)
    obtain ⟨nd1, nd2⟩ := dictSet_nodup b ((seqKeys 0 proto).map fun k => (k, α k)) acc hnd
    obtain ⟨n2, res, r1, r2, r3, r4⟩ := uncertainResults_ok hB ht ha exp htol late bs (i + 1)
      (dictSet b ((seqKeys 0 proto).map fun k => (k, α k)) acc)
      (fun x y h => hb x y (List.mem_cons_of_mem _ h)) nd1 (by
        intro b' d' hm
        have hlk := lookup_mem_nodup nd1 hm
        rw [lookup_dictSet] at hlk
        split at hlk
        · rename_i hbb
          cases hlk
          subst hbb
          exact ⟨low, i, n1, l2, fun fuel hf => (a1 fuel hf).2, α, rfl, a2⟩
        · exact hacc b' d' (lookup_mem_codec hlk))
    refine ⟨max n1 n2, res, fun fuel hf => ?_, r2, fun b' => ?_, r4⟩
    · unfold uncertainResults
      rw [l1]
      simp only
      rw [(a1 fuel (le_trans (le_max_left _ _) hf)).2]
      exact r1 fuel (le_trans (le_max_right _ _) hf)
    · rw [r3, nd2, List.mem_cons]
      tauto

/-- C64: baselines with a bad cutoff are an error, which is raised when its turn comes. -/
theorem uncertainResults_bad (hB : buildEditSystem invalid prm proto [target] none = .ok B)
    (ht : DecisionFree target) {tokens : List (Text × LogProb)} {aligned : List (Int × LogProb)}
    (ha : alignTokenLogProbs tokens (pack proto) false = some aligned) (exp : LogProb → ℚ) {tol : ℚ}
    (htol : 0 < tol) (late : Nat → Nat → Bool) : ∀ (bs : List UncertainBaseline) (i : Nat)
    (acc : List (UncertainBaseline × Decisions)),
    (∃ ancestor child, .cutoff ancestor child ∈ bs ∧ (ancestor < 1 ∨ child < 1)) →
    ∃ n, ∀ fuel, n ≤ fuel → uncertainResults (pack proto) aligned exp B.system tol late fuel i bs acc
      = .error (.baseline .value)
  | [], i, acc, h => by simp at h
  | b :: bs, i, acc, h => by
    by_cases hb : ∀ ancestor child, b = .cutoff ancestor child → 1 ≤ ancestor ∧ 1 ≤ child
    · obtain ⟨low, l1, l2⟩ := lowIndices_ok ha exp b hb
      obtain ⟨n1, α, D, st, -, a1, a2, -⟩ := C64_assignment hB ht htol (late i) l2.once (uncertain_isToken l2)
      obtain ⟨n2, r1⟩ := uncertainResults_bad hB ht ha exp htol late bs (i + 1)
        (dictSet b ((seqKeys 0 proto).map fun k => (k, α k)) acc) (by
          obtain ⟨x, y, h1, h2⟩ := h
          rcases List.mem_cons.1 h1 with h1 | h1
          · have := hb x y h1.symm
            omega
          · exact ⟨x, y, h1, h2⟩)
      refine ⟨max n1 n2, fun fuel hf => ?_⟩
      unfold uncertainResults
      rw [l1]
      simp only
      rw [(a1 fuel (le_trans (le_max_left _ _) hf)).2]
      exact r1 fuel (le_trans (le_max_right _ _) hf)
    · push Not at hb
      obtain ⟨x, y, rfl, hxy⟩ := hb
      refine ⟨0, fun fuel _ => ?_⟩
      unfold uncertainResults
      rw [C64_bad_cutoff (pack proto) exp (by
        by_cases hx : x < 1
        · exact .inl hx
        · exact .inr (hxy (by omega)))]

end

/-! ## Building baselines -/

section
variable {cc : CharClass} {digit : Char → Bool} {lang : HelperLanguage} {context : Text}
  {tokens : List (Text × LogProb)} {tol : ℚ}

/-- The parts that building the baselines is made of, for a model output the parser accepts. -/
theorem uncertain_parts (hd : DigitSane digit) (hb : BracketsVisible cc) (invalid : Cost) (prm : Params)
    (hp : lang = .parsed .python → context ++ tokensText tokens ≠ []) :
    ∃ nodes proto target aligned B, parseToNodes cc digit lang false (context ++ tokensText tokens) = .ok nodes
      ∧ proto = processEditPrototype true false nodes context.length
      ∧ proto = truncatePrefix (insertRegions nodes true allowRegionsAround) context.length
      ∧ target = processEditTarget nodes context.length
      ∧ target = stripDecisions proto
      ∧ text proto = tokensText tokens ∧ ¬ Occurs proto .exit ∧ DecisionFree target
      ∧ alignTokenLogProbs tokens (pack proto) false = some aligned
      ∧ buildEditSystem invalid prm proto [target] none = .ok B := by
  obtain ⟨nodes, h1, h2, h3⟩ := parse_any hd hb lang hp
  set proto := processEditPrototype true false nodes context.length with hproto
  have htext : text proto = tokensText tokens := by
    rw [hproto]
    unfold processEditPrototype
    dsimp only
    rw [(C09_truncate_text _ context.length).1, if_neg (by simp), if_pos rfl,
      (C06_transforms_preserve_text nodes).2.2.2.1, h2]
    simp
  obtain ⟨aligned, ha⟩ := (C13_succeeds_iff tokens proto).1.mpr (by rw [htext])
  have hfree : DecisionFree (processEditTarget nodes context.length) := truncate_free h3 _
  obtain ⟨B, hB, -⟩ := C59_builds invalid prm proto [processEditTarget nodes context.length] none
    (by simpa using hfree) ⟨by simp, by simp⟩
  refine ⟨nodes, proto, _, aligned, B, h1, rfl, rfl, rfl, ?_, htext, ?_, hfree, ha, hB⟩
  · rw [hproto, strip_prototype h3]
  · rw [hproto]
    unfold processEditPrototype
    dsimp only
    rw [if_neg (by simp), if_pos rfl]
    exact truncate_noExit (insertRegions_noExit (free_noExit h3) _ _) _

/-- C64: building the baselines of uncertainty regions never fails, for all model outputs the parser accepts, if
the cutoffs are positive, and whatever the clock says. There is one baseline for each name in the configuration.
Each makes all decisions, and they are well-formed. They are those found for the uncertain tokens of that
baseline, see `C64_tokens` and `C64_assignment`, by editing the prototype into the model output. The text that is
shown is the whole model output, and what is shown as uncertain are the decisions that were made. -/
theorem C64_baselines (hd : DigitSane digit) (hb : BracketsVisible cc) (c : UncertainConfig)
    (exp : LogProb → ℚ) (invalid : Cost) (prm : Params) (htol : 0 < tol) (late : Nat → Nat → Bool)
    (hc : ∀ x ∈ c.cutoffs, 1 ≤ x.1 ∧ 1 ≤ x.2)
    (hp : lang = .parsed .python → context ++ tokensText tokens ≠ []) :
    ∃ n nodes proto aligned B res, parseToNodes cc digit lang false (context ++ tokensText tokens) = .ok nodes
      ∧ proto = truncatePrefix (insertRegions nodes true allowRegionsAround) context.length
      ∧ alignTokenLogProbs tokens (pack proto) false = some aligned
      ∧ buildEditSystem invalid prm proto [stripDecisions proto] none = .ok B
      ∧ text proto = tokensText tokens
      ∧ (∀ fuel, n ≤ fuel → uncertainBaselineResults cc digit lang c exp invalid prm tol late fuel context tokens
        = .ok res)
      ∧ (∀ b, b ∈ res.map Prod.fst ↔ Configured c b) ∧ (res.map Prod.fst).Nodup
      ∧ ∀ b d info, (b, d, info) ∈ res → info.total = none ∧ info.samples = none
        ∧ (∃ low i n', UncertainTokens proto aligned exp b low
          ∧ (∀ fuel, n' ≤ fuel → lowAssignment B.system tol (late i) fuel low = .ok d))
        ∧ (∃ α, d = (seqKeys 0 proto).map (fun k => (k, α k)) ∧ WellFormedRegions α proto
          ∧ info.parts = annotated α [] [] (placed proto))
        ∧ info.parts.flatMap MarkedToken.text = tokensText tokens := by
  obtain ⟨nodes, proto, target, aligned, B, h1, hpe, hpt, hte, hts, htext, hexit, hfree, ha, hB⟩ :=
    uncertain_parts (tokens := tokens) hd hb invalid prm hp
  obtain ⟨n, bs, g1, g2, g3, g4⟩ := uncertainResults_ok hB hfree ha exp htol late c.names 0 []
    (fun x y h => hc (x, y) (by simpa [Configured] using (configured_iff c _).1 h)) (by simp) (by simp)
  obtain ⟨res, r1, r2⟩ := baselineInfos_ok (proto := proto) (bs := bs)
    (out := fun b d parts => (∃ low i n', UncertainTokens proto aligned exp b low
          ∧ (∀ fuel, n' ≤ fuel → lowAssignment B.system tol (late i) fuel low = .ok d))
        ∧ (∃ α, d = (seqKeys 0 proto).map (fun k => (k, α k)) ∧ WellFormedRegions α proto
          ∧ parts = annotated α [] [] (placed proto))
        ∧ parts.flatMap MarkedToken.text = tokensText tokens) (by
      intro b d hbd
      obtain ⟨low, i, n', k1, k2, α, rfl, k3⟩ := g4 b d hbd
      refine ⟨_, records_extract k3 (C60_all_recorded proto α) [], ⟨low, i, n', k1, k2⟩, ⟨α, rfl, k3, ?_⟩, ?_⟩
      · rw [kept_noExit hexit]
      · rw [C43_text, kept_noExit hexit, placed_leafText, htext])
  have hfst : res.map Prod.fst = bs.map Prod.fst := by
    clear r1 g1 g2 g3 g4
    induction r2 with
    | nil => rfl
    | cons h _ ih => rw [List.map_cons, List.map_cons, ih, h.1]
  refine ⟨n, nodes, proto, aligned, B, res, h1, hpt, ha, by rw [← hts]; exact hB, htext, fun fuel hf => ?_,
    fun b => ?_, hfst ▸ g2, ?_⟩
  · have h1' : parseToNodes cc digit lang false (context ++ tokens.flatMap Prod.fst) = .ok nodes := h1
    unfold uncertainBaselineResults uncertainBaselines
    simp only [h1', ← hpe, ← hte, ha, hB, g1 fuel hf, r1]
  · rw [hfst, g3, ← configured_iff]
    simp
  · intro b d info hm
    obtain ⟨⟨b', d'⟩, -, q1, q2, q3, q4, q5⟩ := forall₂_mem_right' r2 hm
    dsimp only at q1 q2 q3 q4 q5
    subst q1 q2
    exact ⟨q3, q4, q5⟩

/-- C64: if some cutoff is not positive, building the baselines is an error. -/
theorem C64_bad_configuration (hd : DigitSane digit) (hb : BracketsVisible cc) (c : UncertainConfig)
    (exp : LogProb → ℚ) (invalid : Cost) (prm : Params) (htol : 0 < tol) (late : Nat → Nat → Bool)
    (hc : ∃ x ∈ c.cutoffs, x.1 < 1 ∨ x.2 < 1)
    (hp : lang = .parsed .python → context ++ tokensText tokens ≠ []) :
    ∃ n, ∀ fuel, n ≤ fuel → uncertainBaselineResults cc digit lang c exp invalid prm tol late fuel context tokens
      = .error (.uncertain (.baseline .value)) := by
  obtain ⟨nodes, proto, target, aligned, B, h1, hpe, hpt, hte, hts, htext, hexit, hfree, ha, hB⟩ :=
    uncertain_parts (tokens := tokens) hd hb invalid prm hp
  obtain ⟨⟨x, y⟩, hx, hxy⟩ := hc
  obtain ⟨n, g1⟩ := uncertainResults_bad hB hfree ha exp htol late c.names 0 []
    ⟨x, y, (configured_iff c (.cutoff x y)).2 hx, hxy⟩
  refine ⟨n, fun fuel hf => ?_⟩
  have h1' : parseToNodes cc digit lang false (context ++ tokens.flatMap Prod.fst) = .ok nodes := h1
  unfold uncertainBaselineResults uncertainBaselines
  simp only [h1', ← hpe, ← hte, ha, hB, g1 fuel hf]

end

/-! ## Examples -/

section Examples

/-- `a(b)` and `c`, where the token `b` is one level deeper than `a`. -/
def lowProto : List (Node Nat) :=
  [.tok ['a'] 0, .rstart, .group [.tok ['('] 0, .tok ['b'] 0, .tok [')'] 0] 1, .rend, .deco [' '], .tok ['c'] 0]

/-- The model output and its log probabilities. -/
def lowTokens : List (Text × LogProb) := [(['a', '('], 0), (['b', ')'], ((-2 : ℚ) : LogProb)), ([' ', 'c'], 0)]

/-- Whether there is any doubt. -/
def lowExp (x : LogProb) : ℚ := if x < 0 then 1 / 4 else 1

def lowAligned : List (Int × LogProb) :=
  [(0, 0), (3, 0), (4, ((-2 : ℚ) : LogProb)), (5, ((-2 : ℚ) : LogProb)), (8, 0)]

/-- The uncertain tokens of each kind of baseline. -/
example : alignTokenLogProbs lowTokens (pack lowProto) false = some lowAligned
    ∧ lowIndices (pack lowProto) lowAligned lowExp (.nonempty (1 / 2)) = .ok [4, 5]
    ∧ lowIndices (pack lowProto) lowAligned lowExp (.cumulative (1 / 2)) = .ok [4, 5, 8]
    ∧ lowIndices (pack lowProto) lowAligned lowExp (.fraction (1 / 2)) = .ok [5, 8]
    ∧ lowIndices (pack lowProto) lowAligned lowExp (.cutoff 1 1) = .ok [3, 4, 5]
    ∧ lowIndices (pack lowProto) lowAligned lowExp (.cutoff 1 2) = .ok [] := by
  decide +kernel

/-- The token `b` is uncertain, and `c` is not. -/
example : ∃ low, UncertainTokens lowProto lowAligned lowExp (.nonempty (1 / 2)) low ∧ 4 ∈ low ∧ 8 ∉ low := by
  obtain ⟨low, h1, h2⟩ := C64_tokens (tokens := lowTokens) (proto := lowProto) (all := false)
    (aligned := lowAligned) (by decide +kernel) lowExp (.nonempty (1 / 2)) (by simp)
  have : lowIndices (pack lowProto) lowAligned lowExp (.nonempty (1 / 2)) = .ok [4, 5] := by decide +kernel
  rw [this] at h1
  cases h1
  exact ⟨_, h2, by simp, by simp⟩

/-- Decisions for the tokens of `lowProto` that are deeper than the first. -/
example (late : Nat → Bool) (invalid : Cost) (prm : Params) : ∃ B n α,
    buildEditSystem invalid prm lowProto [stripDecisions lowProto] none = .ok B
    ∧ (∀ fuel, n ≤ fuel → lowAssignment B.system (1 / 1000) late fuel [3, 4, 5]
      = .ok ((seqKeys 0 lowProto).map fun k => (k, α k)))
    ∧ WellFormedRegions α lowProto := by
  have hf : DecisionFree (stripDecisions lowProto) := (C07_strip_idempotent lowProto).2
  obtain ⟨B, hB, -⟩ := C59_builds invalid prm lowProto [stripDecisions lowProto] none (by simpa using hf)
    ⟨by simp, by simp⟩
  obtain ⟨low, h1, h2⟩ := C64_tokens (tokens := lowTokens) (proto := lowProto) (all := false)
    (aligned := lowAligned) (by decide +kernel) lowExp (.cutoff 1 1) (by simp)
  have : lowIndices (pack lowProto) lowAligned lowExp (.cutoff 1 1) = .ok [3, 4, 5] := by decide +kernel
  rw [this] at h1
  cases h1
  obtain ⟨n, α, D, st, -, g1, g2, -⟩ := C64_assignment hB hf (tol := 1 / 1000) (by norm_num) late h2.once
    (uncertain_isToken h2)
  exact ⟨B, n, α, hB, fun fuel hf => (g1 fuel hf).2, g2⟩

/-- All kinds of baselines for a model output, whatever the clock says. -/
example (late : Nat → Nat → Bool) (invalid : Cost) (prm : Params) : ∃ n res d info,
    (∀ fuel, n ≤ fuel → uncertainBaselineResults asciiClass asciiDigit .rawSimpleTokens
      ⟨[1 / 2], [1 / 2], [(1, 1)]⟩ lowExp invalid prm (1 / 1000) late fuel ['a', ' ']
      [(['b'], 0), ([' ', 'c'], ((-2 : ℚ) : LogProb))] = .ok res)
    ∧ (.cumulative (1 / 2), d, info) ∈ res
    ∧ info.parts.flatMap MarkedToken.text = ['b', ' ', 'c'] := by
  obtain ⟨n, nodes, proto, aligned, B, res, -, -, -, -, -, h1, h2, -, h3⟩ := C64_baselines
    (lang := .rawSimpleTokens) (context := ['a', ' ']) (tokens := [(['b'], 0), ([' ', 'c'], ((-2 : ℚ) : LogProb))])
    (tol := 1 / 1000) asciiDigit_sane ascii_brackets ⟨[1 / 2], [1 / 2], [(1, 1)]⟩ lowExp invalid prm
    (by norm_num) late (by simp) (fun h => by cases h)
  obtain ⟨⟨b, d, info⟩, h7, e⟩ := List.mem_map.1 ((h2 (.cumulative (1 / 2))).2 (by simp [Configured]))
  cases e
  exact ⟨n, res, d, info, h1, h7, (h3 _ _ _ h7).2.2.2.2⟩

example (late : Nat → Nat → Bool) (invalid : Cost) (prm : Params) : ∃ n, ∀ fuel, n ≤ fuel →
    uncertainBaselineResults asciiClass asciiDigit .rawSimpleTokens
      ⟨[], [], [(1, 0)]⟩ lowExp invalid prm (1 / 1000) late fuel ['a', ' '] [(['b'], 0)]
      = .error (.uncertain (.baseline .value)) :=
  C64_bad_configuration asciiDigit_sane ascii_brackets _ lowExp invalid prm (by norm_num) late
    ⟨(1, 0), by simp, by simp⟩ (fun h => by cases h)

end Examples

end RUSure.Props
