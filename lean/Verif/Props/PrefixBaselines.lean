import Verif.Lemmas.PrefixBaselines
import Verif.Props.Constraint
import Verif.Props.TokenProbAlign

/-!
# C52: baselines for prefix truncation
-/

namespace RUSure.Props
open RUSure RUSure.Spec RUSure.Lemmas
variable {M : Type}

/-- **C52.** Taking an early exit of the prototype, or none: the decisions are that this exit is taken,
those before it are not, those after it are not applicable, and no region starts. Any other index
raises a `ValueError`. -/
theorem C52_exit (proto : List (Node M)) :
    (∃ d, assignmentFromExitPoint (pack proto) none = .ok d ∧ ExitsAt proto none d)
    ∧ (∀ i ∈ exitsOf (placed proto),
      ∃ d, assignmentFromExitPoint (pack proto) (some (i : Int)) = .ok d ∧ ExitsAt proto (some i) d)
    ∧ ∀ i, i ∉ exitsOf (placed proto) → assignmentFromExitPoint (pack proto) (some (i : Int)) = .error .value :=
  ⟨(assignment_ok proto none).1 (by simp),
    fun i hi => (assignment_ok proto (some i)).1 (by rintro _ ⟨⟩; exact hi),
    fun i hi => (assignment_ok proto (some i)).2 i rfl hi⟩

theorem firstExit_mem {proto : List (Node M)} {cond : List (Placed M) → Prop} {e : Option Nat}
    (h : FirstExitWhere proto cond e) : ∀ i, e = some i → i ∈ exitsOf (placed proto) := by
  rintro i rfl
  obtain ⟨l, x, r, h1, h2, h3, -⟩ := h
  exact mem_exitsOf.mpr ⟨x, by rw [h1]; simp, h2, h3⟩

theorem exitAtLow_mem {proto : List (Node M)} {low : List (Placed M) → Placed M → Prop} {e : Option Nat}
    (h : ExitAtLow proto low e) : ∀ i, e = some i → i ∈ exitsOf (placed proto) := by
  rintro i rfl
  rcases h with ⟨l, x, r, h1, -, -, h4⟩ | ⟨-, h⟩
  · rw [h1, exitsOf_append, List.mem_append]
    cases hl : (exitsOf l).getLast? with
    | some j =>
      rw [hl, Option.some_or, Option.some.injEq] at h4
      subst h4
      exact .inl (List.mem_of_getLast? hl)
    | none =>
      rw [hl, Option.none_or] at h4
      right
      have := List.mem_of_head? h4.symm
      obtain ⟨y, hy, h5⟩ := mem_exitsOf.mp this
      exact mem_exitsOf.mpr ⟨y, by simp [hy], h5⟩
  · cases h

/-- **C52.** The character baseline takes the first early exit that comes after some token and such that
the tokens before it have at least the given number of characters. -/
theorem C52_characters (proto : List (Node M)) (limit : Int) :
    ∃ e d, baselineCharacters (pack proto) limit = .ok d ∧ ExitsAt proto e d
      ∧ FirstExitWhere proto
        (fun l => tokenTextsOf l ≠ [] ∧ limit ≤ ((tokenTextsOf l).flatten.length : Int)) e := by
  have h := firstExitWhere_scan proto (charsCond limit)
    (fun l => tokenTextsOf l ≠ [] ∧ limit ≤ ((tokenTextsOf l).flatten.length : Int)) (by
      intro l
      simp only [charsCond, Bool.and_eq_true, Bool.not_eq_true', List.isEmpty_eq_false_iff, decide_eq_true_eq])
  obtain ⟨d, h1, h2⟩ := (assignment_ok proto _).1 (firstExit_mem h)
  refine ⟨_, d, ?_, h2, h⟩
  unfold baselineCharacters
  have := charactersLoop_eq limit (holdsAt_pack proto) []
  simp only [charsCond, tokenTextsOf, List.filterMap_nil, List.flatten_nil, List.length_nil, List.isEmpty_nil,
    Bool.not_true, Bool.false_and] at this
  rw [this, ok_bind_eq]
  exact h1

/-- **C52.** The line baseline takes the first early exit that comes after at least the given number (and
at least one) of decorations with a newline. -/
theorem C52_lines (proto : List (Node M)) (limit : Int) :
    ∃ e d, baselineLines (pack proto) limit = .ok d ∧ ExitsAt proto e d
      ∧ FirstExitWhere proto (fun l => newlinesOf l ≠ [] ∧ limit ≤ ((newlinesOf l).length : Int)) e := by
  have h := firstExitWhere_scan proto (linesCond limit)
    (fun l => newlinesOf l ≠ [] ∧ limit ≤ ((newlinesOf l).length : Int)) (by
      intro l
      simp only [linesCond, Bool.and_eq_true, Bool.not_eq_true', List.isEmpty_eq_false_iff, decide_eq_true_eq])
  obtain ⟨d, h1, h2⟩ := (assignment_ok proto _).1 (firstExit_mem h)
  refine ⟨_, d, ?_, h2, h⟩
  unfold baselineLines
  have := linesLoop_eq limit (holdsAt_pack proto) []
  simp only [linesCond, newlinesOf, List.filterMap_nil, List.length_nil, List.isEmpty_nil,
    Bool.not_true, Bool.false_and] at this
  rw [this, ok_bind_eq]
  exact h1

section
variable {tokens : List (Text × LogProb)} {aligned : List (Int × LogProb)}

/-- **C52.** The probability baselines take the last early exit before the first word whose probability
(or, if `cumulative`, the probability of all words up to it) is below the threshold, or the first one
after that word if there is none before. -/
theorem C52_token_prob {proto : List (Node M)} (h : alignTokenLogProbs tokens (pack proto) false = some aligned)
    (exp : LogProb → ℚ) (threshold : ℚ) (cumulative : Bool) :
    ∃ e d, baselineTokenProb (pack proto) aligned exp threshold cumulative = .ok d ∧ ExitsAt proto e d
      ∧ ExitAtLow proto (fun l x => x.isWord = true
        ∧ exp (if cumulative then totalLogProb aligned (l ++ [x]) else logProbOf aligned x) < threshold) e := by
  have hs := exitAtLow_scan proto (probLow aligned exp threshold cumulative) (fun l x => x.isWord = true
        ∧ exp (if cumulative then totalLogProb aligned (l ++ [x]) else logProbOf aligned x) < threshold) (by
      intro l x hx hn
      rw [probLow, isWord_other (by rw [hn]; simp)] at hx
      simp at hx) (by
      intro l x
      simp only [probLow, Bool.and_eq_true, decide_eq_true_eq])
  obtain ⟨d, h1, h2⟩ := (assignment_ok proto _).1 (exitAtLow_mem hs)
  refine ⟨_, d, ?_, h2, hs⟩
  unfold baselineTokenProb
  have := tokenProbLoop_eq (exp := exp) (threshold := threshold) (cumulative := cumulative) (holdsAt_aligned h) [] 0
    none false (fun _ => rfl)
  rw [asInt] at this
  rw [this, ok_bind_eq]
  exact h1

/-- **C52.** The IntelliCode Compose baseline does the same with a threshold that depends on the number
of words before. -/
theorem C52_intellicode {proto : List (Node M)} (h : alignTokenLogProbs tokens (pack proto) false = some aligned)
    {exp : LogProb → ℚ} (hexp : ∀ p, 0 ≤ exp p) (alpha : ℚ) {kappa : ℚ} (hk : kappa ≠ 0) :
    ∃ e d, baselineIntellicode (pack proto) aligned exp alpha kappa = .ok d ∧ ExitsAt proto e d
      ∧ ExitAtLow proto (fun l x => x.isWord = true ∧ exp (logProbOf aligned x)
        < alpha / (1 + exp ((-((l.filter Placed.isWord).length : ℚ) / kappa : ℚ) : LogProb))) e := by
  have hs := exitAtLow_scan proto (composeLow aligned exp alpha kappa) (fun l x => x.isWord = true
        ∧ exp (logProbOf aligned x)
        < alpha / (1 + exp ((-((l.filter Placed.isWord).length : ℚ) / kappa : ℚ) : LogProb))) (by
      intro l x hx hn
      rw [composeLow, isWord_other (by rw [hn]; simp)] at hx
      simp at hx) (by
      intro l x
      simp only [composeLow, Bool.and_eq_true, decide_eq_true_eq])
  obtain ⟨d, h1, h2⟩ := (assignment_ok proto _).1 (exitAtLow_mem hs)
  refine ⟨_, d, ?_, h2, hs⟩
  unfold baselineIntellicode
  have := intellicodeLoop_eq (alpha := alpha) hk hexp (holdsAt_aligned h) [] none false
  rw [asInt] at this
  simp only [List.filter_nil, List.length_nil] at this
  rw [this, ok_bind_eq]
  exact h1

/-- **C52.** The average baseline takes the first early exit at which the average log probability of the
words before it is largest. -/
theorem C52_max_average {proto : List (Node M)} (h : alignTokenLogProbs tokens (pack proto) false = some aligned) :
    ∃ e d, baselineMaxAverage (pack proto) aligned = .ok d ∧ ExitsAt proto e d
      ∧ ExitAtMaxAverage aligned proto e := by
  obtain ⟨best, e, h1, h2⟩ := maxAverageLoop_spec (holdsAt_aligned h) [] ⊥ none ⟨rfl, by simp⟩
  rw [List.nil_append] at h2
  have hs : ExitAtMaxAverage aligned proto e := by
    cases e with
    | none => exact h2.2
    | some e =>
      obtain ⟨l, x, r, g1, g2, g3, g4, g5, g6, g7⟩ := h2
      rw [g5] at g6 g7
      exact ⟨l, x, r, g1, g2, g3, g4, g6, g7⟩
  have hm : ∀ i, e = some i → i ∈ exitsOf (placed proto) := by
    rintro i rfl
    obtain ⟨l, x, r, g1, g2, g3, -⟩ := h2
    exact mem_exitsOf.mpr ⟨x, by rw [g1]; simp, g2, g3⟩
  obtain ⟨d, g1, g2⟩ := (assignment_ok proto _).1 hm
  refine ⟨e, d, ?_, g2, hs⟩
  unfold baselineMaxAverage
  simp only [totalLogProb, List.filter_nil, List.map_nil, List.foldl_nil, List.length_nil, asInt] at h1
  rw [h1, ok_bind_eq]
  exact g1

/-- **C52.** A heuristic parameter of zero raises, as soon as there is a word. -/
theorem C52_kappa_zero : ∃ proto : List (Node Unit), ∃ aligned,
    alignTokenLogProbs [(['a'], ((-1 : ℚ) : LogProb))] (pack proto) false = some aligned
      ∧ baselineIntellicode (pack proto) aligned (fun _ => 1) 1 0 = .error .zeroDivision :=
  ⟨[.tok ['a'] ()], _, rfl, rfl⟩

/-- A baseline takes the early exit it should, which is in the prototype. -/
theorem prefixBaseline_spec {proto : List (Node M)}
    (ha : alignTokenLogProbs tokens (pack proto) false = some aligned) {exp : LogProb → ℚ}
    (hexp : ∀ p, 0 ≤ exp p) (b : PrefixBaseline) :
    ∃ e d, prefixBaseline (pack proto) aligned exp b = .ok d ∧ ExitsAt proto e d
      ∧ BaselineExit proto aligned exp b e ∧ ∀ i, e = some i → i ∈ exitsOf (placed proto) := by
  cases b with
  | tokenProb p =>
    obtain ⟨e, d, h1, h2, h3⟩ := C52_token_prob ha exp p false
    exact ⟨e, d, h1, h2, h3, exitAtLow_mem h3⟩
  | prefixProb p =>
    obtain ⟨e, d, h1, h2, h3⟩ := C52_token_prob ha exp p true
    exact ⟨e, d, h1, h2, h3, exitAtLow_mem h3⟩
  | intellicode =>
    obtain ⟨e, d, h1, h2, h3⟩ := C52_intellicode ha hexp (4 / 5) (kappa := 10) (by norm_num)
    exact ⟨e, d, h1, h2, h3, exitAtLow_mem h3⟩
  | maxAverage =>
    obtain ⟨e, d, h1, h2, h3⟩ := C52_max_average ha
    refine ⟨e, d, h1, h2, h3, ?_⟩
    rintro i rfl
    obtain ⟨l, x, r, g1, g2, g3, -⟩ := h3
    exact mem_exitsOf.mpr ⟨x, by rw [g1]; simp, g2, g3⟩
  | characters n =>
    obtain ⟨e, d, h1, h2, h3⟩ := C52_characters proto n
    exact ⟨e, d, h1, h2, h3, firstExit_mem h3⟩
  | lines n =>
    obtain ⟨e, d, h1, h2, h3⟩ := C52_lines proto n
    exact ⟨e, d, h1, h2, h3, firstExit_mem h3⟩

theorem mem_names (c : PrefixConfig) (b : PrefixBaseline) : b ∈ c.names ↔ Wanted c b := by
  cases b <;> simp [PrefixConfig.names, Wanted]

/-- **C52.** All baselines of the wrapper that it is configured to compute are found if the text of the prototype is a prefix of that of
the model tokens, and otherwise a `ValueError` is raised; each takes the early exit it should. There are none if regions are
inserted too. -/
theorem C52_all (c : PrefixConfig) {exp : LogProb → ℚ} (hexp : ∀ p, 0 ≤ exp p) (proto : List (Node M)) :
    (c.insertRegions = true → prefixBaselines c exp (pack proto) tokens = .ok [])
    ∧ (c.insertRegions = false → ¬ Spec.text proto <+: tokensText tokens →
      prefixBaselines c exp (pack proto) tokens = .error .value)
    ∧ (c.insertRegions = false → Spec.text proto <+: tokensText tokens →
      ∃ res, prefixBaselines c exp (pack proto) tokens = .ok res
        ∧ (∀ b, (∃ d, res.lookup b = some d) ↔ Wanted c b)
        ∧ ∃ aligned, alignTokenLogProbs tokens (pack proto) false = some aligned
          ∧ ∀ b d, res.lookup b = some d → ∃ e, ExitsAt proto e d ∧ BaselineExit proto aligned exp b e
            ∧ ∀ i, e = some i → i ∈ exitsOf (placed proto)) := by
  refine ⟨fun h => ?_, fun h hp => ?_, fun h hp => ?_⟩
  · unfold prefixBaselines
    rw [if_pos h]
  · unfold prefixBaselines
    rw [if_neg (by simp [h])]
    cases ha : alignTokenLogProbs tokens (pack proto) false with
    | none => rfl
    | some a => exact absurd ((C13_succeeds_iff tokens proto).1.mp ⟨a, ha⟩) hp
  · obtain ⟨a, ha⟩ := (C13_succeeds_iff tokens proto).1.mpr hp
    have one := prefixBaseline_spec ha hexp
    have all : ∀ (bs : List PrefixBaseline) (acc : List (PrefixBaseline × Decisions)),
        (∀ b d, acc.lookup b = some d → prefixBaseline (pack proto) a exp b = .ok d) →
        ∃ res, prefixResults (pack proto) a exp bs acc = .ok res
          ∧ (∀ b, (∃ d, res.lookup b = some d) ↔ (∃ d, acc.lookup b = some d) ∨ b ∈ bs)
          ∧ ∀ b d, res.lookup b = some d → prefixBaseline (pack proto) a exp b = .ok d := by
      intro bs
      induction bs with
      | nil => intro acc hacc; exact ⟨acc, rfl, by simp, hacc⟩
      | cons b bs ih =>
        intro acc hacc
        obtain ⟨-, d, h1, -⟩ := one b
        obtain ⟨res, g1, g2, g3⟩ := ih (dictSet b d acc) (by
          intro b' d' hb'
          rw [lookup_dictSet] at hb'
          split at hb'
          · rename_i hbb
            cases hb'
            rw [hbb, h1]
          · exact hacc b' d' hb')
        refine ⟨res, ?_, ?_, g3⟩
        · rw [prefixResults, h1, ok_bind_eq]
          exact g1
        · intro b'
          rw [g2, List.mem_cons]
          constructor
          · rintro (⟨d', hd'⟩ | hb')
            · rw [lookup_dictSet] at hd'
              split at hd'
              · rename_i hbb
                exact .inr (.inl hbb)
              · exact .inl ⟨d', hd'⟩
            · exact .inr (.inr hb')
          · rintro (⟨d', hd'⟩ | rfl | hb')
            · left
              rw [lookup_dictSet]
              split
              · exact ⟨d, rfl⟩
              · exact ⟨d', hd'⟩
            · left
              rw [lookup_dictSet, if_pos rfl]
              exact ⟨d, rfl⟩
            · exact .inr hb'
    obtain ⟨res, h1, h2, h3⟩ := all c.names [] (by simp)
    refine ⟨res, ?_, ?_, a, ha, ?_⟩
    · unfold prefixBaselines
      rw [if_neg (by simp [h]), ha]
      exact h1
    · intro b
      rw [h2, ← mem_names]
      simp
    · intro b d hb
      obtain ⟨e, d', g1, g2, g3, g4⟩ := one b
      have := h3 b d hb
      rw [g1] at this
      cases this
      exact ⟨e, g2, g3, g4⟩

end

/-! ### The decisions of a baseline have one solution -/

/-- The only solution: before the early exit nothing is in a region. -/
def cutAt (e : Option Nat) (k : DecisionKey) : DecisionValue :=
  match e with
  | none => if k.cat = .stop then .na else .no
  | some i => if i < k.index then .na else if k.index = i then .yes else if k.cat = .stop then .na else .no

theorem key_index {x : Placed M} {k : DecisionKey} (h : x.key = some k) : k.index = x.idx := by
  obtain ⟨i, p, n⟩ := x
  cases n <;> simp [Placed.key] at h <;> rw [← h]

theorem inRegionAfter_false {α : DecisionKey → DecisionValue} {l : List (Placed M)}
    (h : ∀ y ∈ l, y.mark α = none) : inRegionAfter α l = false := by
  unfold inRegionAfter
  rw [List.findSome?_eq_none_iff.mpr (by simpa using h)]
  rfl

section
variable {proto : List (Node M)} {e : Option Nat} {dec : Decisions}

/-- Where the early exit is. -/
theorem exit_split (he : ∀ i, e = some i → i ∈ exitsOf (placed proto)) {i : Nat} (hi : e = some i) :
    ∃ l x r, placed proto = l ++ x :: r ∧ x.node = .exit ∧ x.idx = i := by
  obtain ⟨x, hx, h1, h2⟩ := mem_exitsOf.mp (he i hi)
  obtain ⟨l, r, h⟩ := List.append_of_mem hx
  exact ⟨l, x, r, h, h1, h2⟩

theorem cut_mark (he : ∀ i, e = some i → i ∈ exitsOf (placed proto)) {x : Placed M} (hx : x ∈ placed proto) :
    x.mark (cutAt e) = none ∧ (x.exits (cutAt e) = true ↔ x.node = .exit ∧ e = some x.idx) := by
  obtain ⟨l, r, hl⟩ := List.append_of_mem hx
  have hidx := placed_idx hl
  have huniq : ∀ i, e = some i → i = x.idx → x.node = .exit := by
    rintro i hi rfl
    obtain ⟨l', y, r', h1, h2, h3⟩ := exit_split he hi
    have hidx' := placed_idx h1
    rw [h3] at hidx'
    have : (placed proto)[x.idx]? = some x := by rw [hl, hidx]; simp
    have h4 : (placed proto)[x.idx]? = some y := by rw [h1, hidx']; simp
    rw [this] at h4
    cases h4
    exact h2
  obtain ⟨j, p, n⟩ := x
  cases e with
  | none => cases n <;> simp [Placed.mark, Placed.exits, cutAt]
  | some i =>
    have hne := huniq i rfl
    dsimp only at hne
    cases n with
    | exit =>
      simp only [Placed.mark, Placed.exits, cutAt]
      refine ⟨trivial, ?_⟩
      rw [decide_eq_true_eq]
      split
      · simp; omega
      · split
        · simp; omega
        · simp; omega
    | rstart =>
      simp only [Placed.mark, Placed.exits, cutAt]
      have : i ≠ j := fun h => by simpa using hne h
      split <;> simp
      omega
    | rend =>
      simp only [Placed.mark, Placed.exits, cutAt]
      have : i ≠ j := fun h => by simpa using hne h
      split <;> simp
      omega
    | _ => simp [Placed.mark, Placed.exits]

theorem placed_key_of_mem {k : DecisionKey} (hk : k ∈ seqKeys 0 proto) :
    ∃ x ∈ placed proto, x.key = some k := by
  rw [← filterMap_key_pl proto [] 0 0, ← placed_eq, List.mem_filterMap] at hk
  exact hk

theorem mem_seqKeys_of_placed {x : Placed M} (hx : x ∈ placed proto) {k : DecisionKey} (hk : x.key = some k) :
    k ∈ seqKeys 0 proto := by
  rw [← filterMap_key_pl proto [] 0 0, ← placed_eq, List.mem_filterMap]
  exact ⟨x, hx, hk⟩

/-- Nodes after the early exit. -/
theorem after_exit {l r : List (Placed M)} {x : Placed M} (h : placed proto = l ++ x :: r) {y : Placed M}
    (hy : y ∈ placed proto) (hlt : x.idx < y.idx) : y ∈ r := by
  obtain ⟨l', r', h'⟩ := List.append_of_mem hy
  have h1 := placed_idx h
  have h2 := placed_idx h'
  have h3 : (placed proto)[y.idx]? = some y := by rw [h', h2]; simp
  rw [h, List.getElem?_append_right (by omega)] at h3
  obtain ⟨n, hn⟩ : ∃ n, y.idx - l.length = n + 1 := ⟨y.idx - l.length - 1, by omega⟩
  rw [hn, List.getElem?_cons_succ] at h3
  exact List.mem_of_getElem? h3

/-- Nodes before another one. -/
theorem idx_lt {l r : List (Placed M)} {x : Placed M} (h : placed proto = l ++ x :: r) {y : Placed M}
    (hy : y ∈ l) : y.idx < x.idx := by
  obtain ⟨l', r', h'⟩ := List.append_of_mem hy
  rw [placed_idx h]
  rw [h', List.append_assoc] at h
  rw [placed_idx h, h']
  simp

theorem idx_gt {l r : List (Placed M)} {x : Placed M} (h : placed proto = l ++ x :: r) {y : Placed M}
    (hy : y ∈ r) : x.idx < y.idx := by
  obtain ⟨l', r', h'⟩ := List.append_of_mem hy
  have : placed proto = (l ++ x :: l') ++ y :: r' := by rw [h, h']; simp
  exact idx_lt this (by simp)

theorem cut_wellFormed (he : ∀ i, e = some i → i ∈ exitsOf (placed proto)) :
    WellFormedRegions (cutAt e) proto := by
  have hmem : ∀ {l : List (Placed M)} {x r}, placed proto = l ++ x :: r → x ∈ placed proto
      ∧ (∀ y ∈ l, y ∈ placed proto) ∧ ∀ y ∈ r, y ∈ placed proto := by
    intro l x r h
    rw [h]
    simp +contextual
  refine ⟨fun l x r h hl => ?_, fun l x r h hl hx => ?_, fun l x r h hl hx y hy k hk => ?_⟩
  · rw [inRegionAfter_false fun y hy => (cut_mark he ((hmem h).2.1 y hy)).1]
    have hle : ∀ i, e = some i → x.idx ≤ i := by
      intro i hi
      by_contra hlt
      obtain ⟨y, hy, h1, h2⟩ := mem_exitsOf.mp (he i hi)
      have hyl : y ∈ l := by
        obtain ⟨l', r', h'⟩ := List.append_of_mem hy
        have h4 : (placed proto)[y.idx]? = some y := by rw [h', placed_idx h']; simp
        rw [h, List.getElem?_append_left (by rw [← placed_idx h]; omega)] at h4
        exact List.mem_of_getElem? h4
      have := hl y hyl
      rw [← Bool.not_eq_true, (cut_mark he hy).2] at this
      exact this ⟨h1, by rw [hi, h2]⟩
    have hm := cut_mark he (hmem h).1
    have huniq : ∀ i, e = some i → i = x.idx → x.node = .exit := by
      rintro i hi rfl
      obtain ⟨l', y, r', h1, h2, h3⟩ := exit_split he hi
      have hidx' := placed_idx h1
      rw [h3] at hidx'
      have : (placed proto)[x.idx]? = some x := by rw [h, placed_idx h]; simp
      have h4 : (placed proto)[x.idx]? = some y := by rw [h1, hidx']; simp
      rw [this] at h4
      cases h4
      exact h2
    obtain ⟨j, p, n⟩ := x
    cases e with
    | none => cases n <;> simp [Placed.Ok, cutAt]
    | some i =>
      have h1 := hle i rfl
      have h2 := huniq i rfl
      dsimp only at h1 h2
      have h3 : ¬ i < j := by omega
      cases n with
      | exit =>
        simp only [Placed.Ok, cutAt, if_neg h3]
        split <;> simp
      | deco t => trivial
      | _ =>
        have : ¬ j = i := fun h => by simpa using h2 h.symm
        simp [Placed.Ok, cutAt, h3, this]
  · rw [(cut_mark he (hmem h).1).1] at hx
    cases hx
  · obtain ⟨-, h2⟩ := (cut_mark he (hmem h).1).2.mp hx
    have h3 := idx_gt h hy
    rw [← key_index hk] at h3
    subst h2
    simp only [cutAt, if_pos h3]

theorem cut_agrees (hs : ∀ i, e = some i → ∀ j ∈ startsOf (placed proto), j < i) (hdec : ExitsAt proto e dec) :
    AgreesWith dec (cutAt e) := by
  intro k v hv
  rw [hdec.made k] at hv
  obtain ⟨j, c⟩ := k
  cases c with
  | exit =>
    simp only at hv
    split at hv
    · cases hv
      cases e with
      | none => simp [cutAt]
      | some i =>
        simp only [cutAt]
        split
        · rw [if_neg (by omega), if_neg (by omega)]
        · split
          · rw [if_neg (by omega)]
          · simp only [reduceCtorEq, if_false]
            rw [if_pos (by omega)]
    · cases hv
  | start =>
    simp only at hv
    split at hv
    · rename_i hj
      cases hv
      cases e with
      | none => simp [cutAt]
      | some i =>
        have := hs i rfl j hj
        simp only [cutAt]
        rw [if_neg (by omega), if_neg (by omega)]
        simp
    · cases hv
  | _ => simp at hv

theorem takeWhile_all {p : Placed M → Bool} : ∀ {l : List (Placed M)}, (∀ x ∈ l, p x = true) → l.takeWhile p = l
  | [], _ => rfl
  | x :: l, h => by
    rw [List.takeWhile_cons, if_pos (h x (by simp)), takeWhile_all fun y hy => h y (by simp [hy])]

/-- What the decisions of a baseline say about an assignment. -/
theorem agrees_exit {α : DecisionKey → DecisionValue} (hdec : ExitsAt proto e dec) (hα : AgreesWith dec α)
    {x : Placed M} (hx : x ∈ placed proto) : x.exits α = true ↔ x.node = .exit ∧ e = some x.idx := by
  obtain ⟨j, p, n⟩ := x
  cases n with
  | exit =>
    have hj : j ∈ exitsOf (placed proto) := mem_exitsOf.mpr ⟨_, hx, rfl, rfl⟩
    have h1 := hdec.made ⟨j, .exit⟩
    simp only [if_pos hj] at h1
    have h2 := hα _ _ h1
    simp only [Placed.exits, h2, decide_eq_true_eq, true_and]
    cases e with
    | none => simp
    | some i =>
      simp only [Option.some.injEq]
      split
      · simp; omega
      · split
        · simp; omega
        · simp; omega
  | _ => simp [Placed.exits]

theorem agrees_start {α : DecisionKey → DecisionValue} (hdec : ExitsAt proto e dec) (hα : AgreesWith dec α)
    {x : Placed M} (hx : x ∈ placed proto) (hn : x.node = .rstart) : α ⟨x.idx, .start⟩ = .no := by
  have hj : x.idx ∈ startsOf (placed proto) := mem_startsOf.mpr ⟨_, hx, hn, rfl⟩
  have h1 := hdec.made ⟨x.idx, .start⟩
  simp only [if_pos hj] at h1
  exact hα _ _ h1

theorem agrees_marks {α : DecisionKey → DecisionValue} (hdec : ExitsAt proto e dec) (hα : AgreesWith dec α)
    (hw : WellFormedRegions α proto) : ∀ (l r : List (Placed M)), placed proto = l ++ r →
      (∀ y ∈ l, y.exits α = false) → ∀ y ∈ l, y.mark α = none := by
  intro l
  induction l using List.reverseRecOn with
  | nil => simp
  | append_singleton l x ih =>
    intro r h hl y hy
    rw [List.append_assoc] at h
    have ih' := ih _ h (fun y hy => hl y (by simp [hy]))
    rcases List.mem_append.mp hy with hy | hy
    · exact ih' y hy
    · rw [List.mem_singleton.mp hy]
      have hok := hw.nodes l x r (by simpa using h) (fun y hy => hl y (by simp [hy]))
      rw [inRegionAfter_false ih'] at hok
      have hx : x ∈ placed proto := by rw [h]; simp
      have hst := agrees_start hdec hα hx
      obtain ⟨j, p, n⟩ := x
      cases n with
      | rstart =>
        simp only [Placed.mark]
        rw [hst rfl]
        simp
      | rend =>
        simp only [Placed.Ok, iff_true] at hok
        simp only [Placed.mark, hok]
        simp
      | _ => rfl

/-- **C52.** If no region can start after the early exit of a baseline, its decisions have exactly one
completion among the assignments accepted by the constraint DAG. With it, all nodes before the early exit
are shown, and none is flagged. If there are no regions, all decisions about early exits are recorded. -/
theorem C52_accepted {d : Dag ConstraintState DecisionKey DecisionValue Bool}
    (hd : constructConstraintDag proto = .ok d) (he : ∀ i, e = some i → i ∈ exitsOf (placed proto))
    (hdec : ExitsAt proto e dec) (hs : ∀ i, e = some i → ∀ j ∈ startsOf (placed proto), j < i) :
    ∃ α, Accepts d (seqKeys 0 proto) α ∧ AgreesWith dec α
      ∧ (∀ α', Accepts d (seqKeys 0 proto) α' → AgreesWith dec α' → ∀ k ∈ seqKeys 0 proto, α' k = α k)
      ∧ (∀ asg marker, (∀ k ∈ seqKeys 0 proto, k.cat ≠ .inRegion → asg k = some (α k)) →
        extractRegions (pack proto) asg marker
          = .ok ((((placed proto).filter fun x => decide (∀ i ∈ e, x.idx < i)).filterMap Placed.text).map
            fun t => ⟨t, false⟩))
      ∧ ((∀ x ∈ placed proto, x.node ≠ .rend) → Records proto α dec) := by
  have hwf := cut_wellFormed he
  refine ⟨cutAt e, (C42_accepts proto d hd _).mpr hwf, cut_agrees hs hdec, ?_, ?_, fun hend => ?_⟩
  · intro α' hacc hα' k hk
    have hw := (C42_accepts proto d hd _).mp hacc
    obtain ⟨x, hx, hxk⟩ := placed_key_of_mem hk
    obtain ⟨l, r, hl⟩ := List.append_of_mem hx
    by_cases hgt : ∃ i, e = some i ∧ i < x.idx
    · obtain ⟨i, rfl, hi⟩ := hgt
      obtain ⟨l', y, r', h1, h2, h3⟩ := exit_split he rfl
      have hmem : ∀ z ∈ l', z ∈ placed proto := fun z hz => by rw [h1]; simp [hz]
      have hno : ∀ {α}, (∀ z ∈ placed proto, (z.exits α = true ↔ z.node = .exit ∧ some i = some z.idx)) →
          ∀ z ∈ l', z.exits α = false := by
        intro α ha z hz
        have := idx_lt h1 hz
        rw [← Bool.not_eq_true, ha z (hmem z hz), Option.some.injEq]
        omega
      have hy : y ∈ placed proto := by rw [h1]; simp
      have hxr := after_exit h1 hx (by omega)
      rw [hw.exited l' y r' h1 (hno fun z hz => agrees_exit hdec hα' hz)
        ((agrees_exit hdec hα' hy).mpr ⟨h2, by rw [h3]⟩) x hxr k hxk]
      rw [hwf.exited l' y r' h1 (hno fun z hz => (cut_mark he hz).2)
        ((cut_mark he hy).2.mpr ⟨h2, by rw [h3]⟩) x hxr k hxk]
    · have hno : ∀ {α}, (∀ z ∈ placed proto, (z.exits α = true ↔ z.node = .exit ∧ e = some z.idx)) →
          ∀ z ∈ l, z.exits α = false := by
        intro α ha z hz
        have := idx_lt hl hz
        rw [← Bool.not_eq_true, ha z (by rw [hl]; simp [hz])]
        rintro ⟨-, h⟩
        exact hgt ⟨_, h, this⟩
      have n1 := hno fun z hz => agrees_exit hdec hα' hz
      have n2 := hno fun z hz => (cut_mark he hz).2
      have o1 := hw.nodes l x r hl n1
      have o2 := hwf.nodes l x r hl n2
      rw [inRegionAfter_false (agrees_marks hdec hα' hw l _ hl n1)] at o1
      rw [inRegionAfter_false fun y hy => (cut_mark he (by rw [hl]; simp [hy])).1] at o2
      have a1 := agrees_start hdec hα' hx
      have a2 := agrees_start hdec (cut_agrees hs hdec) hx
      have hex : x.node = .exit → k ∈ [k] → α' ⟨x.idx, .exit⟩ = cutAt e ⟨x.idx, .exit⟩ := by
        intro hn _
        have hj : x.idx ∈ exitsOf (placed proto) := mem_exitsOf.mpr ⟨_, hx, hn, rfl⟩
        have h1 := hdec.made ⟨x.idx, .exit⟩
        simp only [if_pos hj] at h1
        rw [hα' _ _ h1, cut_agrees hs hdec _ _ h1]
      obtain ⟨j, p, n⟩ := x
      cases n with
      | deco t => simp [Placed.key] at hxk
      | tok t m => simp only [Placed.key, Option.some.injEq] at hxk; subst hxk; simp [Placed.Ok] at o1 o2; rw [o1, o2]
      | group t m => simp only [Placed.key, Option.some.injEq] at hxk; subst hxk; simp [Placed.Ok] at o1 o2; rw [o1, o2]
      | rstart => simp only [Placed.key, Option.some.injEq] at hxk; subst hxk; rw [a1 rfl, a2 rfl]
      | rend => simp only [Placed.key, Option.some.injEq] at hxk; subst hxk; simp [Placed.Ok] at o1 o2; rw [o1, o2]
      | exit => simp only [Placed.key, Option.some.injEq] at hxk; subst hxk; exact hex rfl (by simp)
  · intro asg marker hasg
    rw [(C43_accepted proto d hd asg (cutAt e) marker ((C42_accepts proto d hd _).mpr hwf) hasg).1]
    congr 1
    have hann : ∀ (r l : List (Placed M)), (∀ x ∈ l ++ r, x ∈ placed proto) →
        annotated (cutAt e) marker l r = (r.filterMap Placed.text).map fun t => ⟨t, false⟩ := by
      intro r
      induction r with
      | nil => intro l _; rfl
      | cons x r ih =>
        intro l hl
        rw [annotated, ih (l ++ [x]) (by simpa using hl)]
        unfold shown
        rw [inRegionAfter_false fun y hy => (cut_mark he (hl y (by simp [hy]))).1,
          (cut_mark he (hl x (by simp))).1]
        cases hx : x.text with
        | none => simp [hx]
        | some t => simp [hx]
    have hk : kept (cutAt e) proto = (placed proto).filter fun x => decide (∀ i ∈ e, x.idx < i) := by
      unfold kept
      cases e with
      | none =>
        rw [List.filter_eq_self.mpr (by simp)]
        apply takeWhile_all
        intro x hx
        rw [Bool.not_eq_true', ← Bool.not_eq_true, (cut_mark he hx).2]
        simp
      | some i =>
        obtain ⟨l, y, r, h1, h2, h3⟩ := exit_split he rfl
        have hm : ∀ z ∈ l ++ y :: r, z ∈ placed proto := fun z hz => by rw [h1]; exact hz
        rw [h1, List.takeWhile_append_of_pos, List.takeWhile_cons_of_neg, List.append_nil, List.filter_append,
          List.filter_eq_self.mpr, List.filter_eq_nil_iff.mpr, List.append_nil]
        · intro z hz
          rcases List.mem_cons.mp hz with rfl | hz
          · simp; omega
          · have := idx_gt h1 hz
            simp; omega
        · intro z hz
          have := idx_lt h1 hz
          simp; omega
        · rw [Bool.not_eq_true', Bool.not_eq_false, (cut_mark he (hm y (by simp))).2]
          exact ⟨h2, by rw [h3]⟩
        · intro z hz
          have := idx_lt h1 hz
          rw [Bool.not_eq_true', ← Bool.not_eq_true, (cut_mark he (hm z (by simp [hz]))).2, Option.some.injEq]
          omega
    rw [hann _ [] (by
      intro x hx
      rw [hk, List.nil_append] at hx
      exact (List.mem_filter.mp hx).1), hk]
  · have hlook : ∀ kv ∈ dec, dec.lookup kv.1 = some kv.2 := fun kv hkv => lookup_of_mem hdec.once hkv
    refine ⟨hdec.once, fun kv hkv => ?_, fun kv hkv => (cut_agrees hs hdec _ _ (hlook kv hkv)).symm, ?_⟩
    · have h1 := hlook kv hkv
      rw [hdec.made] at h1
      obtain ⟨⟨j, c⟩, v⟩ := kv
      cases c with
      | exit =>
        simp only at h1
        split at h1
        · rename_i hj
          obtain ⟨x, hx, g1, g2⟩ := mem_exitsOf.mp hj
          exact mem_seqKeys_of_placed hx (by simp [Placed.key, g1, ← g2])
        · cases h1
      | start =>
        simp only at h1
        split at h1
        · rename_i hj
          obtain ⟨x, hx, g1, g2⟩ := mem_startsOf.mp hj
          exact mem_seqKeys_of_placed hx (by simp [Placed.key, g1, ← g2])
        · cases h1
      | _ => simp at h1
    · intro k hk hc
      obtain ⟨x, hx, hxk⟩ := placed_key_of_mem hk
      have hsome : ∃ v, dec.lookup k = some v := by
        rw [hdec.made]
        have := hend x hx
        obtain ⟨j, p, n⟩ := x
        cases n with
        | exit =>
          simp only [Placed.key, Option.some.injEq] at hxk
          subst hxk
          simp only [if_pos (mem_exitsOf.mpr ⟨_, hx, rfl, rfl⟩)]
          exact ⟨_, rfl⟩
        | rstart =>
          simp only [Placed.key, Option.some.injEq] at hxk
          subst hxk
          simp only [if_pos (mem_startsOf.mpr ⟨_, hx, rfl, rfl⟩)]
          exact ⟨_, rfl⟩
        | rend => exact absurd rfl this
        | deco t => simp [Placed.key] at hxk
        | tok t m => simp only [Placed.key, Option.some.injEq] at hxk; subst hxk; exact absurd rfl hc
        | group t m => simp only [Placed.key, Option.some.injEq] at hxk; subst hxk; exact absurd rfl hc
      obtain ⟨v, hv⟩ := hsome
      exact ⟨v, lookup_mem_codec hv⟩

/-- **C52.** If a region can start after the early exit, no assignment accepted by the constraint DAG
agrees with the decisions. -/
theorem C52_late_start {d : Dag ConstraintState DecisionKey DecisionValue Bool}
    (hd : constructConstraintDag proto = .ok d) {i j : Nat} (hi : i ∈ exitsOf (placed proto))
    (hdec : ExitsAt proto (some i) dec) (hj : j ∈ startsOf (placed proto)) (hij : i < j) :
    ¬ ∃ α, Accepts d (seqKeys 0 proto) α ∧ AgreesWith dec α := by
  rintro ⟨α, hacc, hα⟩
  have hw := (C42_accepts proto d hd _).mp hacc
  obtain ⟨l, y, r, h1, h2, h3⟩ := exit_split (e := some i) (by rintro _ ⟨⟩; exact hi) rfl
  obtain ⟨x, hx, g1, g2⟩ := mem_startsOf.mp hj
  have hxr := after_exit h1 hx (by omega)
  have := hw.exited l y r h1 (by
    intro z hz
    have := idx_lt h1 hz
    rw [← Bool.not_eq_true, agrees_exit hdec hα (by rw [h1]; simp [hz]), Option.some.injEq]
    omega) ((agrees_exit hdec hα (by rw [h1]; simp)).mpr ⟨h2, by rw [h3]⟩) x hxr ⟨x.idx, .start⟩ (by
      unfold Placed.key
      rw [g1])
  rw [agrees_start hdec hα hx g1] at this
  cases this

end

/-! ### Examples -/

/-- `foo`, an exit, `\n`, an exit, `bar`, an exit, `\n`. -/
def baselineProto : List (Node Unit) :=
  [.tok ['f', 'o', 'o'] (), .exit, .deco ['\n'], .exit, .group [.tok ['b', 'a', 'r'] (), .exit] (), .deco ['\n']]

/-- Log probabilities for it. -/
def baselineTokens : List (Text × LogProb) :=
  [(['f', 'o'], ((-1 : ℚ) : LogProb)), (['o', '\n', 'b'], ((-2 : ℚ) : LogProb)), (['a', 'r', '\n', 'x'], ((-8 : ℚ) : LogProb))]

/-- Whether the early exit is taken (1), not taken (0) or not applicable (2). -/
def exitDecisions (r : Except BaselineError Decisions) : Option (List (Nat × Nat)) :=
  r.toOption.map fun d => d.map fun x => (x.1.index, match x.2 with
    | .no => 0
    | .yes => 1
    | .na => 2)

example : exitsOf (placed baselineProto) = [1, 3, 6] := rfl
example : exitDecisions (baselineCharacters (pack baselineProto) 4) = some [(1, 0), (3, 0), (6, 1)] := rfl
example : exitDecisions (baselineCharacters (pack baselineProto) 3) = some [(1, 1), (3, 2), (6, 2)] := rfl
example : exitDecisions (baselineCharacters (pack baselineProto) 7) = some [(1, 0), (3, 0), (6, 0)] := rfl
example : exitDecisions (baselineLines (pack baselineProto) 1) = some [(1, 0), (3, 1), (6, 2)] := rfl
example : assignmentFromExitPoint (pack baselineProto) (some 2) = .error .value := rfl
example : ∃ a, alignTokenLogProbs baselineTokens (pack baselineProto) false = some a := ⟨_, rfl⟩
example : Spec.text baselineProto <+: tokensText baselineTokens := ⟨['x'], rfl⟩
example : startsOf (placed baselineProto) = [] := rfl
/-- A region can start after the early exit. -/
example : exitsOf (placed [Node.tok ['a'] (), .exit, .rstart, .rend]) = [1]
    ∧ startsOf (placed [Node.tok ['a'] (), .exit, .rstart, .rend]) = [2] := ⟨rfl, rfl⟩

end RUSure.Props
