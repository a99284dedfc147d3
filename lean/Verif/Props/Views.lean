import Verif.Lemmas.Views
import Verif.Props.EditSequence
import Verif.Props.MatchGroups
import Verif.Props.RewrittenReports
import Verif.Props.TokenProbAlign

/-!
# C80: what a notebook shows
-/

namespace RUSure.Props
open RUSure RUSure.Spec RUSure.Lemmas

/-! ## Token probabilities -/

section
variable {R : Type}

/-- C80: rendering tokens with probabilities fails exactly if the exponential of some log probability is out of
range. Otherwise there is one span for each token, in the color of its probability, within one span; and what a
reader sees are the tokens, escaped, with a mark before each newline. No token can add a tag. -/
theorem C80_tokens (percent : R → Option Text) (tokens : List (Text × R))
    (hp : ∀ p c, percent p = some c → '>' ∉ c) :
    (renderTokenProbs percent tokens = none ↔ ∃ x ∈ tokens, percent x.2 = none)
    ∧ ∀ source, renderTokenProbs percent tokens = some source →
      ∃ colors, List.Forall₂ (fun (x : Text × R) c => percent x.2 = some c) tokens colors
        ∧ stripTags false source = tokens.flatMap (fun x => htmlEscape (markNewlines x.1))
        ∧ tagsOf none source
          = "span style=\"white-space: pre; font-family: monospace; font-weight: bold\"".toList
            :: (colors.flatMap fun c => [colorTag c, "/span".toList]) ++ ["/span".toList] := by
  unfold renderTokenProbs
  constructor
  · rw [Option.map_eq_none_iff, tokenSpans_none]
  · intro source hs
    have hall : ∀ x ∈ tokens, ∃ c, percent x.2 = some c ∧ '>' ∉ c := by
      intro x hx
      cases hc : percent x.2 with
      | none =>
        rw [tokenSpans_none.2 ⟨x, hx, hc⟩] at hs
        cases hs
      | some c => exact ⟨c, rfl, hp _ _ hc⟩
    obtain ⟨spans, colors, h1, h2, h3⟩ := tokenSpans_ok tokens hall
    rw [h1, Option.map_some, Option.some.injEq] at hs
    subst hs
    have e1 : "<span style=\"white-space: pre; font-family: monospace; font-weight: bold\">".toList
        = '<' :: ("span style=\"white-space: pre; font-family: monospace; font-weight: bold\"".toList ++ ['>']) := by
      decide +kernel
    have e2 : '>' ∉ "span style=\"white-space: pre; font-family: monospace; font-weight: bold\"".toList := by
      decide +kernel
    have e3 : "</span>".toList = '<' :: ("/span".toList ++ '>' :: []) := by decide +kernel
    refine ⟨colors, h2, ?_, ?_⟩
    · rw [e1, List.append_assoc, List.cons_append, List.append_assoc, List.singleton_append, strip_whole_tag e2, (h3 _).1,
        e3, strip_whole_tag closing_no_gt, stripTags, List.append_nil]
    · rw [e1, List.append_assoc, List.cons_append, List.append_assoc, List.singleton_append, tags_whole_tag e2, (h3 _).2,
        e3, tags_whole_tag closing_no_gt, tagsOf]
      rfl

/-- C80: `show_token_probs` shows the context and then the model tokens, or the tokens and decorations of the
parsed suggestion with their aligned log probabilities. Either way, what is shown after the context spells the
suggestion. Parsing and aligning do not fail, except that Python code must not be empty; so the only other
error is an exponential that is out of range. -/
theorem C80_token_probs [Add R] [Zero R] {cc : CharClass} {digit : Char → Bool} {lang : HelperLanguage}
    (hd : DigitSane digit) (hb : BracketsVisible cc) (percent : R → Option Text)
    (hp : ∀ p c, percent p = some c → '>' ∉ c) (context : Text) (tokens : List (Text × R)) (realign : Bool)
    (hc : realign = true → lang = .parsed .python → context ++ tokensText tokens ≠ []) :
    ∃ shown, shownTokenProbs cc digit lang context tokens realign = .ok shown
      ∧ tokensText shown = tokensText tokens
      ∧ (realign = false → shown = tokens)
      ∧ (realign = true → ∃ nodes proto, parseToNodes cc digit lang false (context ++ tokensText tokens) = .ok nodes
        ∧ proto = truncatePrefix nodes context.length ∧ text proto = tokensText tokens
        ∧ shown = realigned tokens proto)
      ∧ (showTokenProbs cc digit lang percent context tokens realign = .error .overflow
          ↔ ∃ x ∈ shown, percent x.2 = none)
      ∧ ((∀ x ∈ shown, percent x.2 ≠ none) → ∃ source,
        showTokenProbs cc digit lang percent context tokens realign = .ok (.html source)
        ∧ stripTags false source
          = htmlEscape context ++ shown.flatMap fun x => htmlEscape (markNewlines x.1)) := by
  have main : ∃ shown, shownTokenProbs cc digit lang context tokens realign = .ok shown
      ∧ tokensText shown = tokensText tokens
      ∧ (realign = false → shown = tokens)
      ∧ (realign = true → ∃ nodes proto, parseToNodes cc digit lang false (context ++ tokensText tokens) = .ok nodes
        ∧ proto = truncatePrefix nodes context.length ∧ text proto = tokensText tokens
        ∧ shown = realigned tokens proto) := by
    unfold shownTokenProbs
    cases realign with
    | false => exact ⟨tokens, rfl, rfl, fun _ => rfl, fun h => (by cases h)⟩
    | true =>
      obtain ⟨nodes, h1, h2, h3⟩ := parse_any hd hb lang (hc rfl)
      have ht : text (truncatePrefix nodes context.length) = tokensText tokens := by
        rw [(C09_truncate_text nodes context.length).1, h2]
        simp
      obtain ⟨aligned, h4⟩ := (C13_succeeds_iff tokens (truncatePrefix nodes context.length)).1.2
        (by rw [ht])
      obtain ⟨out, h5, h6⟩ := C13_flatten_text tokens _ false aligned h4
      refine ⟨out, ?_, h6.trans ht, fun h => (by cases h), fun _ => ⟨nodes, _, h1, rfl, ht, ?_⟩⟩
      · have h1' : parseToNodes cc digit lang false (context ++ tokens.flatMap Prod.fst) = .ok nodes := h1
        simp only [if_true, h1', h4, h5]
      · obtain ⟨i1, i2⟩ := docNodes_ids (truncatePrefix nodes context.length)
        have hv := (C13_values_general tokens _ false aligned h4).2
        have := flattenLogProbs_list (pack (truncatePrefix nodes context.length)) aligned
          (fun k t => nodeLogProbAt tokens (startOffset (truncatePrefix nodes context.length) k)
            (emptyBefore (truncatePrefix nodes context.length) k) t) _ _ 0 i1
          (fun i id n hi hn => by simpa using i2 i id n hi hn)
          (fun i t mt hi => by simpa using hv i _ hi)
        rw [h5] at this
        cases this
        rfl
  obtain ⟨shown, h1, h2, h3, h4⟩ := main
  obtain ⟨k1, k2⟩ := C80_tokens percent shown hp
  refine ⟨shown, h1, h2, h3, h4, ?_, fun hx => ?_⟩
  · unfold showTokenProbs
    rw [h1, ← k1]
    dsimp only
    cases renderTokenProbs percent shown with
    | none => simp
    | some source => simp
  · cases hr : renderTokenProbs percent shown with
    | none =>
      obtain ⟨x, hx', hn⟩ := k1.1 hr
      exact absurd hn (hx x hx')
    | some source =>
      obtain ⟨colors, -, k3, -⟩ := k2 _ hr
      refine ⟨_, by unfold showTokenProbs; rw [h1]; dsimp only; rw [hr], ?_⟩
      have e1 : "<span style=\"white-space: pre; font-family: monospace;\">".toList
          = '<' :: ("span style=\"white-space: pre; font-family: monospace;\"".toList ++ ['>']) := by
        decide +kernel
      have e2 : '>' ∉ "span style=\"white-space: pre; font-family: monospace;\"".toList := by
        decide +kernel
      have e3 : "</span>".toList = '<' :: ("/span".toList ++ ['>']) := by decide +kernel
      rw [e1, e3, List.append_assoc, List.append_assoc, List.cons_append, List.append_assoc, List.singleton_append,
        strip_whole_tag e2, strip_text (escape_no_lt _), List.cons_append, List.append_assoc, List.singleton_append,
        strip_whole_tag closing_no_gt, k3]

end

/-! ## Suggestions, edits and utilities -/

section
variable {cc : CharClass} {digit : Char → Bool} {lang : HelperLanguage} {context : Text}
  {samples : List Text} {sample : Text} {index : Int} {tol : ℚ}

theorem zip_uniform {A : Type} {l : List A} {i : Nat} {t : A} (h : l[i]? = some t) :
    (l.zip (targetWeights l.length none))[i]? = some (t, 1 / (l.length : ℚ)) := by
  have hi := (List.getElem?_eq_some_iff.1 h).1
  rw [List.getElem?_zip_eq_some]
  exact ⟨h, by unfold targetWeights; simp [hi]⟩

theorem shown_costs {T : Type} {L : T → ℚ → Prop} {ts : List T} {costs : List ℚ} (h : List.Forall₂ L ts costs) :
    List.Forall₂ (fun t c => ∃ q : ℚ, c = (q : Cost) ∧ L t q) ts (costs.map fun c : ℚ => (c : Cost)) := by
  induction h with
  | nil => exact .nil
  | cons h _ ih => exact .cons ⟨_, rfl, h⟩ ih

/-- C80: after combining samples with a wrapper for edit distances, all views work. If there are fewer than two
decisions to make, the message is shown. Otherwise the suggestion is shown after the context; what a reader sees
are the nodes before the early exit, and a mark in each region without text. The edits are shown for every
target, in order: a cheapest edit script for the suggested decisions. And the printed utilities are the negated
costs of these scripts, in order. -/
theorem C80_edits (hd : DigitSane digit) (hb : BracketsVisible cc) (invalid : Cost) (prm : Params)
    (regions exits : Bool) (htol : 0 < tol) (late : Nat → Bool)
    (hp : lang = .parsed .python → ∀ s ∈ samples, context ++ s ≠ [])
    (hi : pyGet samples index = some sample) (textColor borderColor backgroundColor marker style : Text) :
    ∃ n r nodes, (∀ fuel, n ≤ fuel → combine cc digit lang (editWrapper invalid prm regions exits) invalid tol late
        fuel context samples index = .ok r)
      ∧ parseToNodes cc digit lang false (context ++ sample) = .ok nodes
      ∧ ((seqKeys 0 r.prototype).length ≤ 1 →
        showSuggestion (contextPrefix nodes context.length) r textColor borderColor backgroundColor = .ok .message
        ∧ showEdits invalid (contextPrefix nodes context.length) marker style r = .ok .message
        ∧ showUtilities r = none)
      ∧ (2 ≤ (seqKeys 0 r.prototype).length → ∃ sol α, r.solution = some sol
        ∧ Suggests (LeastEditCost prm r.prototype) r.prototype r.targets α sol
        ∧ (∃ sheet body, htmlHeader textColor borderColor backgroundColor
            = sheet ++ "<span class=\"regions_root\">".toList
          ∧ showSuggestion (contextPrefix nodes context.length) r textColor borderColor backgroundColor
            = .ok (.html ("<span style=\"white-space: pre; font-family: monospace; color: #72A0C1;\">".toList
              ++ htmlEscape context ++ "</span>".toList ++ (sheet ++ body) ++ "<br>".toList))
          ∧ stripTags false body
            = (annotated α ['︙'] [] (kept α r.prototype)).flatMap fun t => htmlEscape t.text)
        ∧ (∃ parts : List Text,
          showEdits invalid (contextPrefix nodes context.length) marker style r = .ok (.html parts.flatten)
          ∧ parts.length = samples.length
          ∧ ∀ (i : Nat) t, r.targets[i]? = some t → ∃ d w html, constructEditDag prm r.prototype t = .ok d
            ∧ DagSolution d w
            ∧ CheapestScript prm r.prototype t ((seqKeys 0 r.prototype).map fun k => (k, α k)) (scriptOf w)
            ∧ editSequenceHtml (pack r.prototype) (pack t) w [] marker style = some html
            ∧ parts[i]? = some ("========== Target ".toList ++ (Nat.repr i).toList ++ " ==========<br>".toList
              ++ "<span style=\"white-space: pre; font-family: monospace;\">".toList
              ++ htmlEscape context ++ "</span>".toList ++ html ++ "<br>".toList))
        ∧ ∃ costs, showUtilities r = some costs
          ∧ List.Forall₂ (fun t c => ∃ q : ℚ, c = (q : Cost) ∧ LeastEditCost prm r.prototype α t q)
              r.targets costs) := by
  obtain ⟨n, r, h1, -, h3, h4, -, ⟨nodes, h5, -⟩, h6, h7⟩ := C61_edits hd hb invalid prm regions exits htol late hp hi
  have hmem := pyGet_mem' hi
  obtain ⟨nodes', c1, c2⟩ := C61_context (lang := lang) hd hb fun h => hp h _ hmem
  rw [h5] at c1
  cases c1
  refine ⟨n, r, nodes, h1, h5, fun hk => ?_, fun hk => ?_⟩
  · have := h6 hk
    unfold showSuggestion showEdits showUtilities
    simp only [this, and_self]
  · obtain ⟨sol, α, k1, k2, -⟩ := h7 hk
    have hrec : Records r.prototype α sol.assignments := k2.assignments ▸ C60_all_recorded r.prototype α
    have hne : r.targets ≠ [] := by
      intro h
      have := List.length_pos_of_mem hmem
      rw [← h3, h] at this
      simp at this
    have hB : buildEditSystem invalid prm r.prototype r.targets none = .ok r.system :=
      combine_build (h1 n (le_refl _))
    obtain ⟨sheet, body, s1, s2, s3⟩ := C62_solution k2.wellFormed hrec context textColor borderColor backgroundColor
    obtain ⟨parts, p1, p2, p3⟩ := C62_pairwise (invalid := invalid) hB h4 ⟨fun _ => hne, by simp⟩ k2.wellFormed hrec
      context marker style
    obtain ⟨s, costs, q1, q2, q3⟩ := k2.samples
    refine ⟨sol, α, k1, k2, ⟨sheet, body, s1, ?_, s3⟩, ⟨parts, ?_, ?_, fun i t ht => ?_⟩, _, ?_, shown_costs q2⟩
    · unfold showSuggestion
      simp only [k1, c2, s2]
    · unfold showEdits
      simp only [k1, c2, p1]
    · rw [p2, ← h3, List.length_zip]
      simp [targetWeights]
    · rw [← k2.assignments]
      exact p3 i t _ (zip_uniform ht)
    · unfold showUtilities
      simp only [k1, q1, Option.map_some, q3.unsorted]

/-- C80: the same for the wrapper for calls, where the suggestion is shown without the context. -/
theorem C80_calls (hd : DigitSane digit) (hb : BracketsVisible cc) (builtin : List Text) (invalid : Cost)
    (f : SelUtility CallType) (htol : 0 < tol) (late : Nat → Bool)
    (hp : lang = .parsed .python → ∀ s ∈ samples, context ++ s ≠ [])
    (hi : pyGet samples index = some sample) (textColor borderColor backgroundColor : Text) :
    ∃ n r, (∀ fuel, n ≤ fuel → combine cc digit lang (callWrapper cc builtin invalid f) invalid tol late
        fuel context samples index = .ok r)
      ∧ ((seqKeys 0 r.prototype).length ≤ 1 →
        showCallSuggestion r textColor borderColor backgroundColor = .ok .message
        ∧ showCallEdits invalid r = .ok .message ∧ showUtilities r = none)
      ∧ (2 ≤ (seqKeys 0 r.prototype).length → ∃ sol α, r.solution = some sol
        ∧ Suggests (LeastLookupCost f r.prototype) r.prototype r.targets α sol
        ∧ (∃ sheet body, htmlHeader textColor borderColor backgroundColor
            = sheet ++ "<span class=\"regions_root\">".toList
          ∧ showCallSuggestion r textColor borderColor backgroundColor = .ok (.html (sheet ++ body))
          ∧ stripTags false body
            = (annotated α ['︙'] [] (kept α r.prototype)).flatMap fun t => htmlEscape t.text)
        ∧ (∃ parts : List Text, showCallEdits invalid r = .ok (.html parts.flatten)
          ∧ parts.length = samples.length
          ∧ ∀ (i : Nat) t, r.targets[i]? = some t → ∃ (ss : List SelStep) (lines : List (Bool × List Text)),
            CheapestLookup f r.prototype t ((seqKeys 0 r.prototype).map fun k => (k, α k)) ss
            ∧ parts[i]? = some ("========== Target ".toList ++ (Nat.repr i).toList ++ " ==========<br>".toList
              ++ "<span style=\"white-space: pre; font-family: monospace;\">".toList
              ++ (lines.flatMap fun l : Bool × List Text => (if l.1 then "MATCHED: ".toList else "WRONG: ".toList)
                ++ htmlEscape (joinSpace l.2) ++ "<br>".toList) ++ "</span><br>".toList)
            ∧ ((lines.filter Prod.fst).flatMap Prod.snd = (foundTokens r.prototype ss).map Prod.fst)
            ∧ ((lines.filter fun l => !l.1).flatMap Prod.snd = (lostTokens r.prototype ss).map Prod.fst))
        ∧ ∃ costs, showUtilities r = some costs
          ∧ List.Forall₂ (fun t c => ∃ q : ℚ, c = (q : Cost) ∧ LeastLookupCost f r.prototype α t q)
              r.targets costs) := by
  obtain ⟨n, r, h1, ⟨nodes, -, h2⟩, h3, h6, h7⟩ := C61_calls hd hb builtin invalid f htol late hp hi
  have hmem := pyGet_mem' hi
  have hx : ¬ Occurs r.prototype .exit := by
    obtain ⟨k, fs, -, -, h⟩ := C51_tree cc builtin nodes context.length
    rw [h2, h]
    exact noExit_of_placed (callTree_noExit fs)
  refine ⟨n, r, h1, fun hk => ?_, fun hk => ?_⟩
  · have := h6 hk
    unfold showCallSuggestion showCallEdits showUtilities
    simp only [this, and_self]
  · obtain ⟨sol, α, k1, k2, -⟩ := h7 hk
    have hrec : Records r.prototype α sol.assignments := k2.assignments ▸ C60_all_recorded r.prototype α
    have hlen : r.targets.length = samples.length := h3.length_eq.symm
    have hne : r.targets ≠ [] := by
      intro h
      rw [h] at hlen
      have := List.length_pos_of_mem hmem
      simp at hlen
      omega
    have hB : buildSelectionSystem invalid f r.prototype r.targets none = .ok r.system :=
      combine_build (h1 n (le_refl _))
    obtain ⟨sheet, body, runs, s1, s2, -, -, -, -, s3, -⟩ := C44_html (pack r.prototype)
      (fun k => sol.assignments.lookup k) textColor borderColor backgroundColor _
      (records_extract k2.wellFormed hrec ['︙'])
    obtain ⟨parts, p1, p2, p3⟩ := C63_pairwise (invalid := invalid) hB hx ⟨fun _ => hne, by simp⟩ k2.wellFormed hrec
    obtain ⟨s, costs, q1, q2, q3⟩ := k2.samples
    refine ⟨sol, α, k1, k2, ⟨sheet, body, s2, ?_, s3⟩, ⟨parts, ?_, ?_, fun i t ht => ?_⟩, _, ?_, shown_costs q2⟩
    · unfold showCallSuggestion
      simp only [k1, s1]
    · unfold showCallEdits
      simp only [k1, p1]
    · rw [p2, ← hlen, List.length_zip]
      simp [targetWeights]
    · rw [← k2.assignments]
      obtain ⟨ss, lines, g1, g2, -, g4, g5, -⟩ := p3 i t _ (zip_uniform ht)
      exact ⟨ss, lines, g1, g2, g4, g5⟩
    · unfold showUtilities
      simp only [k1, q1, Option.map_some, q3.unsorted]

/-- C80: the default configuration, which renumbers states, shows the same if no evicted state is requested
again: C79_combine gives the hypotheses. -/
theorem C80_default {M S C C' : Type} (r : CombineResult M S (Option EditInfo) C)
    (r' : CombineResult M Nat (Option EditInfo) C') (h1 : r'.prototype = r.prototype) (h2 : r'.targets = r.targets)
    (h3 : r'.solution = r.solution) (h4 : List.Forall₂ SamePart r.system.utilities r'.system.utilities)
    (invalid : Cost) (contextInfo textColor borderColor backgroundColor marker style : Text) :
    showSuggestion contextInfo r' textColor borderColor backgroundColor
        = showSuggestion contextInfo r textColor borderColor backgroundColor
    ∧ showEdits invalid contextInfo marker style r' = showEdits invalid contextInfo marker style r
    ∧ showUtilities r' = showUtilities r := by
  unfold showSuggestion showEdits showUtilities
  rw [h1, h2, h3]
  refine ⟨rfl, ?_, rfl⟩
  cases r.solution with
  | none => rfl
  | some sol => simp only [pairwiseHtml_same invalid r.prototype r.targets contextInfo h4]

end

/-! ## Examples -/

/-- C80 on the samples of the example of C61: all views work, and edits are shown for both samples. -/
example (late : Nat → Bool) (prm : Params) (invalid : Cost) (sheet : Text) : ∃ n r parts costs,
    (∀ fuel, n ≤ fuel → combine asciiClass asciiDigit .rawSimpleTokens (editWrapper invalid prm true true)
      invalid (1 / 1000) late fuel ['a', ' '] [['b', ' ', 'c'], ['b', ' ', 'd']] 0 = .ok r)
    ∧ showEdits invalid ['a', ' '] ['|'] sheet r = .ok (.html (List.flatten parts)) ∧ parts.length = 2
    ∧ showUtilities r = some costs ∧ costs.length = 2 := by
  obtain ⟨n, r, nodes, h1, h2, -, h3⟩ := C80_edits (lang := .rawSimpleTokens)
    (context := ['a', ' ']) (samples := [['b', ' ', 'c'], ['b', ' ', 'd']]) (index := 0)
    (sample := ['b', ' ', 'c']) (tol := 1 / 1000) asciiDigit_sane ascii_brackets invalid prm true true
    (by norm_num) late (fun h => by cases h) rfl [] [] [] ['|'] sheet
  obtain ⟨n0, r0, g1, g2, g3, -, -, ⟨nodes0, g4, marked, g5, g6⟩, -⟩ := C61_edits (lang := .rawSimpleTokens)
    (context := ['a', ' ']) (samples := [['b', ' ', 'c'], ['b', ' ', 'd']]) (index := 0)
    (sample := ['b', ' ', 'c']) (tol := 1 / 1000) asciiDigit_sane ascii_brackets invalid prm true true
    (by norm_num) late (fun h => by cases h) rfl
  have hr : r = r0 := by
    have e1 := h1 (max n n0) (le_max_left _ _)
    rw [g1 (max n n0) (le_max_right _ _)] at e1
    cases e1; rfl
  subst hr
  have hk : 2 ≤ (seqKeys 0 r.prototype).length := by
    rw [g6, g5]
    cases g4
    decide +kernel
  have hc : contextPrefix nodes 2 = ['a', ' '] := by
    cases h2
    decide +kernel
  obtain ⟨sol, α, -, -, -, ⟨parts, p1, p2, -⟩, costs, q1, q2⟩ := h3 hk
  have hlen : r.targets.length = 2 := by rw [← List.length_map (f := text), g3]; rfl
  refine ⟨n, r, parts, costs, h1, ?_, p2, q1, by rw [← q2.length_eq, hlen]⟩
  have : contextPrefix nodes (List.length ['a', ' ']) = ['a', ' '] := hc
  rw [this] at p1
  exact p1

/-- Two model tokens of `b<` newline, shown with one color each. -/
example : renderTokenProbs (R := Int) (fun p => if p ≤ 0 then some ['5'] else none) [(['b'], -1), (['<', '\n'], 0)]
    = some ("<span style=\"white-space: pre; font-family: monospace; font-weight: bold\">".toList
      ++ "<span style=\"background-color: rgb(100.0%, 5%, 5%)\">b</span>".toList
      ++ "<span style=\"background-color: rgb(100.0%, 5%, 5%)\">&lt;↩\n</span></span>".toList) := by
  decide +kernel

/-- The hypotheses of `C80_token_probs` hold for these tokens, realigned or not. -/
example (realign : Bool) : ∃ source, showTokenProbs asciiClass asciiDigit .rawSimpleTokens
    (fun _ : Int => some ['5']) ['a', ' '] [(['b'], -1), (['<', '\n'], 0)] realign = .ok (.html source)
    ∧ ∃ shown : List (Text × Int), tokensText shown = ['b', '<', '\n'] ∧ stripTags false source
      = htmlEscape ['a', ' '] ++ shown.flatMap fun x => htmlEscape (markNewlines x.1) := by
  obtain ⟨shown, -, h2, -, -, -, h6⟩ := C80_token_probs (lang := .rawSimpleTokens) asciiDigit_sane ascii_brackets
    (fun _ : Int => some ['5']) (fun p c h => by cases h; decide) ['a', ' '] [(['b'], -1), (['<', '\n'], 0)] realign
    (fun _ h => by cases h)
  obtain ⟨source, h7, h8⟩ := h6 fun _ _ h => by cases h
  exact ⟨source, h7, shown, h2, h8⟩

end RUSure.Props
