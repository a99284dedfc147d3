import Verif.Lemmas.TruncTree
import Verif.Props.ParserTools

/-!
# C65: where a suggestion is truncated
-/

namespace RUSure.Props
open RUSure RUSure.Spec RUSure.Lemmas

variable {digit : Char → Bool}

/-- The unsplittable pairs of Python, without the one that is named twice. -/
abbrev pythonWhole : List (MarkedToken × MarkedToken) := [(.text ['('], .text [')']), (.text ['['], .text [']'])]

theorem direct_scan (hd : DigitSane digit) {lang : Language} {cc : CharClass} {code : Text} {width : Nat}
    {r : ParseResult} (h : parseAndMaybePreprocess cc digit (.direct lang) code width = .ok r) :
    r.raw.flatten = code ∧ r.raw.length = r.tokens.length ∧ r.types.length = r.tokens.length
      ∧ (∀ (m : Nat) (t : Text), t ≠ [] → r.raw[m]? = some t → r.tokens[m]? = some t)
      ∧ ∃ ss ns, (∀ t ∈ lang.params.splitTokens, t ∈ ss) ∧ (lang = .pythonPreprocessor → ss = [])
        ∧ ScanTree bracketPairs lang.params.unsplittablePairs ss r.tokens ns r.root := by
  have hw0 : ∀ t ∈ presetTexts lang, t ∈ learn [] (presetTexts lang) :=
    fun t ht => (learn_mem _ _ _).mpr (.inr ht)
  have he0 : [] ∉ learn [] (presetTexts lang) := by
    rw [learn_mem]
    cases lang <;> decide
  obtain ⟨ws, root0, root, hpre, hnd, hne, hmem, hb, hsp, hpp⟩ := pseudoParse_eq hd lang
    (learn_nodup (presetTexts lang) [] List.nodup_nil) he0 hw0 code
  have hf := lexLoop_flatten (spec_total digit lang) _ none code (Nat.le_refl _)
  have hbal := allTokens_balanced (digit := digit) lang code
  have hrun : parseAndMaybePreprocess cc digit (.direct lang) code width = .ok _ :=
    bind_of_ok (preset_eq hd lang) (bind_of_ok hpp rfl)
  rw [hrun] at h
  have h' := Except.ok.inj h
  subst h'
  have hall : allTokens digit lang code = addedBefore digit lang code ++ tokensOf digit lang code
      ++ addedAfter digit lang code := by rfl
  obtain ⟨ns, hst⟩ := scanTree_split bracketPairs_table hbal hb (by cases lang <;> decide) hsp
  refine ⟨?_, ?_, ?_, ?_, _, ns, ?_, ?_, hst⟩
  · dsimp only
    rw [List.flatten_append, List.flatten_append]
    simp only [List.flatten_replicate_nil, List.nil_append, List.append_nil]
    exact hf.1
  · dsimp only
    rw [hall]
    simp
  · simp
  · dsimp only
    intro m t ht hm
    rw [hall]
    rcases Nat.lt_or_ge m (addedBefore digit lang code).length with h1 | h1
    · rw [List.append_assoc, List.getElem?_append_left (by simpa using h1), List.getElem?_replicate, if_pos h1] at hm
      exact absurd (Option.some.inj hm).symm ht
    · rw [List.append_assoc, List.getElem?_append_right (by simpa using h1), List.length_replicate] at hm
      rw [List.append_assoc, List.getElem?_append_right h1]
      rcases Nat.lt_or_ge (m - (addedBefore digit lang code).length) (tokensOf digit lang code).length with h2 | h2
      · rw [List.getElem?_append_left h2] at hm ⊢
        exact hm
      · rw [List.getElem?_append_right h2, List.getElem?_replicate] at hm
        split at hm
        · exact absurd (Option.some.inj hm).symm ht
        · cases hm
  · intro t ht
    exact List.mem_append_left _ ht
  · rintro rfl
    simp [splittersOf, Language.params]

theorem exposed_iff {T : Type} [DecidableEq T] {pairs un : List (T × T)} {tokens : List T} {ns : List PNode}
    (hT : Table pairs) (hf : Forest pairs none 0 tokens ns) (m : Nat) :
    (∀ q ∈ bracketsAmong ns, Encloses q m → Splits un tokens q) ↔ Exposed pairs un tokens m := by
  constructor
  · intro h lo hi hm h1 h2
    exact h (lo, hi) ((brackets_iff hT hf lo hi).mpr hm) ⟨h1, h2⟩
  · rintro h ⟨lo, hi⟩ hq ⟨h1, h2⟩
    exact h lo hi ((brackets_iff hT hf lo hi).mp hq) h1 h2

/-- **C65.** `infer_match_pair_truncation_index` for languages that are parsed directly, with any choice
of brackets by their texts, or all brackets. -/
theorem C65_brackets (hd : DigitSane digit) {lang : Language} {cc : CharClass} {code : Text} {width : Nat}
    {r : ParseResult} (h : parseAndMaybePreprocess cc digit (.direct lang) code width = .ok r)
    {pair : PairChoice} (hp : ∀ a b, pair ≠ .types a b) {cursor j : Nat} (hj : CursorAt r.raw cursor j) :
    ∃ o, inferMatchPairTruncation r.root r.raw r.types pair cursor = .ok o ∧ ∀ i, o = some i ↔
      ∃ hi, BlockEnd (fun lo hi => BracketsMatch bracketPairs r.tokens lo hi ∧ Chosen r.raw r.types pair lo hi) j hi
        ∧ hi + 1 < r.raw.length ∧ i = startOf r.raw (hi + 2) := by
  obtain ⟨-, h2, h3, -, ss, ns, -, -, h5⟩ := direct_scan hd h
  exact match_result h5 bracketPairs_table h2 h3 (fun q _ a b e => absurd e (hp a b)) hj

/-- **C65.** `infer_split_truncation_index` for languages that are parsed directly, with any of the
splitters of the language. -/
theorem C65_statements (hd : DigitSane digit) {lang : Language} {cc : CharClass} {code : Text} {width : Nat}
    {r : ParseResult} (h : parseAndMaybePreprocess cc digit (.direct lang) code width = .ok r)
    {splitters : List Text} (hs : ∀ t ∈ splitters, t ∈ lang.params.splitTokens) {cursor j : Nat}
    (hj : CursorAt r.raw cursor j) :
    ∃ i, inferSplitTruncation r.root r.raw (some splitters) cursor = .ok i ∧
      ((∃ m, FirstAfter (fun m => (∃ t ∈ splitters, r.raw[m]? = some t)
            ∧ Exposed bracketPairs lang.params.unsplittablePairs r.tokens m) j m ∧ i = startOf r.raw (m + 1))
        ∨ ((∀ m, j < m → ¬ ((∃ t ∈ splitters, r.raw[m]? = some t)
            ∧ Exposed bracketPairs lang.params.unsplittablePairs r.tokens m)) ∧ i = code.length)) := by
  obtain ⟨h1, h2, h3, h4, ss, ns, hss, -, h5⟩ := direct_scan hd h
  obtain ⟨i, hi, hi'⟩ := split_result h5 (tr := splitters) h2 hj
  have key : ∀ m, (EndsAt m r.root ∧ m < r.raw.length ∧ ∃ t ∈ splitters, r.raw[m]? = some t)
      ↔ (∃ t ∈ splitters, r.raw[m]? = some t) ∧ Exposed bracketPairs lang.params.unsplittablePairs r.tokens m := by
    intro m
    have hplain : ∀ t ∈ splitters, t ≠ [] ∧ PlainTok bracketPairs t := by
      intro t ht
      have := hs t ht
      revert this
      cases lang <;> simp [Language.params, PlainTok, bracketPairs] <;> rintro rfl <;> simp
    constructor
    · rintro ⟨a, -, t, b, c⟩
      refine ⟨⟨t, b, c⟩, ?_⟩
      rw [h5.ends m t (h4 m t (hplain t b).1 c) (hss t (hs t b)) (hplain t b).2] at a
      exact (exposed_iff bracketPairs_table h5.forest m).mp a
    · rintro ⟨⟨t, b, c⟩, a⟩
      refine ⟨?_, (List.getElem?_eq_some_iff.mp c).1, t, b, c⟩
      rw [h5.ends m t (h4 m t (hplain t b).1 c) (hss t (hs t b)) (hplain t b).2]
      exact (exposed_iff bracketPairs_table h5.forest m).mpr a
  simp only [key] at hi'
  rw [h1] at hi'
  exact ⟨i, hi, hi'⟩

/-- Combining both searches. -/
theorem truncates {raw : List Text} {block : Nat → Nat → Prop} {stmt : Nat → Prop} {j : Nat} {o : Option Nat}
    (ho : ∀ i, o = some i ↔ ∃ hi, BlockEnd block j hi ∧ hi + 1 < raw.length ∧ i = startOf raw (hi + 2)) :
    (∀ i, o = some i → TruncatesAt raw block stmt j i)
    ∧ (o = none → ∀ i, ((∃ m, FirstAfter stmt j m ∧ i = startOf raw (m + 1))
        ∨ ((∀ m, j < m → ¬ stmt m) ∧ i = raw.flatten.length)) → TruncatesAt raw block stmt j i) := by
  constructor
  · intro i hi
    obtain ⟨hi', h1, h2, rfl⟩ := (ho i).mp hi
    exact .block h1 h2
  · rintro rfl i h
    have hno : ∀ hi, BlockEnd block j hi → raw.length ≤ hi + 1 := by
      intro hi hb
      by_contra hc
      have := (ho _).mpr ⟨hi, hb, by omega, rfl⟩
      cases this
    rcases h with ⟨m, h1, rfl⟩ | ⟨h1, rfl⟩
    · exact .statement hno h1
    · exact .rest hno h1

/-- **C65.** Where code in a language that is parsed directly is truncated: after the token that follows
the innermost braces around what is after the cursor; else after the first semicolon that is neither
within unsplittable brackets nor alone in brackets; else at the end. -/
theorem C65_direct (hd : DigitSane digit) {lang : Language} (hl : lang ≠ .pythonPreprocessor) {cc : CharClass}
    {code : Text} {width : Nat} {r : ParseResult}
    (h : parseAndMaybePreprocess cc digit (.direct lang) code width = .ok r) (spaces : Option Nat) {cursor j : Nat}
    (hj : CursorAt r.raw cursor j) : ∃ i, inferTruncation cc digit code cursor (.direct lang) spaces = .ok i
      ∧ TruncatesAt r.raw
        (fun lo hi => BracketsMatch bracketPairs r.tokens lo hi ∧ (r.raw[lo]? = some ['{'] ∨ r.raw[hi]? = some ['}']))
        (fun m => r.raw[m]? = some [';'] ∧ Exposed bracketPairs lang.params.unsplittablePairs r.tokens m) j i := by
  obtain ⟨o, ho, ho'⟩ := C65_brackets hd h (pair := .texts ['{'] ['}']) (by simp) hj
  obtain ⟨hc, -⟩ := direct_scan hd h
  have hrun : ∀ w, parseAndMaybePreprocess cc digit (.direct lang) code w = .ok r := fun _ => h
  obtain ⟨w, hw⟩ : ∃ w, truncationSpaces cc digit (.direct lang) code spaces = .ok w := by
    cases spaces with
    | none => exact ⟨0, rfl⟩
    | some n => exact ⟨n, rfl⟩
  have ht := truncates (raw := r.raw) (j := j)
    (stmt := fun m => r.raw[m]? = some [';'] ∧ Exposed bracketPairs lang.params.unsplittablePairs r.tokens m) ho'
  have hmatch : inferMatchPairTruncation r.root r.raw r.types (SourceLanguage.direct lang).blockPair cursor = .ok o := ho
  unfold inferTruncation
  rw [hw]
  dsimp only [bind, Except.bind]
  rw [hrun w]
  dsimp only
  rw [hmatch]
  cases o with
  | some i => exact ⟨i, rfl, ht.1 i rfl⟩
  | none =>
    obtain ⟨i, hi, hi'⟩ := C65_statements hd h (splitters := [[';']]) (by
      intro t ht
      rw [List.mem_singleton] at ht
      subst ht
      cases lang <;> simp [Language.params] at hl ⊢) hj
    refine ⟨i, hi, ht.2 rfl i ?_⟩
    simp only [List.mem_singleton, exists_eq_left] at hi'
    rw [hc]
    exact hi'

/-! ### Python -/

theorem python_scan (hd : DigitSane digit) {cc : CharClass} {code : Text} (hc : code ≠ []) {width : Nat}
    (hs : 0 < width) {r : ParseResult} (h : parseAndMaybePreprocess cc digit .python code width = .ok r) :
    r.raw.flatten = code ∧ r.raw.length = (markedTokens r).length ∧ r.types.length = (markedTokens r).length
      ∧ Table markedPairs
      ∧ (∀ (m : Nat) (t : Text), t ≠ [] → r.raw[m]? = some t → (markedTokens r)[m]? = some (.text t))
      ∧ (∀ m : Nat, r.types[m]? = some .pythonIndent ↔ (markedTokens r)[m]? = some .indent)
      ∧ (∀ m : Nat, r.types[m]? = some .pythonDedent ↔ (markedTokens r)[m]? = some .dedent)
      ∧ ∃ ns, ScanTree markedPairs (textPairs Language.pythonPreprocessor.params.unsplittablePairs) [.text ['\n']]
          (markedTokens r) ns r.root := by
  obtain ⟨root0, out, u, v, root, h1, hde, h2, h3, h4, h5, h6, h7, h8⟩ := parsePython_eq hd cc hc hs
  have hstr : ((allTokens digit .pythonPreprocessor (withNewline code)).map MarkedToken.text).map MarkedToken.string
      = allTokens digit .pythonPreprocessor (withNewline code) := by
    rw [List.map_map]
    exact List.map_id _
  have ho : desugar cc root0 (((allTokens digit .pythonPreprocessor (withNewline code)).map
      MarkedToken.text).map MarkedToken.string) ((allTokens digit .pythonPreprocessor (withNewline code)).map .text)
      .indent .dedent (.text ['\n']) width = .ok out := by
    rw [hstr]
    exact h2
  obtain ⟨hT, hb⟩ := C18_balanced hde hs ho
  have her := C18_erase hde hs ho
  have hraw := rawTexts_spec hd code
  have hsp := spread_spec out (rawTexts digit code) (by rw [plain_of_filter her]; exact hraw.2)
  have hrun : parseAndMaybePreprocess cc digit .python code width = .ok _ := h8
  rw [hrun] at h
  have h' := Except.ok.inj h
  subst h'
  rw [markedTokens_eq]
  have hm := matched_of_balanced hT hb h3
  obtain ⟨-, e1, -, -, -, e2⟩ := C17_splitting_keeps hm h5
  obtain ⟨-, e3, -, -, -, e4⟩ := C17_splitting_keeps hm h4
  obtain ⟨ns, hst⟩ := scanTree_split hT hb h3 (by decide) h4
  have htree := treeOf_split hT hb h3 h5 (nested_flat h7 (matched_flat hT hb h3 h4))
  refine ⟨hsp.1.trans hraw.1, ?_, by simp, hT, ?_, ?_, ?_, ns,
    scanTree_nested hst h7 htree (e1.trans e3.symm) (e2.trans e4.symm)⟩
  · exact spread_length _ _
  · intro m t ht hm
    dsimp only at hm
    have hrt := hsp.2
    have hmlt := (List.getElem?_eq_some_iff.mp hm).1
    have hlen := spread_length out (rawTexts digit code)
    have hot : out[m]? = some (out[m]'(by omega)) := List.getElem?_eq_getElem (by omega)
    have := List.forall₂_iff_get.mp hrt
    have h9 := this.2 m hmlt (by simpa using (by omega : m < out.length))
    have h10 : (spreadTexts out (rawTexts digit code))[m] = t := (List.getElem?_eq_some_iff.mp hm).2
    simp only [List.get_eq_getElem, List.getElem_map, h10] at h9
    rw [hot]
    rcases h9 with h9 | h9
    · cases hk : out[m]'(by omega) with
      | text s =>
        rw [hk] at h9
        simp only [MarkedToken.string] at h9
        rw [h9]
      | indent =>
        rw [hk] at h9
        exact absurd h9 ht
      | dedent =>
        rw [hk] at h9
        exact absurd h9 ht
    · exact absurd h9.1 ht
  · intro m
    dsimp only
    rw [List.getElem?_map]
    cases out[m]? with
    | none => simp
    | some x =>
      cases x with
      | text t =>
        have := type_not_marker (digit := digit) t
        simp [MarkedToken.type, this.1]
      | indent => simp [MarkedToken.type]
      | dedent => simp [MarkedToken.type]
  · intro m
    dsimp only
    rw [List.getElem?_map]
    cases out[m]? with
    | none => simp
    | some x =>
      cases x with
      | text t =>
        have := type_not_marker (digit := digit) t
        simp [MarkedToken.type, this.2]
      | indent => simp [MarkedToken.type]
      | dedent => simp [MarkedToken.type]

theorem exposed_python {tokens : List MarkedToken} {m : Nat} :
    Exposed markedPairs (textPairs Language.pythonPreprocessor.params.unsplittablePairs) tokens m
      ↔ Exposed markedPairs pythonWhole tokens m := by
  have : ∀ p, p ∈ textPairs Language.pythonPreprocessor.params.unsplittablePairs ↔ p ∈ pythonWhole := by
    simp [textPairs, Language.params, both]
  simp only [Exposed, this]

/-- The blocks of Python code. -/
theorem python_blocks (hd : DigitSane digit) {cc : CharClass} {code : Text} (hc : code ≠ []) {width : Nat}
    (hs : 0 < width) {r : ParseResult} (h : parseAndMaybePreprocess cc digit .python code width = .ok r)
    {cursor j : Nat} (hj : CursorAt r.raw cursor j) :
    ∃ o, inferMatchPairTruncation r.root r.raw r.types (.types .pythonIndent .pythonDedent) cursor = .ok o
      ∧ ∀ i, o = some i ↔ ∃ hi, BlockEnd (fun lo hi => BracketsMatch markedPairs (markedTokens r) lo hi
          ∧ (markedTokens r)[lo]? = some .indent) j hi ∧ hi + 1 < r.raw.length ∧ i = startOf r.raw (hi + 2) := by
  obtain ⟨h1, h2, h3, hT, h4, h5, h6, ns, h7⟩ := python_scan hd hc hs h
  have := match_result h7 hT (raw := r.raw) (types := r.types) (pair := .types .pythonIndent .pythonDedent) h2 h3
    (by
      intro q hq a b e ha
      simp only [PairChoice.types.injEq] at e
      obtain ⟨rfl, rfl⟩ := e
      rw [h5] at ha
      rw [h6]
      obtain ⟨pre, o, inner, c, post, e1, e2, e3, e4, -⟩ := (brackets_iff hT h7.forest q.1 q.2).mp hq
      have ho : (markedTokens r)[q.1]? = some o := by rw [e1, ← e2]; simp
      have hc : (markedTokens r)[q.2]? = some c := by
        rw [e1, ← e3, ← e2, List.getElem?_append_right (by omega)]
        rw [show pre.length + 1 + inner.length - pre.length = inner.length + 1 by omega, List.getElem?_cons_succ,
          List.getElem?_append_right (Nat.le_refl _)]
        simp
      rw [ha] at ho
      cases ho
      rw [hc]
      simp [markedPairs] at e4
      rw [e4]) hj
  simpa only [Chosen, h5] using this

/-- **C65.** Where Python code is truncated: after the token that follows the innermost indented block
around what is after the cursor; else after the first newline that is neither within parentheses or
square brackets nor alone in brackets; else at the end. The number of spaces per indent is that given,
or the inferred one. -/
theorem C65_python (hd : DigitSane digit) {cc : CharClass} {code : Text} {width : Nat} (hw : 0 < width)
    {spaces : Option Nat}
    (hsp : spaces = some width ∨ spaces = none ∧ inferSpacesPerIndent cc digit code [1, 2, 3, 4] = .ok width)
    {r : ParseResult} (h : parseAndMaybePreprocess cc digit .python code width = .ok r) {cursor j : Nat}
    (hj : CursorAt r.raw cursor j) : ∃ i, inferTruncation cc digit code cursor .python spaces = .ok i
      ∧ TruncatesAt r.raw
        (fun lo hi => BracketsMatch markedPairs (markedTokens r) lo hi ∧ (markedTokens r)[lo]? = some .indent)
        (fun m => r.raw[m]? = some ['\n'] ∧ Exposed markedPairs pythonWhole (markedTokens r) m) j i := by
  have hc : code ≠ [] := by
    rintro rfl
    rw [C58_python_empty] at h
    cases h
  obtain ⟨h1, h2, h3, hT, h4, h5, h6, ns, h7⟩ := python_scan hd hc hw h
  obtain ⟨o, ho, ho'⟩ := python_blocks hd hc hw h hj
  have hwid : truncationSpaces cc digit .python code spaces = .ok width := by
    rcases hsp with rfl | ⟨rfl, hsp⟩
    · rfl
    · unfold truncationSpaces
      rw [if_pos rfl]
      exact hsp
  have ht := truncates (raw := r.raw) (j := j)
    (stmt := fun m => r.raw[m]? = some ['\n'] ∧ Exposed markedPairs pythonWhole (markedTokens r) m) ho'
  have hmatch : inferMatchPairTruncation r.root r.raw r.types SourceLanguage.python.blockPair cursor = .ok o := ho
  unfold inferTruncation
  rw [hwid]
  dsimp only [bind, Except.bind]
  rw [h]
  dsimp only
  rw [hmatch]
  cases o with
  | some i => exact ⟨i, rfl, ht.1 i rfl⟩
  | none =>
    obtain ⟨i, hi, hi'⟩ := split_result h7 (tr := [['\n']]) h2 hj
    refine ⟨i, hi, ht.2 rfl i ?_⟩
    have key : ∀ m, (EndsAt m r.root ∧ m < r.raw.length ∧ ∃ t ∈ [['\n']], r.raw[m]? = some t)
        ↔ r.raw[m]? = some ['\n'] ∧ Exposed markedPairs pythonWhole (markedTokens r) m := by
      intro m
      simp only [List.mem_singleton, exists_eq_left]
      have hends : r.raw[m]? = some ['\n'] → (EndsAt m r.root ↔ Exposed markedPairs pythonWhole (markedTokens r) m) := by
        intro hm
        rw [h7.ends m _ (h4 m _ (by simp) hm) (by simp) (by simp [PlainTok, markedPairs]), exposed_iff hT h7.forest,
          exposed_python]
      constructor
      · rintro ⟨a, -, b⟩
        exact ⟨b, (hends b).mp a⟩
      · rintro ⟨b, a⟩
        exact ⟨(hends b).mpr a, (List.getElem?_eq_some_iff.mp b).1, b⟩
    simp only [key] at hi'
    exact hi'

/-- **C65.** The parser that only prepares Python code knows no statements. -/
theorem C65_preprocessor (hd : DigitSane digit) {cc : CharClass} {code : Text} {width : Nat} {r : ParseResult}
    (h : parseAndMaybePreprocess cc digit (.direct .pythonPreprocessor) code width = .ok r) (spaces : Option Nat)
    {cursor j : Nat} (hj : CursorAt r.raw cursor j) :
    ∃ i, inferTruncation cc digit code cursor (.direct .pythonPreprocessor) spaces = .ok i
      ∧ TruncatesAt r.raw
        (fun lo hi => BracketsMatch bracketPairs r.tokens lo hi ∧ (r.raw[lo]? = some ['{'] ∨ r.raw[hi]? = some ['}']))
        (fun _ => False) j i := by
  obtain ⟨o, ho, ho'⟩ := C65_brackets hd h (pair := .texts ['{'] ['}']) (by simp) hj
  obtain ⟨hc, h2, -, -, ss, ns, -, h3, h4⟩ := direct_scan hd h
  obtain ⟨w, hw⟩ : ∃ w, truncationSpaces cc digit (.direct .pythonPreprocessor) code spaces = .ok w := by
    cases spaces with
    | none => exact ⟨0, rfl⟩
    | some n => exact ⟨n, rfl⟩
  have hrun : ∀ w, parseAndMaybePreprocess cc digit (.direct .pythonPreprocessor) code w = .ok r := fun _ => h
  have ht := truncates (raw := r.raw) (j := j) (stmt := fun _ => False) ho'
  have hmatch : inferMatchPairTruncation r.root r.raw r.types
    (SourceLanguage.direct .pythonPreprocessor).blockPair cursor = .ok o := ho
  unfold inferTruncation
  rw [hw]
  dsimp only [bind, Except.bind]
  rw [hrun w]
  dsimp only
  rw [hmatch]
  cases o with
  | some i => exact ⟨i, rfl, ht.1 i rfl⟩
  | none =>
    obtain ⟨i, hi, hi'⟩ := split_result h4 (tr := [[';']]) h2 hj
    refine ⟨i, hi, ht.2 rfl i ?_⟩
    have := h4.noEnds (h3 rfl)
    rcases hi' with ⟨m, hm, -⟩ | ⟨-, hm⟩
    · exact absurd hm.2.1.1 (this m)
    · exact .inr ⟨fun _ _ => id, hm⟩

/-! ### What holds of all languages -/

theorem truncatesAt_bounds {raw : List Text} {block : Nat → Nat → Prop} {stmt : Nat → Prop} {cursor j i : Nat}
    (hj : CursorAt raw cursor j) (h : TruncatesAt raw block stmt j i) :
    cursor < i ∧ i ≤ raw.flatten.length ∧ ∃ k, i = startOf raw k := by
  have hj2 := hj.2
  cases h with
  | @block hi hb hlt =>
    refine ⟨?_, startOf_le _ _, _, rfl⟩
    obtain ⟨lo, -, hs, -⟩ := hb
    have := startOf_mono raw (show j + 1 ≤ hi + 2 by rcases hs with h | h <;> omega)
    omega
  | @statement m _ hm =>
    refine ⟨?_, startOf_le _ _, _, rfl⟩
    have := startOf_mono raw (show j + 1 ≤ m + 1 by have := hm.1; omega)
    omega
  | rest =>
    refine ⟨?_, Nat.le_refl _, raw.length, (startOf_all raw (Nat.le_refl _)).symm⟩
    have := startOf_le raw (j + 1)
    omega

/-- The width that is used, and the parse. -/
theorem truncation_parse (hd : DigitSane digit) (cc : CharClass) {code : Text} {lang : SourceLanguage}
    {spaces : Option Nat} (hl : lang = .python → code ≠ [] ∧ spaces ≠ some 0) :
    ∃ width r, truncationSpaces cc digit lang code spaces = .ok width
      ∧ parseAndMaybePreprocess cc digit lang code width = .ok r ∧ r.raw.flatten = code
      ∧ (lang = .python → 0 < width ∧ (spaces = some width
          ∨ spaces = none ∧ inferSpacesPerIndent cc digit code [1, 2, 3, 4] = .ok width)) := by
  cases lang with
  | python =>
    obtain ⟨hc, hs⟩ := hl rfl
    obtain ⟨width, h1, h2, h3⟩ : ∃ width, truncationSpaces cc digit .python code spaces = .ok width ∧ 0 < width
        ∧ (spaces = some width ∨ spaces = none ∧ inferSpacesPerIndent cc digit code [1, 2, 3, 4] = .ok width) := by
      cases spaces with
      | some n => exact ⟨n, rfl, Nat.pos_of_ne_zero (by simpa using hs), .inl rfl⟩
      | none =>
        obtain ⟨r, n, -, h1, h2, -⟩ := C21_default hd cc hc
        refine ⟨n, ?_, h2, .inr ⟨rfl, h1⟩⟩
        unfold truncationSpaces
        rw [if_pos rfl]
        exact h1
    obtain ⟨r, toks, all, h4, -, -, -, -, -, -, h5, -⟩ := C58_python hd cc hc h2
    exact ⟨width, r, h1, h4, h5, fun _ => ⟨h2, h3⟩⟩
  | direct l =>
    obtain ⟨r, toks, h1, -⟩ := C58_direct hd l cc code 0
    refine ⟨match spaces with | some n => n | none => 0, r, ?_, h1, (direct_scan hd h1).1, by simp⟩
    cases spaces <;> rfl

/-- **C65.** Truncation never fails for a cursor within the code, and goes forward: the result is after
the cursor, unless this is at the end of the code, and it is not after the end. For Python the code
must not be empty, and a number of spaces that is given must not be zero. -/
theorem C65_forward (hd : DigitSane digit) (cc : CharClass) {code : Text} {lang : SourceLanguage}
    {spaces : Option Nat} (hl : lang = .python → code ≠ [] ∧ spaces ≠ some 0) {cursor : Nat}
    (hc : cursor ≤ code.length) : ∃ i, inferTruncation cc digit code cursor lang spaces = .ok i
      ∧ i ≤ code.length ∧ (cursor < code.length → cursor < i) ∧ (cursor = code.length → i = code.length) := by
  obtain ⟨width, r, h1, h2, h3, h4⟩ := truncation_parse hd cc hl
  rcases Nat.lt_or_ge cursor code.length with hlt | hge
  · obtain ⟨j, hj⟩ := cursor_at r.raw (cursor := cursor) (by rw [h3]; exact hlt)
    have key : ∀ {block stmt} {i : Nat}, inferTruncation cc digit code cursor lang spaces = .ok i →
        TruncatesAt r.raw block stmt j i → ∃ i, inferTruncation cc digit code cursor lang spaces = .ok i
          ∧ i ≤ code.length ∧ (cursor < code.length → cursor < i) ∧ (cursor = code.length → i = code.length) := by
      intro block stmt i hi ht
      obtain ⟨k1, k2, -⟩ := truncatesAt_bounds hj ht
      rw [h3] at k2
      exact ⟨i, hi, k2, fun _ => k1, fun h => by omega⟩
    cases lang with
    | python =>
      obtain ⟨k1, k2⟩ := h4 rfl
      obtain ⟨i, hi, ht⟩ := C65_python hd k1 k2 h2 hj
      exact key hi ht
    | direct l =>
      by_cases hp : l = .pythonPreprocessor
      · subst hp
        obtain ⟨i, hi, ht⟩ := C65_preprocessor hd h2 spaces hj
        exact key hi ht
      · obtain ⟨i, hi, ht⟩ := C65_direct hd hp h2 spaces hj
        exact key hi ht
  · obtain rfl : cursor = code.length := by omega
    refine ⟨code.length, ?_, Nat.le_refl _, fun h => h, fun _ => rfl⟩
    unfold inferTruncation inferMatchPairTruncation
    rw [h1]
    dsimp only [bind, Except.bind]
    rw [h2]
    dsimp only
    rw [h3, if_pos rfl]
    rfl

/-- **C65.** A cursor that is not within the code fails an assertion. -/
theorem C65_bad_cursor (hd : DigitSane digit) (cc : CharClass) {code : Text} {lang : SourceLanguage}
    {spaces : Option Nat} (hl : lang = .python → code ≠ [] ∧ spaces ≠ some 0) {cursor : Int}
    (hc : cursor < 0 ∨ code.length < cursor) :
    inferTruncation cc digit code cursor lang spaces = .error .assertion := by
  obtain ⟨width, r, h1, h2, h3, h4⟩ := truncation_parse hd cc hl
  unfold inferTruncation inferMatchPairTruncation
  rw [h1]
  dsimp only [bind, Except.bind]
  rw [h2]
  dsimp only
  rw [h3, if_neg (by omega), if_neg (by omega)]

/-- **C65** (disagreement). Empty Python code cannot be truncated. -/
theorem C65_python_empty (cc : CharClass) (cursor : Int) (spaces : Option Nat) :
    inferTruncation cc digit [] cursor .python spaces = .error .index := by
  cases spaces <;> rfl

-- Within braces: one token after the closing one is kept.
example : inferTruncation asciiClass asciiDigit ['{', 'a', 'b', ' ', 'c', '}', 'd', ';'] 1 (.direct .cpp) none
    = .ok 7 := by
  decide +kernel

-- At the statement level.
example : inferTruncation asciiClass asciiDigit ['a', ';', 'b', '(', 'c', ')', ';', 'd'] 2 (.direct .java) none
    = .ok 7 := by
  decide +kernel

-- Nothing ends after the cursor.
example : inferTruncation asciiClass asciiDigit ['a', ';', 'b', 'c'] 2 (.direct .simple) none = .ok 4 := by
  decide +kernel

-- Python: the block, and the newline before the line that follows.
example : inferTruncation asciiClass asciiDigit
      ['a', ':', '\n', ' ', 'b', '\n', ' ', 'c', '\n', 'd', '\n', 'e'] 4 .python none = .ok 9 := by
  decide +kernel

-- Python: the line.
example : inferTruncation asciiClass asciiDigit ['a', ' ', 'b', '\n', 'c'] 0 .python (some 2) = .ok 4 := by
  decide +kernel

-- The hypotheses of the theorems are met.
example : ∃ r, parseAndMaybePreprocess asciiClass asciiDigit (.direct .cpp) ['{', 'a', 'b', ' ', 'c', '}', 'd'] 0
      = .ok r ∧ CursorAt r.raw 1 1 ∧ BracketsMatch bracketPairs r.tokens 0 4 ∧ Surrounds 0 4 1 :=
  ⟨⟨.mk 0 (some 6) .root [pairedNode 0 4 [leafNode 1, leafNode 2, leafNode 3], leafNode 5],
    [['{'], ['a', 'b'], [' '], ['c'], ['}'], ['d']], [.brace, .id, .whiteSpace, .id, .brace, .id],
    [['{'], ['a', 'b'], [' '], ['c'], ['}'], ['d']], 0, 0⟩, by decide +kernel, by simp [CursorAt, startOf],
    ⟨[], ['{'], [['a', 'b'], [' '], ['c']], ['}'], [['d']], rfl, rfl, rfl, by decide,
      .plain (by unfold PlainTok; decide) (.plain (by unfold PlainTok; decide) (.plain (by unfold PlainTok; decide)
        (.nil _)))⟩, by unfold Surrounds; decide⟩

/-- **C65** (disagreement). A cursor on the last token within braces is not considered to be within
them. -/
theorem C65_last_token :
    inferTruncation asciiClass asciiDigit ['{', 'a', '}', 'b', ';'] 1 (.direct .cpp) none = .ok 5
    ∧ inferTruncation asciiClass asciiDigit ['{', 'a', '}', 'b', ';'] 0 (.direct .cpp) none = .ok 4 := by
  decide +kernel

/-- **C65** (disagreement). Braces that end the code are not found, and what is in them is truncated at a
semicolon. -/
theorem C65_closing_last :
    inferTruncation asciiClass asciiDigit ['{', 'a', ' ', 'b', ';', 'c', '}'] 1 (.direct .cpp) none = .ok 5
    ∧ inferTruncation asciiClass asciiDigit ['{', 'a', ' ', 'b', ';', 'c', '}', ' '] 1 (.direct .cpp) none
      = .ok 8 := by
  decide +kernel

/-- **C65** (disagreement). A semicolon that is alone in brackets ends no statement. -/
theorem C65_lone_semicolon :
    inferTruncation asciiClass asciiDigit ['a', '(', ';', ')', 'b', ';', 'c'] 0 (.direct .cpp) none = .ok 6 := by
  decide +kernel

/-- **C65** (disagreement). `None` as splitters, which is to mean all splitters, raises once there is a
group that ends after the cursor. -/
theorem C65_all_splitters : ∃ r, parseAndMaybePreprocess asciiClass asciiDigit (.direct .cpp) ['a', ';', 'b', ';'] 0
      = .ok r ∧ inferSplitTruncation r.root r.raw none 0 = .error .type :=
  ⟨⟨.mk 0 (some 4) .root [splitNode [leafNode 0, leafNode 1], splitNode [leafNode 2, leafNode 3]],
    [['a'], [';'], ['b'], [';']], [.id, .punc, .id, .punc], [['a'], [';'], ['b'], [';']], 0, 0⟩,
    by decide +kernel, by decide +kernel⟩

end RUSure.Props
