import Verif.Lemmas.Docstrings
import Verif.Props.Truncation

/-!
# C66: finding docstrings and truncating them
-/

namespace RUSure.Props
open RUSure RUSure.Spec RUSure.Lemmas

variable {digit : Char → Bool}

/-- **C66.** Looking for docstrings succeeds for all Python code that is not empty. With the inferred
number of spaces per indent, exactly those places are returned that are after triple quotes with which
a part of the code begins that directly follows, on the same level of the tree, a part that begins like
the definition of a function, where the quotes are one indent deeper. -/
theorem C66_docstrings (hd : DigitSane digit) {cc : CharClass} (hcc : DocstringChars cc) {code : Text} (hc : code ≠ []) :
    ∃ width r l, inferSpacesPerIndent cc digit code [1, 2, 3, 4] = .ok width
      ∧ parseAndMaybePreprocess cc digit .python code width = .ok r
      ∧ findDocstrings cc digit code = .ok l
      ∧ ∀ p, p ∈ l ↔ ∃ a b n m, Adjacent r.root a b ∧ FunctionText n (a.text r.raw) ∧ DocText m (b.text r.raw)
        ∧ m / width = n / width + 1 ∧ p = startOf r.raw b.lo + (m + 3) := by
  obtain ⟨r0, width, -, h1, h2, -⟩ := C21_default hd cc hc
  obtain ⟨r, toks, all, h3, -⟩ := C58_python hd cc hc (spaces := width) h2
  obtain ⟨l, h4, h5⟩ := docstrings_below hcc (width := width) h2 (raw := r.raw) r.root
  refine ⟨width, r, l, h1, h3, ?_, fun p => ?_⟩
  · unfold findDocstrings
    rw [h1]
    dsimp only [bind, Except.bind]
    rw [h3]
    exact h4
  · rw [h5 p]
    constructor
    · rintro ⟨a, b, h6, n, m, h7⟩
      exact ⟨a, b, n, m, h6, h7⟩
    · rintro ⟨a, b, n, m, h6, h7⟩
      exact ⟨a, b, h6, n, m, h7⟩

/-- **C66.** In the code itself: before each place that is returned there are triple quotes, before
these only spaces, one indent more than before the definition of a function that is further in front. -/
theorem C66_in_code (hd : DigitSane digit) {cc : CharClass} (hcc : DocstringChars cc) {code : Text} {l : List Nat}
    (h : findDocstrings cc digit code = .ok l) {p : Nat} (hp : p ∈ l) :
    ∃ width before s rest s' q after, inferSpacesPerIndent cc digit code [1, 2, 3, 4] = .ok width
      ∧ code = before ++ s ++ ['d', 'e', 'f', ' '] ++ rest ++ s' ++ q ++ after
      ∧ Spaces s ∧ Spaces s' ∧ TripleQuotes q ∧ s'.length / width = s.length / width + 1
      ∧ p = (before ++ s ++ ['d', 'e', 'f', ' '] ++ rest ++ s' ++ q).length := by
  have hc : code ≠ [] := by
    rintro rfl
    have : findDocstrings cc digit [] = .error .index := rfl
    rw [this] at h
    cases h
  obtain ⟨width, r, l', h1, h2, h3, h4⟩ := C66_docstrings hd hcc hc
  rw [h3] at h
  cases h
  obtain ⟨a, b, n, m, h5, ⟨s, rest, k1, rfl, k2⟩, ⟨s', q, rest', k3, rfl, k4, k5⟩, h6, rfl⟩ := (h4 p).mp hp
  have hw : 0 < width := by
    obtain ⟨-, w, -, e, h, -⟩ := C21_default hd cc hc
    rw [h1] at e
    cases e
    exact h
  have htree := (C58_python_tree hd hc hw h2).2.1
  obtain ⟨before, after, e1, e2⟩ := adjacent_text (raw := r.raw) htree.range h5
  have hraw := (python_scan hd hc hw h2).1
  rw [hraw] at e1
  refine ⟨width, before, s, rest, s', q, rest' ++ after, h1, ?_, k1, k3, k4, h6, ?_⟩
  · rw [e1, k2, k5]
    simp
  · rw [e2, k2]
    have : q.length = 3 := by rcases k4 with rfl | rfl <;> rfl
    simp
    omega

theorem cutAt_bound {code before after : Text} {cursor : Int} (h : CutAt code cursor before after) :
    sliceBound code.length cursor = before.length := by
  obtain ⟨rfl, h⟩ := h
  unfold sliceBound
  simp only [List.length_append, Int.natCast_add] at h ⊢
  rcases h with h | ⟨h1, h2⟩ | ⟨h1, rfl⟩ | ⟨h1, rfl⟩
  · rw [if_neg (by omega)]
    omega
  · rw [if_pos h1]
    omega
  · rw [if_neg (by omega)]
    simp at h1 ⊢
    omega
  · rw [if_pos (by omega)]
    simp at h1 ⊢
    omega

/-- Every cursor cuts every text. -/
theorem cutAt_exists (code : Text) (cursor : Int) :
    CutAt code cursor (code.take (sliceBound code.length cursor)) (code.drop (sliceBound code.length cursor)) := by
  refine ⟨(List.take_append_drop _ _).symm, ?_⟩
  unfold sliceBound
  split
  · by_cases h : cursor < -(code.length : Int)
    · exact .inr (.inr (.inr ⟨h, by rw [List.take_eq_nil_iff]; left; omega⟩))
    · exact .inr (.inl ⟨by assumption, by rw [List.length_drop]; omega⟩)
  · by_cases h : (code.length : Int) < cursor
    · exact .inr (.inr (.inl ⟨h, by rw [List.drop_eq_nil_iff]; omega⟩))
    · exact .inl (by rw [List.length_take]; omega)

/-- **C66.** Truncating a docstring: from a cursor after triple quotes to the end of the next ones of the
same kind, or `None` if there are none. For a negative cursor the result is relative to the end of the code, too. -/
theorem C66_truncate {code before q after : Text} (hq : TripleQuotes q) {cursor : Int}
    (hc : CutAt code cursor (before ++ q) after) :
    ∃ o, inferTruncationPydocstring code cursor = .ok o
      ∧ (∀ i, o = some i ↔ ∃ k, FirstIn q after k ∧ i = cursor + k + 3)
      ∧ (o = none ↔ ∀ mid rest, after ≠ mid ++ q ++ rest) := by
  have hlen : q.length = 3 := by rcases hq with rfl | rfl <;> rfl
  have hne : q ≠ [] := by
    rintro rfl
    cases hlen
  obtain ⟨f1, f2⟩ := find_iff q hne after
  unfold inferTruncationPydocstring
  dsimp only
  rw [cutAt_bound hc]
  obtain ⟨rfl, -⟩ := hc
  have ht : (before ++ q ++ after).take (before ++ q).length = before ++ q := List.take_left
  have hd : (before ++ q ++ after).drop (before ++ q).length = after := List.drop_left
  have hquo : (before ++ q).drop ((before ++ q).length - 3) = q := by
    rw [List.length_append, hlen, Nat.add_sub_cancel]
    exact List.drop_left
  rw [ht, hd, hquo, if_pos (show _ ∨ _ from hq)]
  cases hf : findText q after with
  | none =>
    refine ⟨none, rfl, fun i => ?_, ?_⟩
    · simp only [reduceCtorEq, false_iff]
      rintro ⟨k, hk, -⟩
      have := (f1 k).mpr hk
      rw [hf] at this
      cases this
    · rw [← f2, hf]
      simp
  | some k =>
    refine ⟨_, rfl, fun i => ?_, ?_⟩
    · rw [hlen]
      constructor
      · intro h
        cases h
        exact ⟨k, (f1 k).mp hf, rfl⟩
      · rintro ⟨k', hk', rfl⟩
        have := (f1 k').mpr hk'
        rw [hf] at this
        cases this
        rfl
    · rw [← f2, hf]
      simp

/-- **C66.** A cursor that is not after triple quotes fails an assertion. -/
theorem C66_not_after_quotes {code : Text} {cursor : Int}
    (h : ∀ before q after, TripleQuotes q → ¬ CutAt code cursor (before ++ q) after) :
    inferTruncationPydocstring code cursor = .error .assertion := by
  unfold inferTruncationPydocstring
  dsimp only
  rw [if_neg]
  intro hq
  have := cutAt_exists code cursor
  rw [← List.take_append_drop ((code.take (sliceBound code.length cursor)).length - 3)
    (code.take (sliceBound code.length cursor))] at this
  exact h _ _ _ hq this

/-- **C66** (disagreement). A negative cursor is accepted, but the result is relative to the end of the code: here the
docstring ends with the code, and the result is zero, which truncates everything. -/
theorem C66_negative : inferTruncationPydocstring ['\'', '\'', '\'', 'A', '\'', '\'', '\''] (-4) = .ok (some 0)
    ∧ inferTruncationPydocstring ['\'', '\'', '\'', 'A', '\'', '\'', '\''] 3 = .ok (some 7) := by
  decide +kernel

/-- **C66.** Places that are found can be given to the truncation of docstrings. -/
theorem C66_usable (hd : DigitSane digit) {cc : CharClass} (hcc : DocstringChars cc) {code : Text} {l : List Nat}
    (h : findDocstrings cc digit code = .ok l) {p : Nat} (hp : p ∈ l) :
    ∃ o, inferTruncationPydocstring code p = .ok o ∧ ∀ i, o = some i → (p : Int) + 3 ≤ i ∧ i ≤ code.length := by
  obtain ⟨width, before, s, rest, s', q, after, -, h1, -, -, h2, -, h3⟩ := C66_in_code hd hcc h hp
  obtain ⟨o, k1, k2, -⟩ := C66_truncate (code := code) (cursor := p)
    (before := before ++ s ++ ['d', 'e', 'f', ' '] ++ rest ++ s') (after := after) h2
    ⟨h1, .inl (by rw [h3])⟩
  refine ⟨o, k1, fun i hi => ?_⟩
  obtain ⟨k, ⟨⟨mid, r, e, e'⟩, -⟩, rfl⟩ := (k2 i).mp hi
  have hlen : q.length = 3 := by rcases h2 with rfl | rfl <;> rfl
  have hcl : code.length = p + after.length := by
    rw [h1, h3, List.length_append]
  have := congrArg List.length e
  simp only [List.length_append] at this
  omega

/-- **C66** (disagreement). Empty code raises, although there are no docstrings in it. -/
theorem C66_empty (cc : CharClass) (digit : Char → Bool) : findDocstrings cc digit [] = .error .index := rfl

theorem ascii_docstringChars : DocstringChars asciiClass := by
  unfold DocstringChars
  decide

-- A function with a docstring, and the place after its opening quotes.
example : findDocstrings asciiClass asciiDigit
      ['d', 'e', 'f', ' ', 'f', '(', ')', ':', '\n', ' ', ' ', '"', '"', '"', 'A', '"', '"', '"', '\n', ' ', ' ', 'b', '\n']
    = .ok [14] := by
  decide +kernel

-- Truncation after the closing quotes.
example : inferTruncationPydocstring
      ['d', 'e', 'f', ' ', 'f', '(', ')', ':', '\n', ' ', ' ', '"', '"', '"', 'A', '"', '"', '"', '\n', ' ', ' ', 'b', '\n']
      14 = .ok (some 18) := by
  decide +kernel

-- A method, and a docstring that is not closed.
example : findDocstrings asciiClass asciiDigit
      ['c', 'l', 'a', 's', 's', ' ', 'C', ':', '\n', ' ', 'd', 'e', 'f', ' ', 'f', '(', ')', ':', '\n', ' ', ' ',
        '\'', '\'', '\'', 'A', '\n']
    = .ok [24] := by
  decide +kernel

example : inferTruncationPydocstring ['\'', '\'', '\'', 'A', '"', '"', '"'] 3 = .ok none := by decide +kernel

/-- **C66** (disagreement). A docstring of a class, and one on the same line as the definition, are not
found. -/
theorem C66_not_found :
    findDocstrings asciiClass asciiDigit
      ['c', 'l', 'a', 's', 's', ' ', 'C', ':', '\n', ' ', '"', '"', '"', 'A', '"', '"', '"', '\n'] = .ok []
    ∧ findDocstrings asciiClass asciiDigit
      ['d', 'e', 'f', ' ', 'f', '(', ')', ':', ' ', '"', '"', '"', 'A', '"', '"', '"', '\n'] = .ok [] := by
  decide +kernel

end RUSure.Props
