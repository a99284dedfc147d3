import Verif.Lemmas.Subtokenizer

/-!
# C14: subtokenisation
-/

namespace RUSure.Props
open RUSure RUSure.Spec RUSure.Lemmas

/-- C14: the tokens spell the input. -/
theorem C14_lossless (K : CharClass) (code : Text) : (subtokenize K code).flatten = code := by
  have h := (subInv_fold K code).concat
  simp only [subtokenize]
  split
  · simpa using h
  · rename_i hm
    simp only [ne_eq, Decidable.not_not] at hm
    simpa [hm] using h

/-- C14: no empty token, each token is one class of characters or a capitalised word, whitespace
is isolated except for runs of at most 20 equal blanks or tabs. -/
theorem C14_shape (K : CharClass) (code : Text) :
    ∀ t ∈ subtokenize K code, t ≠ [] ∧ TokenShape K t ∧ (K.Sane → SpaceShape K t) := by
  have h := subInv_fold K code
  intro t ht
  simp only [subtokenize] at ht
  split at ht
  · rename_i hm
    have hchain := h.chain hm
    simp only [List.mem_append, List.mem_singleton] at ht
    rcases ht with ht | rfl
    · refine ⟨?_, h.toks t ht⟩
      obtain ⟨l1, l2, hl⟩ := List.append_of_mem ht
      rw [hl, List.append_assoc, List.isChain_append] at hchain
      have h2 := hchain.2.1
      rintro rfl
      cases l2 with
      | nil =>
        simp only [List.cons_append, List.nil_append, List.isChain_cons_cons] at h2
        obtain ⟨⟨a', x, y, b', hx, -⟩, -⟩ := h2
        simp at hx
      | cons z l2 =>
        simp only [List.cons_append, List.isChain_cons_cons] at h2
        obtain ⟨⟨a', x, y, b', hx, -⟩, -⟩ := h2
        simp at hx
    · exact ⟨hm, memShape_tokenShape h.mem, h.space⟩
  · rename_i hm
    simp only [ne_eq, Decidable.not_not] at hm
    have hi : (code.foldl (subStep K) ⟨[], .initial, [], none⟩).state = .initial := by
      have := h.mem
      rw [hm] at this
      revert this
      cases (code.foldl (subStep K) ⟨[], .initial, [], none⟩).state <;> simp [MemShape]
    simp [h.init hi] at ht

/-- C14: text is split only where the documentation says so. -/
theorem C14_split_points (K : CharClass) (code : Text) :
    List.IsChain (SplitReason K) (subtokenize K code) := by
  have h := subInv_fold K code
  simp only [subtokenize]
  split
  · rename_i hm
    exact h.chain hm
  · rename_i hm
    simp only [ne_eq, Decidable.not_not] at hm
    have hi : (code.foldl (subStep K) ⟨[], .initial, [], none⟩).state = .initial := by
      have := h.mem
      rw [hm] at this
      revert this
      cases (code.foldl (subStep K) ⟨[], .initial, [], none⟩).state <;> simp [MemShape]
    simp [h.init hi]

/-- ASCII-style predicates, for the examples. -/
def asciiClass : CharClass where
  isUpper c := 'A' ≤ c && c ≤ 'Z'
  isLower c := 'a' ≤ c && c ≤ 'z'
  isDigit c := '0' ≤ c && c ≤ '9'
  isSpace c := c = ' ' || c = '\t' || c = '\n'

example : asciiClass.Sane where
  blank := by decide
  tab := by decide
  special := by
    intro c hc
    simp only [asciiClass, Bool.or_eq_true, decide_eq_true_eq] at hc
    rcases hc with (rfl | rfl) | rfl <;> decide

example : subtokenize asciiClass "12345  \n\n678".toList
    = ["12345", "  ", "\n", "\n", "678"].map String.toList := by decide

example : subtokenize asciiClass "HTTPServer(fooBar2)".toList
    = ["HTTP", "Server", "(", "foo", "Bar", "2", ")"].map String.toList := by decide

end RUSure.Props
