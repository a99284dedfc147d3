import Verif.Lemmas.Codec

/-!
# White space tokens are maximal runs of spaces
-/

namespace RUSure.Lemmas
open RUSure RUSure.Rx RUSure.Spec

theorem repeat_chr_head (p : Char → Bool) (k : Nat) : ∀ (n : Nat) (s : RxState), s.rest.length ≤ n →
    ∃ t l, repeat_ false ((Rx.chr p).run k) n s = t :: l ∧ t.rest = s.rest.dropWhile p
  | 0, s, h => by
    have h0 : s.rest = [] := List.length_eq_zero_iff.mp (Nat.le_zero.mp h)
    exact ⟨s, [], rfl, by rw [h0]; rfl⟩
  | n + 1, s, h => by
    rw [repeat_, if_neg (by simp)]
    cases hr : s.rest with
    | nil =>
      refine ⟨s, [], ?_, by rw [hr]; rfl⟩
      rw [run, hr]
      rfl
    | cons c cs =>
      rw [run, hr]
      dsimp only
      by_cases hp : p c = true
      · rw [if_pos hp]
        obtain ⟨t, l, h1, h2⟩ := repeat_chr_head p k n ⟨some c, cs, s.groups⟩ (by rw [hr] at h; simpa using h)
        refine ⟨t, l ++ [s], ?_, ?_⟩
        · simp only [List.length_cons, Nat.lt_add_one, decide_true, List.filter_cons, if_true, List.filter_nil,
            List.flatMap_cons, List.flatMap_nil, List.append_nil, h1]
          rfl
        · rw [h2, List.dropWhile_cons_of_pos hp]
      · rw [if_neg hp]
        exact ⟨s, [], rfl, by rw [hr, List.dropWhile_cons_of_neg hp]⟩

theorem matchSpec_space : ∀ {spec : LexSpec} {k : Nat} {prev : Option Char} {text rest : Text},
    (∀ r, (TokenType.whiteSpace, r) ∈ spec → r = plus (lit [' '])) →
    matchSpec k spec prev text = some (.whiteSpace, rest) →
    rest = text.dropWhile (· == ' ')
  | [], _, _, _, _, _, h => by rw [matchSpec] at h; cases h
  | (ty, r) :: spec, k, prev, text, rest, hs, h => by
    rw [matchSpec] at h
    split at h
    · rename_i t ht
      cases h
      have hr := hs r (by simp)
      subst hr
      rw [plus, lit, run, run] at ht
      cases text with
      | nil => simp at ht
      | cons c cs =>
        dsimp only at ht
        by_cases hp : (c == ' ') = true
        · rw [if_pos hp, List.flatMap_cons, List.flatMap_nil, List.append_nil, run] at ht
          obtain ⟨u, l, h1, h2⟩ := repeat_chr_head (· == ' ') (k + 1 + (Rx.chr (· == ' ')).caps) cs.length
            ⟨some c, cs, []⟩ (Nat.le_refl _)
          rw [h1, List.find?_cons_of_pos] at ht
          · cases ht
            rw [h2, List.dropWhile_cons_of_pos (p := (· == ' ')) hp]
          · rw [h2]
            have := (List.dropWhile_sublist (l := cs) (· == ' ')).length_le
            simp only [List.length_cons, decide_eq_true_eq]
            omega
        · rw [if_neg hp] at ht
          simp at ht
    · exact matchSpec_space (fun r hr => hs r (by simp [hr])) h

theorem lexLoop_space {spec : LexSpec} (hs : ∀ r, (TokenType.whiteSpace, r) ∈ spec → r = plus (lit [' ']))
    (ht : Total spec) : ∀ (n : Nat) (prev : Option Char) (text : Text), text.length ≤ n →
    ∀ l t r, lexLoop spec n prev text = l ++ (.whiteSpace, t) :: r →
      t.all (· == ' ') = true ∧ (r.map Prod.snd).flatten.head? ≠ some ' '
  | n, prev, [], _, l, t, r, h => by simp [lexLoop] at h
  | 0, _, _ :: _, h, _, _, _, _ => by simp at h
  | n + 1, prev, c :: cs, hn, l, t, r, h => by
    obtain ⟨⟨ty, rest⟩, hm⟩ := matchSpec_total ht 0 prev c cs
    obtain ⟨w, hw, htx⟩ := matchSpec_suffix hm
    dsimp only at htx
    have hl := congrArg List.length htx
    rw [List.length_cons, List.length_append] at hl
    rw [List.length_cons] at hn
    have := List.length_pos_iff.mpr hw
    rw [lexLoop_step hm htx] at h
    cases l with
    | nil =>
      simp only [List.nil_append, List.cons.injEq, Prod.mk.injEq] at h
      obtain ⟨⟨rfl, rfl⟩, rfl⟩ := h
      have hd := matchSpec_space hs hm
      rw [(lexLoop_flatten ht n _ rest (by omega)).1, hd]
      constructor
      · have := List.takeWhile_append_dropWhile (p := (· == ' ')) (l := c :: cs)
        rw [← hd] at this
        rw [htx] at this
        have := List.append_cancel_right this
        rw [← this]
        rw [List.all_eq_true]
        intro x hx
        exact (List.all_eq_true.mp List.all_takeWhile) x hx
      · intro h0
        have := List.head?_dropWhile_not (· == ' ') (c :: cs)
        rw [h0] at this
        simp at this
    | cons x l =>
      simp only [List.cons_append, List.cons.injEq] at h
      exact lexLoop_space hs ht n _ rest (by omega) l t r h.2

theorem python_space (digit : Char → Bool) :
    ∀ r, (TokenType.whiteSpace, r) ∈ Language.pythonPreprocessor.spec digit → r = plus (lit [' ']) := by
  intro r hr
  simpa [Language.spec, basicSpec, pythonStringsAndComments] using hr

/-- In Python code. -/
theorem tokens_space {digit : Char → Bool} (hd : DigitSane digit) (code : Text) {l r : List Text} {t : Text}
    (h : (lex (Language.pythonPreprocessor.spec digit) code).map Prod.snd = l ++ t :: r) (ht : t.head? = some ' ') :
    t.all (· == ' ') = true ∧ r.flatten.head? ≠ some ' ' := by
  obtain ⟨xs, ys, h1, rfl, h2⟩ := List.map_eq_append_iff.mp h
  obtain ⟨y, ys, rfl, rfl, rfl⟩ := List.map_eq_cons_iff.mp h2
  have hy := lex_types hd .pythonPreprocessor code y (by rw [h1]; simp)
  have hty : y.1 = .whiteSpace := by
    rw [hy]
    obtain ⟨ty, t⟩ := y
    cases t with
    | nil => cases ht
    | cons c cs =>
      simp only [List.head?_cons, Option.some.injEq] at ht
      subst ht
      have hn : digit ' ' = false := by rw [hd ' ' (by decide)]; decide
      simp only [typeOf, basicType, hn]
      rw [if_neg (by decide), if_neg (by simp)]
      decide
  refine lexLoop_space (python_space digit) (spec_total digit .pythonPreprocessor) _ none code (Nat.le_refl _) xs y.2 ys ?_
  rw [← hty]
  exact h1

end RUSure.Lemmas
