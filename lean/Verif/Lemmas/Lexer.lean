import Verif.Lemmas.Regex
import Verif.Spec.Lexer

/-!
# The types of tokens
-/

namespace RUSure.Lemmas
open RUSure RUSure.Rx RUSure.Spec

theorem starts_lit1 (c : Char) : Starts (fun x => decide (x = c)) (lit [c]) := by
  have := starts_chr (· == c)
  intro k prev x cs g
  obtain ⟨h1, h2⟩ := this k prev x cs g
  exact ⟨fun h => h1 (by simpa using h), fun h => h2 (by simpa using h)⟩

theorem starts_oneOf (l : List Char) : Starts (fun x => decide (x ∈ l)) (oneOf l) := by
  have := starts_chr (l.contains ·)
  intro k prev x cs g
  obtain ⟨h1, h2⟩ := this k prev x cs g
  exact ⟨fun h => h1 (by simpa using h), fun h => h2 (by simpa using h)⟩

theorem chr_rest {p : Char → Bool} {k : Nat} {s t : RxState} {c : Char} {cs : Text}
    (hs : s.rest = c :: cs) (h : t ∈ (Rx.chr p).run k s) :
    t.rest = cs ∧ p c = true ∧ t.groups = s.groups ∧ t.prev = some c := by
  rw [run, hs] at h
  dsimp only at h
  split at h
  · rename_i hp
    rw [List.mem_singleton] at h; subst h; exact ⟨rfl, hp, rfl, rfl⟩
  · cases h

theorem chr_some {p : Char → Bool} {k : Nat} {s t : RxState} (h : t ∈ (Rx.chr p).run k s) :
    ∃ c, s.rest = c :: t.rest ∧ p c = true := by
  cases hs : s.rest with
  | nil => rw [run, hs] at h; cases h
  | cons c cs =>
    obtain ⟨h1, h2, -⟩ := chr_rest hs h
    exact ⟨c, by rw [h1], h2⟩

theorem matchSpec_first {p : Char → Bool} {r : Rx} (hr : Starts p r) {k : Nat} {ty ty' : TokenType}
    {spec : LexSpec} {prev : Option Char} {c : Char} {cs rest : Text}
    (h : matchSpec k ((ty, r) :: spec) prev (c :: cs) = some (ty', rest)) :
    (p c = true ∧ ty' = ty ∧ ∃ t ∈ r.run (k + 1) ⟨prev, c :: cs, []⟩, rest = t.rest)
    ∨ (p c = false ∧ matchSpec (k + 1 + r.caps) spec prev (c :: cs) = some (ty', rest)) := by
  obtain ⟨h1, h2⟩ := matchSpec_starts hr k ty spec prev c cs
  by_cases hp : p c = true
  · obtain ⟨t, ht, -, he⟩ := h1 hp
    rw [he] at h
    cases h
    exact .inl ⟨hp, rfl, t, ht, rfl⟩
  · rw [Bool.not_eq_true] at hp
    rw [h2 hp] at h
    exact .inr ⟨hp, h⟩

/-- The basic alternatives, by the first character. -/
theorem matchSpec_basic {digit : Char → Bool} {k : Nat} {prev : Option Char} {c : Char} {cs rest : Text}
    {ty : TokenType} (h : matchSpec k (basicSpec digit) prev (c :: cs) = some (ty, rest)) :
    ty = basicType digit c ∧ (digit c = false → isWord c = false → c ≠ ' ' → rest = cs) := by
  unfold basicSpec at h
  unfold basicType
  rcases matchSpec_first ((starts_plus digit).seq (nullable_opt _)) h with ⟨hp, rfl, t, ht, rfl⟩ | ⟨h0, h⟩
  · rw [if_pos hp]
    exact ⟨rfl, fun hd => by rw [hd] at hp; cases hp⟩
  rw [if_neg (by simp [h0])]
  rcases matchSpec_first (starts_plus isWord) h with ⟨hp, rfl, t, ht, rfl⟩ | ⟨h0, h⟩
  · rw [if_pos hp]
    exact ⟨rfl, fun _ hd => by rw [hd] at hp; cases hp⟩
  rw [if_neg (by simp [h0])]
  rcases matchSpec_first (starts_oneOf _) h with ⟨hp, rfl, t, ht, rfl⟩ | ⟨h0, h⟩
  · rw [if_pos (by simpa using hp)]
    exact ⟨rfl, fun _ _ _ => (chr_rest rfl ht).1⟩
  rw [if_neg (by simpa using h0)]
  rcases matchSpec_first (starts_oneOf _) h with ⟨hp, rfl, t, ht, rfl⟩ | ⟨h0, h⟩
  · rw [if_pos (by simpa using hp)]
    exact ⟨rfl, fun _ _ _ => (chr_rest rfl ht).1⟩
  rw [if_neg (by simpa using h0)]
  rcases matchSpec_first (starts_oneOf _) h with ⟨hp, rfl, t, ht, rfl⟩ | ⟨h0, h⟩
  · rw [if_pos (by simpa using hp)]
    exact ⟨rfl, fun _ _ _ => (chr_rest rfl ht).1⟩
  rw [if_neg (by simpa using h0)]
  rcases matchSpec_first (starts_lit1 _) h with ⟨hp, rfl, t, ht, rfl⟩ | ⟨h0, h⟩
  · rw [if_pos (by simpa using hp)]
    exact ⟨rfl, fun _ _ _ => (chr_rest rfl ht).1⟩
  rw [if_neg (by simpa using h0)]
  rcases matchSpec_first (starts_lit1 _) h with ⟨hp, rfl, t, ht, rfl⟩ | ⟨h0, h⟩
  · rw [if_pos (by simpa using hp)]
    exact ⟨rfl, fun _ _ _ => (chr_rest rfl ht).1⟩
  rw [if_neg (by simpa using h0)]
  rcases matchSpec_first ((starts_lit1 _).seq (nullable_star _ _)) h with ⟨hp, rfl, t, ht, rfl⟩ | ⟨h0, h⟩
  · rw [if_pos (by simpa using hp)]
    exact ⟨rfl, fun _ _ hd => absurd (by simpa using hp) hd⟩
  rw [if_neg (by simpa using h0)]
  rcases matchSpec_first (starts_chr _) h with ⟨hp, rfl, t, ht, rfl⟩ | ⟨h0, h⟩
  · exact ⟨rfl, fun _ _ _ => (chr_rest rfl ht).1⟩
  · cases h0

theorem mem_alt {a b : Rx} {k : Nat} {s t : RxState} :
    t ∈ (Rx.alt a b).run k s ↔ t ∈ a.run k s ∨ t ∈ b.run (k + a.caps) s := by
  rw [run, List.mem_append]

theorem lit_cons (c d : Char) (w : List Char) :
    lit (c :: d :: w) = .seq (.chr (· == c)) (lit (d :: w)) := rfl

/-- A literal. -/
theorem lit_ahead : ∀ (w : List Char), w ≠ [] → ∀ (k : Nat) (s : RxState), ∀ t ∈ (lit w).run k s,
    Ahead s t w ∧ t.groups = s.groups
  | [], h, _, _, _, _ => absurd rfl h
  | [c], _, k, s, t, h => by
    obtain ⟨x, h1, h2⟩ := chr_some h
    obtain ⟨-, -, h3, h4⟩ := chr_rest h1 h
    simp only [beq_iff_eq] at h2
    subst h2
    exact ⟨⟨h1, h4⟩, h3⟩
  | c :: d :: w, _, k, s, t, h => by
    rw [lit_cons, run] at h
    obtain ⟨u, hu, ht⟩ := List.mem_flatMap.mp h
    obtain ⟨x, h1, h2⟩ := chr_some hu
    obtain ⟨-, -, h3, h4⟩ := chr_rest h1 hu
    simp only [beq_iff_eq] at h2
    subst h2
    obtain ⟨h5, h6⟩ := lit_ahead (d :: w) (by simp) _ u t ht
    exact ⟨Ahead.trans (v := [x]) ⟨h1, h4⟩ h5, h6.trans h3⟩

theorem lit_caps : ∀ w : List Char, (lit w).caps = 0
  | [] => rfl
  | [_] => rfl
  | _ :: d :: w => by rw [lit_cons, caps, lit_caps (d :: w)]; rfl

/-- The end of a string has as many characters as its beginning. -/
theorem stringRest_ahead {k : Nat} (hk : 2 ≤ k) {s t : RxState} (h : t ∈ stringRest.run k s) :
    ∃ v w, s.groups.lookup 2 = some w ∧ Ahead s t (v ++ w) := by
  unfold stringRest at h
  rw [run] at h
  obtain ⟨u, hu, ht⟩ := List.mem_flatMap.mp h
  have hg := run_groups _ k s u hu 2 hk
  obtain ⟨v, hv⟩ := run_ahead _ _ _ u hu
  rw [run] at ht
  split at ht
  · cases ht
  · rename_i w hw
    split at ht
    · rename_i hp
      rw [List.mem_singleton] at ht
      subst ht
      obtain ⟨x, hx⟩ := List.isPrefixOf_iff_prefix.mp hp
      refine ⟨v, w, by rw [← hg, hw], hv.trans ⟨by simp [← hx], ?_⟩⟩
      cases w with
      | nil => simp
      | cons c w => simp [List.getLast?_cons]
    · cases ht

/-- In the C-like languages the reference of `STRING` is to a group that is never set. -/
theorem stringRest_unset {k : Nat} (hk : 2 ≤ k) {s : RxState} (hg : s.groups.lookup 2 = none) :
    stringRest.run k s = [] := by
  rw [List.eq_nil_iff_forall_not_mem]
  intro t ht
  obtain ⟨v, w, h, -⟩ := stringRest_ahead hk ht
  rw [hg] at h
  cases h

/-- Python strings. -/
theorem pyString_ahead {prev : Option Char} {text : Text} {t : RxState}
    (h : t ∈ (Rx.seq (.cap (.alt (lit ['"', '"', '"']) (.alt (lit ['\'', '\'', '\''])
      (.alt (lit ['"']) (lit ['\'']))))) stringRest).run 1 ⟨prev, text, []⟩) :
    ∃ q v, (q = ['"', '"', '"'] ∨ q = ['\'', '\'', '\''] ∨ q = ['"'] ∨ q = ['\''])
      ∧ Ahead ⟨prev, text, []⟩ t (q ++ v ++ q) := by
  rw [run] at h
  obtain ⟨u, hu, ht⟩ := List.mem_flatMap.mp h
  rw [run] at hu
  obtain ⟨x, hx, rfl⟩ := List.mem_map.mp hu
  simp only [run, List.mem_append] at hx
  have key : ∀ q : List Char, q ≠ [] → Ahead ⟨prev, text, []⟩ x q →
      ∃ v, Ahead ⟨prev, text, []⟩ t (q ++ v ++ q) := by
    intro q hq hx
    obtain ⟨v, w, h1, h2⟩ := stringRest_ahead (by simp [caps, lit_caps]) ht
    rw [List.lookup_cons] at h1
    simp only [beq_self_eq_true] at h1
    rw [hx.between] at h1
    cases h1
    refine ⟨v, ?_⟩
    rw [List.append_assoc]
    exact Ahead.trans (t := { x with groups := (1 + 1, between ⟨prev, text, []⟩ x) :: x.groups })
      ⟨hx.rest, hx.prev⟩ h2
  rcases hx with hx | hx | hx | hx
  · obtain ⟨v, hv⟩ := key _ (by simp) (lit_ahead _ (by simp) _ _ _ hx).1
    exact ⟨_, v, .inl rfl, hv⟩
  · obtain ⟨v, hv⟩ := key _ (by simp) (lit_ahead _ (by simp) _ _ _ hx).1
    exact ⟨_, v, .inr (.inl rfl), hv⟩
  · obtain ⟨v, hv⟩ := key _ (by simp) (lit_ahead _ (by simp) _ _ _ hx).1
    exact ⟨_, v, .inr (.inr (.inl rfl)), hv⟩
  · obtain ⟨v, hv⟩ := key _ (by simp) (lit_ahead _ (by simp) _ _ _ hx).1
    exact ⟨_, v, .inr (.inr (.inr rfl)), hv⟩

/-! ### Python -/

theorem digit_false {digit : Char → Bool} (hd : DigitSane digit) {c : Char} (h : c.toNat < 128)
    (h' : ('0' ≤ c && c ≤ '9') = false) : digit c = false := by rw [hd c h, h']

theorem type_simple {digit : Char → Bool} {prev : Option Char} {ty : TokenType} {w rest : Text}
    (hw : w ≠ []) (h : matchSpec 0 (Language.simple.spec digit) prev (w ++ rest) = some (ty, rest)) :
    ty = typeOf digit .simple w := by
  cases w with
  | nil => exact absurd rfl hw
  | cons c cs => exact (matchSpec_basic h).1

theorem type_python {digit : Char → Bool} (hd : DigitSane digit) {prev : Option Char} {ty : TokenType}
    {w rest : Text} (hw : w ≠ [])
    (h : matchSpec 0 (Language.pythonPreprocessor.spec digit) prev (w ++ rest) = some (ty, rest)) :
    ty = typeOf digit .pythonPreprocessor w := by
  cases w with
  | nil => exact absurd rfl hw
  | cons c cs =>
  unfold Language.spec pythonStringsAndComments at h
  simp only [List.cons_append, List.nil_append] at h
  rcases matchSpec_cases h with ⟨t, ht, -, he⟩ | ⟨h, -⟩
  · obtain ⟨q, v, hq, ha⟩ := pyString_ahead ht
    cases he
    have hr := ha.rest
    dsimp only at hr
    rw [← List.cons_append] at hr
    have hr := List.append_cancel_right hr
    rcases hq with rfl | rfl | rfl | rfl <;> simp at hr <;> obtain ⟨rfl, rfl⟩ := hr <;> simp [typeOf]
  · have hs : Starts (fun x => decide (x = '#')) (.seq (.cap (lit ['#'])) (.star false (noneOf ['\n']))) :=
      (starts_lit1 _).cap.seq (nullable_star _ _)
    rcases matchSpec_first hs h with ⟨hp, rfl, -⟩ | ⟨h0, h⟩
    · simp only [decide_eq_true_eq] at hp
      subst hp
      simp [typeOf]
    · simp only [decide_eq_false_iff_not] at h0
      obtain ⟨h1, h2⟩ := matchSpec_basic h
      rw [h1, typeOf, if_neg h0, if_neg]
      rintro ⟨hne, rfl | rfl⟩
      · have := h2 (digit_false hd (by decide) (by decide)) (by decide) (by decide)
        exact hne ((List.append_left_eq_self).mp this.symm)
      · have := h2 (digit_false hd (by decide) (by decide)) (by decide) (by decide)
        exact hne ((List.append_left_eq_self).mp this.symm)

/-! ### C-like languages -/

theorem lit_run : ∀ (w : List Char), w ≠ [] → ∀ (k : Nat) (s : RxState) (x : Text), s.rest = w ++ x →
    ∃ t ∈ (lit w).run k s, t.rest = x
  | [], h, _, _, _, _ => absurd rfl h
  | [c], _, k, s, x, h => by
    refine ⟨⟨some c, x, s.groups⟩, ?_, rfl⟩
    simp [lit, run, h]
  | c :: d :: w, _, k, s, x, h => by
    obtain ⟨t, h1, h2⟩ := lit_run (d :: w) (by simp) (k + 0) ⟨some c, (d :: w) ++ x, s.groups⟩ x rfl
    refine ⟨t, ?_, h2⟩
    rw [lit_cons, run]
    refine List.mem_flatMap.mpr ⟨_, ?_, h1⟩
    simp [run, h]

/-- A match that starts with a literal. -/
theorem seq_lit {w : List Char} (hw : w ≠ []) {r : Rx} {k : Nat} {s t : RxState}
    (h : t ∈ (Rx.seq (lit w) r).run k s) : ∃ v, Ahead s t (w ++ v) := by
  rw [run] at h
  obtain ⟨u, hu, ht⟩ := List.mem_flatMap.mp h
  obtain ⟨v, hv⟩ := run_ahead _ _ _ _ ht
  exact ⟨v, (lit_ahead w hw _ _ _ hu).1.trans hv⟩

theorem seq_cap_lit {w : List Char} (hw : w ≠ []) {r : Rx} {k : Nat} {s t : RxState}
    (h : t ∈ (Rx.seq (.cap (lit w)) r).run k s) : ∃ v, Ahead s t (w ++ v) := by
  rw [run] at h
  obtain ⟨u, hu, ht⟩ := List.mem_flatMap.mp h
  obtain ⟨v, hv⟩ := run_ahead _ _ _ _ ht
  rw [run] at hu
  obtain ⟨x, hx, rfl⟩ := List.mem_map.mp hu
  have := (lit_ahead w hw _ _ _ hx).1
  exact ⟨v, Ahead.trans (t := { x with groups := (k + 1, between s x) :: x.groups })
    ⟨this.rest, this.prev⟩ hv⟩

/-- A match that ends with a literal. -/
theorem seq_end_lit {w : List Char} (hw : w ≠ []) {r : Rx} {k : Nat} {s t : RxState}
    (h : t ∈ (Rx.seq r (lit w)).run k s) : ∃ v, Ahead s t (v ++ w) := by
  rw [run] at h
  obtain ⟨u, hu, ht⟩ := List.mem_flatMap.mp h
  obtain ⟨v, hv⟩ := run_ahead _ _ _ _ hu
  exact ⟨v, hv.trans (lit_ahead w hw _ _ _ ht).1⟩

theorem seq_lits {w z : List Char} (hw : w ≠ []) (hz : z ≠ []) {r : Rx} {k : Nat} {s t : RxState}
    (h : t ∈ (Rx.seq (lit w) (.seq r (lit z))).run k s) : ∃ v, Ahead s t (w ++ (v ++ z)) := by
  rw [run] at h
  obtain ⟨u, hu, ht⟩ := List.mem_flatMap.mp h
  obtain ⟨v, hv⟩ := seq_end_lit hz ht
  exact ⟨v, (lit_ahead w hw _ _ _ hu).1.trans hv⟩

theorem typeOf_java (digit : Char → Bool) (c : Char) (cs : Text) : typeOf digit .java (c :: cs)
    = if c = '/' ∧ cs.head? = some '/' then .commentSlashSlash
      else if cs ≠ [] ∧ (c = '/' ∨ c = '"' ∨ c = '\'') then .commentSlashStar
      else basicType digit c := by simp [typeOf]

theorem typeOf_cpp (digit : Char → Bool) (c : Char) (cs : Text) : typeOf digit .cpp (c :: cs)
    = if cs ≠ [] ∧ c = '#' then .cPreprocessor else typeOf digit .java (c :: cs) := by
  rw [typeOf_java]
  by_cases hc : c = '#'
  · subst hc; simp [typeOf]
  · simp [typeOf, hc]

/-- The alternatives that the C-like languages share, after `k` groups. -/
theorem type_c {digit : Char → Bool} (hd : DigitSane digit) {k : Nat} {prev : Option Char} {ty : TokenType}
    {c : Char} {cs rest : Text}
    (h : matchSpec k (cComments ++ cStrings ++ basicSpec digit) prev (c :: cs ++ rest) = some (ty, rest)) :
    ty = typeOf digit .java (c :: cs) ∧ (c = '#' → cs = []) := by
  unfold cComments cStrings at h
  simp only [List.cons_append, List.nil_append] at h
  have cancel : ∀ {t : RxState} {w : Text}, rest = t.rest → Ahead ⟨prev, c :: (cs ++ rest), []⟩ t w →
      c :: cs = w := by
    intro t w he ha
    have hr := ha.rest
    dsimp only at hr
    rw [← List.cons_append, ← he] at hr
    exact List.append_cancel_right hr
  rcases matchSpec_cases h with ⟨t, ht, -, he⟩ | ⟨h, hn1⟩
  · cases he
    obtain ⟨v, ha⟩ := seq_cap_lit (by simp) ht
    have := cancel rfl ha
    simp at this
    obtain ⟨rfl, rfl⟩ := this
    simp [typeOf]
  have hss : ¬ (c = '/' ∧ (cs ++ rest).head? = some '/') := by
    rintro ⟨rfl, hh⟩
    obtain ⟨x, hx⟩ : ∃ x, cs ++ rest = '/' :: x := by
      cases hc : cs ++ rest with
      | nil => rw [hc] at hh; cases hh
      | cons y x => rw [hc] at hh; cases hh; exact ⟨x, rfl⟩
    obtain ⟨t, ht, htr⟩ := lit_run ['/', '/'] (by simp) (k + 1 + 1) ⟨prev, '/' :: (cs ++ rest), []⟩ x
      (by rw [hx]; rfl)
    refine hn1 { t with groups := (k + 1 + 1, between ⟨prev, '/' :: (cs ++ rest), []⟩ t) :: t.groups } ?_ ?_
    · rw [run]
      refine List.mem_flatMap.mpr ⟨_, ?_, nullable_star _ _ _ _⟩
      rw [run]
      exact List.mem_map.mpr ⟨t, ht, rfl⟩
    · simp [htr, hx]; omega
  have hss' : ¬ (c = '/' ∧ cs.head? = some '/') := by
    rintro ⟨h1, h2⟩
    refine hss ⟨h1, ?_⟩
    rw [List.head?_append, h2]
    rfl
  rcases matchSpec_cases h with ⟨t, ht, -, he⟩ | ⟨h, -⟩
  · cases he
    have hstar : ∀ {w : List Char} {x : Text}, c :: cs = w → w = '/' :: '*' :: x ∨ w = '\'' :: x
        ∨ w = '"' :: x → x ≠ [] →
        TokenType.commentSlashStar = typeOf digit .java (c :: cs) ∧ (c = '#' → cs = []) := by
      intro w x hw hx hx'
      rw [typeOf_java, if_neg hss']
      subst hw
      rcases hx with hx | hx | hx <;> cases hx
      · simp
      · simp [hx']
      · simp [hx']
    simp only [mem_alt] at ht
    rcases ht with ht | ht | ht | ht
    · obtain ⟨v, ha⟩ := seq_lit (by simp) ht
      have := cancel rfl ha
      simp at this
      exact absurd ⟨this.1, by rw [this.2]; rfl⟩ hss'
    · obtain ⟨v, ha⟩ := seq_lits (by simp) (by simp) ht
      exact hstar (cancel rfl ha) (.inl rfl) (by simp)
    · obtain ⟨v, ha⟩ := seq_lits (by simp) (by simp) ht
      exact hstar (cancel rfl ha) (.inr (.inl rfl)) (by simp)
    · obtain ⟨v, ha⟩ := seq_lits (by simp) (by simp) ht
      exact hstar (cancel rfl ha) (.inr (.inr rfl)) (by simp)
  rcases matchSpec_cases h with ⟨t, ht, -, he⟩ | ⟨h, -⟩
  · rw [run] at ht
    obtain ⟨u, hu, ht⟩ := List.mem_flatMap.mp ht
    rw [stringRest_unset (by simp [caps]; omega)] at ht
    · cases ht
    · rw [run] at hu
      obtain ⟨x, hx, rfl⟩ := List.mem_map.mp hu
      have := (lit_ahead _ (by simp) _ _ _ hx).2
      rw [List.lookup_cons, this, show (2 == _) = false from beq_eq_false_iff_ne.mpr (by simp [caps])]
      rfl
  · obtain ⟨h1, h2⟩ := matchSpec_basic h
    have single : digit c = false → isWord c = false → c ≠ ' ' → cs = [] := fun a b d =>
      (List.append_left_eq_self).mp (h2 a b d).symm
    refine ⟨?_, ?_⟩
    · rw [h1, typeOf_java, if_neg hss', if_neg]
      rintro ⟨hne, rfl | rfl | rfl⟩
      · exact hne (single (digit_false hd (by decide) (by decide)) (by decide) (by decide))
      · exact hne (single (digit_false hd (by decide) (by decide)) (by decide) (by decide))
      · exact hne (single (digit_false hd (by decide) (by decide)) (by decide) (by decide))
    · rintro rfl
      exact single (digit_false hd (by decide) (by decide)) (by decide) (by decide)

theorem type_java {digit : Char → Bool} (hd : DigitSane digit) {prev : Option Char} {ty : TokenType}
    {w rest : Text} (hw : w ≠ [])
    (h : matchSpec 0 (Language.java.spec digit) prev (w ++ rest) = some (ty, rest)) :
    ty = typeOf digit .java w := by
  cases w with
  | nil => exact absurd rfl hw
  | cons c cs => exact (type_c hd h).1

theorem macro_ahead {k : Nat} {s t : RxState} {r : Rx}
    (h : t ∈ (Rx.seq (.cap (.alt (lit ['#', 'i', 'n', 'c', 'l', 'u', 'd', 'e'])
      (.alt (lit ['#', 'd', 'e', 'f', 'i', 'n', 'e'])
      (.alt (lit ['#', 'u', 'n', 'd', 'e', 'f']) (.alt (lit ['#', 'i', 'f', 'd', 'e', 'f'])
      (.alt (lit ['#', 'i', 'f', 'n', 'd', 'e', 'f']) (.alt (lit ['#', 'l', 'i', 'n', 'e'])
      (.alt (lit ['#', 'i', 'f']) (.alt (lit ['#', 'e', 'n', 'd', 'i', 'f'])
        (lit ['#', 'e', 'r', 'r', 'o', 'r'])))))))))) r).run k s) :
    ∃ x v, Ahead s t ('#' :: x :: v) := by
  rw [run] at h
  obtain ⟨u, hu, ht⟩ := List.mem_flatMap.mp h
  obtain ⟨v, hv⟩ := run_ahead _ _ _ _ ht
  rw [run] at hu
  obtain ⟨y, hy, rfl⟩ := List.mem_map.mp hu
  have key : ∀ (x : Char) (q : List Char), Ahead s y ('#' :: x :: q) →
      ∃ x v, Ahead s t ('#' :: x :: v) := by
    intro x q hq
    exact ⟨x, q ++ v, Ahead.trans (v := '#' :: x :: q)
      (t := { y with groups := (k + 1, between s y) :: y.groups }) ⟨hq.rest, hq.prev⟩ hv⟩
  simp only [run, List.mem_append] at hy
  rcases hy with hy | hy | hy | hy | hy | hy | hy | hy | hy <;>
    exact key _ _ (lit_ahead _ (by simp) _ _ _ hy).1

theorem type_cpp {digit : Char → Bool} (hd : DigitSane digit) {prev : Option Char} {ty : TokenType}
    {w rest : Text} (hw : w ≠ [])
    (h : matchSpec 0 (Language.cpp.spec digit) prev (w ++ rest) = some (ty, rest)) :
    ty = typeOf digit .cpp w := by
  cases w with
  | nil => exact absurd rfl hw
  | cons c cs =>
  rw [typeOf_cpp]
  unfold Language.spec cMacros at h
  simp only [List.cons_append, List.nil_append, List.append_assoc] at h
  rcases matchSpec_cases h with ⟨t, ht, -, he⟩ | ⟨h, -⟩
  · cases he
    obtain ⟨x, v, ha⟩ := macro_ahead ht
    have hr := ha.rest
    dsimp only at hr
    rw [← List.cons_append] at hr
    have hr := List.append_cancel_right hr
    cases hr
    simp
  · rw [← List.append_assoc, ← List.cons_append] at h
    obtain ⟨h1, h2⟩ := type_c hd h
    rw [if_neg]
    · exact h1
    · rintro ⟨hne, rfl⟩
      exact hne (h2 rfl)

/-- The type of a token is a function of its text. -/
theorem match_type {digit : Char → Bool} (hd : DigitSane digit) (lang : Language) {prev : Option Char}
    {ty : TokenType} {w rest : Text} (hw : w ≠ [])
    (h : matchSpec 0 (lang.spec digit) prev (w ++ rest) = some (ty, rest)) :
    ty = typeOf digit lang w := by
  cases lang with
  | pythonPreprocessor => exact type_python hd hw h
  | simple => exact type_simple hw h
  | cpp => exact type_cpp hd hw h
  | java => exact type_java hd hw h
  | javascript =>
    rw [type_java hd hw h]
    cases w with
    | nil => rfl
    | cons c cs => simp [typeOf]

theorem spec_total (digit : Char → Bool) (lang : Language) : Total (lang.spec digit) :=
  ⟨.other, by cases lang <;> simp [Language.spec, basicSpec]⟩

theorem lexLoop_types {digit : Char → Bool} (hd : DigitSane digit) (lang : Language) :
    ∀ (n : Nat) (prev : Option Char) (text : Text), text.length ≤ n →
      ∀ x ∈ lexLoop (lang.spec digit) n prev text, x.1 = typeOf digit lang x.2
  | n, prev, [], _ => by simp [lexLoop]
  | 0, _, _ :: _, h => by simp at h
  | n + 1, prev, c :: cs, h => by
    obtain ⟨⟨ty, rest⟩, hm⟩ := matchSpec_total (spec_total digit lang) 0 prev c cs
    obtain ⟨w, hw, ht⟩ := matchSpec_suffix hm
    dsimp only at ht
    have hl := congrArg List.length ht
    rw [List.length_cons, List.length_append] at hl
    rw [List.length_cons] at h
    have := List.length_pos_iff.mpr hw
    rw [lexLoop_step hm ht, List.forall_mem_cons]
    rw [ht] at hm
    exact ⟨match_type hd lang hw hm, lexLoop_types hd lang n _ rest (by omega)⟩

end RUSure.Lemmas
