import Verif.Spec.DebugView
import Mathlib.Tactic.Linarith
import Mathlib.Tactic.IntervalCases

/-!
# Python's `repr` of strings can be read back
-/

namespace RUSure.Debug

/-! ## Hexadecimal numbers -/

theorem hex_length (w n : Nat) : (hex w n).length = w := by
  induction w generalizing n with
  | zero => rfl
  | succ w ih => simp [hex, ih]

theorem digitValue_hexDigit {n : Nat} (h : n < 16) : digitValue (hexDigit n) = n := by
  interval_cases n <;> decide

theorem unhex_hex (w n : Nat) : unhex (hex w n) = n % 16 ^ w := by
  induction w generalizing n with
  | zero => simp [hex, unhex, Nat.mod_one]
  | succ w ih =>
    rw [hex, unhex, List.foldl_append, ← unhex, ih]
    simp only [List.foldl_cons, List.foldl_nil]
    rw [digitValue_hexDigit (Nat.mod_lt _ (by norm_num)), pow_succ, mul_comm (16 ^ w) 16, Nat.mod_mul]
    omega

theorem hexDigit_ne {n : Nat} (h : n < 16) : hexDigit n ≠ '\n' := by
  interval_cases n <;> decide

theorem hex_newline (w n : Nat) : '\n' ∉ hex w n := by
  induction w generalizing n with
  | zero => simp [hex]
  | succ w ih =>
    rw [hex, List.mem_append, List.mem_singleton]
    rintro (h | h)
    · exact ih _ h
    · exact hexDigit_ne (Nat.mod_lt n (by norm_num : 0 < 16)) h.symm

/-! ## Characters -/

theorem decode_plain {c : Char} (h : c ≠ '\\') (r : Text) : decode (c :: r) = some (c, r) := by
  rw [decode.eq_def]
  split
  · rename_i heq
    cases heq
    exact (h rfl).elim
  · rename_i heq
    cases heq
    rfl
  · rename_i heq
    cases heq

theorem decode_hex {w : Nat} {c : Char} (hc : c.toNat < 16 ^ w) (r : Text) :
    (Char.ofNat (unhex ((hex w c.toNat ++ r).take w)), (hex w c.toNat ++ r).drop w) = (c, r) := by
  have h1 : (hex w c.toNat ++ r).take w = hex w c.toNat := by
    rw [List.take_append_of_le_length (hex_length ..).ge, List.take_of_length_le (hex_length ..).le]
  have h2 : (hex w c.toNat ++ r).drop w = r := by
    rw [List.drop_append_of_le_length (hex_length ..).ge, List.drop_of_length_le (hex_length ..).le]
    rfl
  rw [h1, h2, unhex_hex, Nat.mod_eq_of_lt hc, Char.ofNat_toNat]

theorem decode_escape (printable : Char → Bool) {q : Char} (hq : q = '\'' ∨ q = '"') (c : Char) (r : Text) :
    decode (escape printable q c ++ r) = some (c, r) := by
  unfold escape
  split
  · rename_i h
    have : c = '\'' ∨ c = '"' ∨ c = '\\' := by
      rcases h with rfl | rfl
      · exact hq.imp_right .inl
      · exact .inr (.inr rfl)
    rcases this with rfl | rfl | rfl <;> rfl
  · rename_i h0
    have hb : c ≠ '\\' := fun h => h0 (.inr h)
    split
    · rename_i h
      subst h
      rfl
    · split
      · rename_i h
        subst h
        rfl
      · split
        · rename_i h
          subst h
          rfl
        · split
          · exact decode_plain hb r
          · split
            · exact decode_plain hb r
            · split
              · rename_i h
                exact congrArg some (decode_hex (w := 2) h r)
              · split
                · rename_i h
                  exact congrArg some (decode_hex (w := 4) h r)
                · refine congrArg some (decode_hex (w := 8) ?_ r)
                  have h1 : c.val.toNat < UInt32.size := c.val.toBitVec.isLt
                  exact lt_of_lt_of_eq h1 (by norm_num [UInt32.size])

theorem escape_newline (printable : Char → Bool) {q : Char} (hq : q = '\'' ∨ q = '"') (c : Char) :
    '\n' ∉ escape printable q c := by
  unfold escape
  split
  · rename_i h
    have : c = '\'' ∨ c = '"' ∨ c = '\\' := by
      rcases h with rfl | rfl
      · exact hq.imp_right .inl
      · exact .inr (.inr rfl)
    rcases this with rfl | rfl | rfl <;> decide
  · split
    · decide
    · split
      · decide
      · rename_i hn
        split
        · decide
        · split
          · exact fun h => hn (List.mem_singleton.mp h).symm
          · split
            · exact fun h => hn (List.mem_singleton.mp h).symm
            · split
              · simp [hex_newline]
              · split <;> simp [hex_newline]

theorem escape_head (printable : Char → Bool) {q : Char} (c : Char) (r s : Text) :
    escape printable q c ++ r = q :: s → q = '\\' := by
  unfold escape
  intro h
  split at h
  · exact (List.cons.inj h).1.symm
  · rename_i h0
    split at h
    · exact (List.cons.inj h).1.symm
    · split at h
      · exact (List.cons.inj h).1.symm
      · split at h
        · exact (List.cons.inj h).1.symm
        · split at h
          · exact (h0 (.inl (List.cons.inj h).1)).elim
          · split at h
            · exact (h0 (.inl (List.cons.inj h).1)).elim
            · split at h
              · exact (List.cons.inj h).1.symm
              · split at h <;> exact (List.cons.inj h).1.symm

/-! ## Strings -/

theorem quote_cases (t : Text) : quote t = '\'' ∨ quote t = '"' := by
  unfold quote
  split
  · exact .inr rfl
  · exact .inl rfl

theorem escapes_inj (printable : Char → Bool) {q : Char} (hq : q = '\'' ∨ q = '"') (t t' r r' : Text)
    (h : t.flatMap (escape printable q) ++ q :: r = t'.flatMap (escape printable q) ++ q :: r') :
    t = t' ∧ r = r' := by
  have hb : q ≠ '\\' := by
    rcases hq with rfl | rfl <;> decide
  induction t generalizing t' with
  | nil =>
    cases t' with
    | nil => exact ⟨rfl, (List.cons.inj h).2⟩
    | cons c t' =>
      rw [List.flatMap_cons, List.append_assoc, List.flatMap_nil, List.nil_append] at h
      exact (hb (escape_head printable c _ _ h.symm)).elim
  | cons c t ih =>
    cases t' with
    | nil =>
      rw [List.flatMap_cons, List.append_assoc, List.flatMap_nil, List.nil_append] at h
      exact (hb (escape_head printable c _ _ h)).elim
    | cons c' t' =>
      rw [List.flatMap_cons, List.flatMap_cons, List.append_assoc, List.append_assoc] at h
      have h1 := congrArg decode h
      rw [decode_escape printable hq, decode_escape printable hq] at h1
      simp only [Option.some.injEq, Prod.mk.injEq] at h1
      obtain ⟨rfl, h2⟩ := h1
      obtain ⟨rfl, h3⟩ := ih t' h2
      exact ⟨rfl, h3⟩

/-- The `repr` of a string, followed by anything, determines the string. -/
theorem repr_inj (printable : Char → Bool) (t t' r r' : Text)
    (h : pyRepr printable t ++ r = pyRepr printable t' ++ r') : t = t' ∧ r = r' := by
  unfold pyRepr at h
  simp only [List.cons_append, List.append_assoc, List.nil_append, List.cons.injEq] at h
  obtain ⟨h1, h2⟩ := h
  rw [h1] at h2
  exact escapes_inj printable (quote_cases t') t t' r r' h2

theorem repr_newline (printable : Char → Bool) (t : Text) : '\n' ∉ pyRepr printable t := by
  have hq : '\n' ≠ quote t := by
    rcases quote_cases t with h | h <;> rw [h] <;> decide
  unfold pyRepr
  simp only [List.mem_cons, List.mem_append, List.mem_flatMap, List.not_mem_nil, or_false, not_or]
  refine ⟨hq, ?_, hq⟩
  rintro ⟨c, -, h⟩
  exact escape_newline printable (quote_cases t) c h

theorem summarize_newline (printable : Char → Bool) (t : Text) : '\n' ∉ summarize printable t := by
  unfold summarize
  split
  · rw [List.mem_append, not_or]
    exact ⟨repr_newline printable _, by decide⟩
  · exact repr_newline printable t

theorem summarize_inj (printable : Char → Bool) {t t' : Text} (h1 : t.length ≤ 80) (h2 : t'.length ≤ 80)
    (h : summarize printable t = summarize printable t') : t = t' := by
  unfold summarize at h
  rw [if_neg (by omega), if_neg (by omega)] at h
  exact (repr_inj printable t t' [] [] (by simpa using h)).1

theorem hex_plain (w n : Nat) : ∀ c ∈ hex w n, 32 ≤ c.toNat ∧ c.toNat < 127 := by
  induction w generalizing n with
  | zero => simp [hex]
  | succ w ih =>
    intro c hc
    rw [hex, List.mem_append, List.mem_singleton] at hc
    rcases hc with hc | rfl
    · exact ih _ c hc
    · have := Nat.mod_lt n (by norm_num : 0 < 16)
      generalize n % 16 = k at this
      interval_cases k <;> decide

theorem escape_plain (printable : Char → Bool) {q : Char} (hq : q = '\'' ∨ q = '"') (c : Char) :
    ∀ x ∈ escape printable q c, 32 ≤ x.toNat ∧ x.toNat < 127 ∨ printable x = true := by
  have hb : ∀ y : Char, ∀ x ∈ ['\\', y], (32 ≤ y.toNat ∧ y.toNat < 127) →
      32 ≤ x.toNat ∧ x.toNat < 127 ∨ printable x = true := by
    intro y x hx hy
    rcases List.mem_cons.mp hx with rfl | hx
    · exact .inl (by decide)
    rcases List.mem_singleton.mp hx with rfl
    exact .inl hy
  have hh : ∀ (y : Char) (w n : Nat), (32 ≤ y.toNat ∧ y.toNat < 127) → ∀ x ∈ '\\' :: y :: hex w n,
      32 ≤ x.toNat ∧ x.toNat < 127 ∨ printable x = true := by
    intro y w n hy x hx
    simp only [List.mem_cons] at hx
    rcases hx with rfl | rfl | hx
    · exact .inl (by decide)
    · exact .inl hy
    · exact .inl (hex_plain w n x hx)
  intro x hx
  unfold escape at hx
  split at hx
  · rename_i h
    refine hb c x hx ?_
    rcases h with rfl | rfl
    · rcases hq with rfl | rfl <;> decide
    · decide
  split at hx
  · exact hb _ x hx (by decide)
  split at hx
  · exact hb _ x hx (by decide)
  split at hx
  · exact hb _ x hx (by decide)
  split at hx
  · rename_i h
    rw [List.mem_singleton.mp hx]
    exact .inl h
  split at hx
  · rename_i h
    rw [List.mem_singleton.mp hx]
    exact .inr h.2
  split at hx
  · exact hh _ _ _ (by decide) x hx
  split at hx
  · exact hh _ _ _ (by decide) x hx
  · exact hh _ _ _ (by decide) x hx

theorem repr_plain (printable : Char → Bool) (t : Text) :
    ∀ c ∈ pyRepr printable t, 32 ≤ c.toNat ∧ c.toNat < 127 ∨ printable c = true := by
  have hq : 32 ≤ (quote t).toNat ∧ (quote t).toNat < 127 := by
    rcases quote_cases t with h | h <;> rw [h] <;> decide
  intro c hc
  unfold pyRepr at hc
  simp only [List.mem_cons, List.mem_append, List.mem_flatMap, List.not_mem_nil, or_false] at hc
  rcases hc with rfl | ⟨x, -, h⟩ | rfl
  · exact .inl hq
  · exact escape_plain printable (quote_cases t) x c h
  · exact .inl hq

theorem body_escapes (printable : Char → Bool) {q : Char} (hq : q = '\'' ∨ q = '"') (t : Text) :
    Body q (t.flatMap (escape printable q) ++ [q]) t := by
  have hb : q ≠ '\\' := by
    rcases hq with rfl | rfl <;> decide
  induction t with
  | nil => exact .done
  | cons c t ih =>
    rw [List.flatMap_cons, List.append_assoc]
    refine .step (decode_escape printable hq c _) ?_ ih
    intro h
    obtain ⟨s, hs⟩ : ∃ s, escape printable q c ++ (t.flatMap (escape printable q) ++ [q]) = q :: s := by
      generalize escape printable q c ++ (t.flatMap (escape printable q) ++ [q]) = l at h
      cases l with
      | nil => cases h
      | cons x l => exact ⟨l, by rw [Option.some.inj h]⟩
    exact hb (escape_head printable c _ _ hs)

theorem repr_literal (printable : Char → Bool) (t : Text) : Literal (pyRepr printable t) t :=
  ⟨quote t, _, quote_cases t, rfl, body_escapes printable (quote_cases t) t⟩

end RUSure.Debug
