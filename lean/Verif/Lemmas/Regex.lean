import Verif.Model.Regex
import Mathlib.Data.List.Basic

/-!
# Lemmas on regular expressions and the lexers
-/

namespace RUSure.Lemmas
open RUSure RUSure.Rx

/-- `t` comes after `s`, with the text `w` in between. -/
structure Ahead (s t : RxState) (w : Text) : Prop where
  rest : s.rest = w ++ t.rest
  prev : t.prev = (w.getLast?).or s.prev

theorem Ahead.refl (s : RxState) : Ahead s s [] := ⟨rfl, by simp⟩

theorem Ahead.trans {s t u : RxState} {v w : Text} (h : Ahead s t v) (h' : Ahead t u w) :
    Ahead s u (v ++ w) := by
  refine ⟨by rw [h.rest, h'.rest, List.append_assoc], ?_⟩
  rw [h'.prev, h.prev, List.getLast?_append, Option.or_assoc]

theorem Ahead.between {s t : RxState} {w : Text} (h : Ahead s t w) : Rx.between s t = w := by
  rw [Rx.between, h.rest, List.length_append, Nat.add_sub_cancel]
  exact List.take_left

theorem repeat_ahead {lazy : Bool} {f : RxState → List RxState}
    (hf : ∀ s, ∀ t ∈ f s, ∃ w, Ahead s t w) :
    ∀ (n : Nat) (s : RxState), ∀ t ∈ repeat_ lazy f n s, ∃ w, Ahead s t w
  | 0, s, t, h => by
    rw [repeat_, List.mem_singleton] at h
    subst h; exact ⟨[], .refl _⟩
  | n + 1, s, t, h => by
    have hm : t = s ∨ t ∈ ((f s).filter fun t => t.rest.length < s.rest.length).flatMap
        (repeat_ lazy f n) := by
      rw [repeat_] at h
      split at h
      · simpa using h
      · rw [List.mem_append, List.mem_singleton] at h
        exact h.symm
    rcases hm with rfl | hm
    · exact ⟨[], .refl t⟩
    · obtain ⟨u, hu, ht⟩ := List.mem_flatMap.mp hm
      obtain ⟨v, hv⟩ := hf s u (List.mem_of_mem_filter hu)
      obtain ⟨w, hw⟩ := repeat_ahead hf n u t ht
      exact ⟨v ++ w, hv.trans hw⟩

theorem run_ahead : ∀ (r : Rx) (k : Nat) (s : RxState), ∀ t ∈ r.run k s, ∃ w, Ahead s t w
  | .chr p, k, s, t, h => by
    rw [run] at h
    split at h
    · cases h
    · rename_i c cs hs
      split at h
      · rw [List.mem_singleton] at h
        subst h
        exact ⟨[c], ⟨hs, rfl⟩⟩
      · cases h
  | .seq a b, k, s, t, h => by
    rw [run] at h
    obtain ⟨u, hu, ht⟩ := List.mem_flatMap.mp h
    obtain ⟨v, hv⟩ := run_ahead a k s u hu
    obtain ⟨w, hw⟩ := run_ahead b _ u t ht
    exact ⟨v ++ w, hv.trans hw⟩
  | .alt a b, k, s, t, h => by
    rw [run, List.mem_append] at h
    rcases h with h | h
    · exact run_ahead a k s t h
    · exact run_ahead b _ s t h
  | .opt a, k, s, t, h => by
    rw [run, List.mem_append, List.mem_singleton] at h
    rcases h with h | rfl
    · exact run_ahead a k s t h
    · exact ⟨[], .refl t⟩
  | .star lazy a, k, s, t, h => by
    rw [run] at h
    exact repeat_ahead (fun s => run_ahead a k s) _ s t h
  | .cap a, k, s, t, h => by
    rw [run] at h
    obtain ⟨u, hu, rfl⟩ := List.mem_map.mp h
    obtain ⟨w, hw⟩ := run_ahead a _ s u hu
    exact ⟨w, ⟨hw.rest, hw.prev⟩⟩
  | .ref n, k, s, t, h => by
    rw [run] at h
    split at h
    · cases h
    · rename_i w hw
      split at h
      · rename_i hp
        rw [List.mem_singleton] at h
        subst h
        obtain ⟨x, hx⟩ := List.isPrefixOf_iff_prefix.mp hp
        refine ⟨w, ⟨?_, ?_⟩⟩
        · simp [← hx]
        · cases w with
          | nil => simp
          | cons c w => simp [List.getLast?_cons]
      · cases h
  | .notAfter c, k, s, t, h => by
    rw [run] at h
    split at h
    · cases h
    · rw [List.mem_singleton] at h
      subst h; exact ⟨[], .refl _⟩
  | .atEnd, k, s, t, h => by
    rw [run] at h
    split at h
    · rw [List.mem_singleton] at h
      subst h; exact ⟨[], .refl _⟩
    · cases h

/-! ### Groups -/

theorem repeat_groups {lazy : Bool} {f : RxState → List RxState} {n : Nat}
    (hf : ∀ s, ∀ t ∈ f s, t.groups.lookup n = s.groups.lookup n) :
    ∀ (m : Nat) (s : RxState), ∀ t ∈ repeat_ lazy f m s, t.groups.lookup n = s.groups.lookup n
  | 0, s, t, h => by
    rw [repeat_, List.mem_singleton] at h
    rw [h]
  | m + 1, s, t, h => by
    have hm : t = s ∨ t ∈ ((f s).filter fun t => t.rest.length < s.rest.length).flatMap
        (repeat_ lazy f m) := by
      rw [repeat_] at h
      split at h
      · simpa using h
      · rw [List.mem_append, List.mem_singleton] at h
        exact h.symm
    rcases hm with rfl | hm
    · rfl
    · obtain ⟨u, hu, ht⟩ := List.mem_flatMap.mp hm
      rw [repeat_groups hf m u t ht, hf s u (List.mem_of_mem_filter hu)]

/-- Groups that open before an expression are not changed by it. -/
theorem run_groups : ∀ (r : Rx) (k : Nat) (s : RxState), ∀ t ∈ r.run k s, ∀ n, n ≤ k →
    t.groups.lookup n = s.groups.lookup n
  | .chr p, k, s, t, h, n, hn => by
    rw [run] at h
    split at h
    · cases h
    · split at h
      · rw [List.mem_singleton] at h
        rw [h]
      · cases h
  | .seq a b, k, s, t, h, n, hn => by
    rw [run] at h
    obtain ⟨u, hu, ht⟩ := List.mem_flatMap.mp h
    rw [run_groups b _ u t ht n (by omega), run_groups a k s u hu n hn]
  | .alt a b, k, s, t, h, n, hn => by
    rw [run, List.mem_append] at h
    rcases h with h | h
    · exact run_groups a k s t h n hn
    · exact run_groups b _ s t h n (by omega)
  | .opt a, k, s, t, h, n, hn => by
    rw [run, List.mem_append, List.mem_singleton] at h
    rcases h with h | rfl
    · exact run_groups a k s t h n hn
    · rfl
  | .star lazy a, k, s, t, h, n, hn => by
    rw [run] at h
    exact repeat_groups (fun s t ht => run_groups a k s t ht n hn) _ s t h
  | .cap a, k, s, t, h, n, hn => by
    rw [run] at h
    obtain ⟨u, hu, rfl⟩ := List.mem_map.mp h
    rw [List.lookup_cons, show (n == k + 1) = false from beq_eq_false_iff_ne.mpr (by omega)]
    exact run_groups a _ s u hu n (by omega)
  | .ref m, k, s, t, h, n, hn => by
    rw [run] at h
    split at h
    · cases h
    · split at h
      · rw [List.mem_singleton] at h
        rw [h]
      · cases h
  | .notAfter c, k, s, t, h, n, hn => by
    rw [run] at h
    split at h
    · cases h
    · rw [List.mem_singleton] at h
      rw [h]
  | .atEnd, k, s, t, h, n, hn => by
    rw [run] at h
    split at h
    · rw [List.mem_singleton] at h
      rw [h]
    · cases h

/-! ### The first character -/

/-- The expression matches exactly where a character in the class follows, and consumes it. -/
def Starts (p : Char → Bool) (r : Rx) : Prop := ∀ (k : Nat) (prev : Option Char) (c : Char) (cs : Text)
    (g : List (Nat × Text)),
  (p c = true → ∃ t ∈ r.run k ⟨prev, c :: cs, g⟩, t.rest.length < (c :: cs).length)
  ∧ (p c = false → r.run k ⟨prev, c :: cs, g⟩ = [])

/-- The expression can match the empty text. -/
def Nullable (r : Rx) : Prop := ∀ k s, s ∈ r.run k s

theorem starts_chr (p : Char → Bool) : Starts p (.chr p) := by
  intro k prev c cs g
  constructor
  · intro h
    exact ⟨⟨some c, cs, g⟩, by simp [run, h], by simp⟩
  · intro h
    simp [run, h]

theorem Starts.seq {p : Char → Bool} {a b : Rx} (ha : Starts p a) (hb : Nullable b) :
    Starts p (.seq a b) := by
  intro k prev c cs g
  constructor
  · intro h
    obtain ⟨t, h1, h2⟩ := (ha k prev c cs g).1 h
    exact ⟨t, by rw [run]; exact List.mem_flatMap.mpr ⟨t, h1, hb _ t⟩, h2⟩
  · intro h
    rw [run, (ha k prev c cs g).2 h]
    rfl

theorem Starts.cap {p : Char → Bool} {a : Rx} (ha : Starts p a) : Starts p (.cap a) := by
  intro k prev c cs g
  constructor
  · intro h
    obtain ⟨t, h1, h2⟩ := (ha (k + 1) prev c cs g).1 h
    rw [run]
    exact ⟨_, List.mem_map.mpr ⟨t, h1, rfl⟩, h2⟩
  · intro h
    rw [run, (ha (k + 1) prev c cs g).2 h]
    rfl

theorem nullable_star (lazy : Bool) (a : Rx) : Nullable (.star lazy a) := by
  intro k s
  rw [run]
  cases s.rest.length with
  | zero => simp [repeat_]
  | succ n =>
    rw [repeat_]
    split
    · simp
    · simp

theorem nullable_opt (a : Rx) : Nullable (.opt a) := by
  intro k s
  rw [run]
  simp

theorem starts_plus (p : Char → Bool) : Starts p (plus (.chr p)) :=
  (starts_chr p).seq (nullable_star _ _)

theorem matchSpec_starts {p : Char → Bool} {r : Rx} (h : Starts p r) (k : Nat) (ty : TokenType)
    (spec : LexSpec) (prev : Option Char) (c : Char) (cs : Text) :
    (p c = true → ∃ t ∈ r.run (k + 1) ⟨prev, c :: cs, []⟩, t.rest.length < (c :: cs).length
      ∧ matchSpec k ((ty, r) :: spec) prev (c :: cs) = some (ty, t.rest))
    ∧ (p c = false →
      matchSpec k ((ty, r) :: spec) prev (c :: cs) = matchSpec (k + 1 + r.caps) spec prev (c :: cs)) := by
  obtain ⟨h1, h2⟩ := h (k + 1) prev c cs []
  constructor
  · intro hp
    obtain ⟨t, ht, hl⟩ := h1 hp
    rw [matchSpec]
    cases hf : (r.run (k + 1) ⟨prev, c :: cs, []⟩).find? fun t => t.rest.length < (c :: cs).length with
    | none =>
      rw [List.find?_eq_none] at hf
      exact absurd (by simpa using hl) (hf t ht)
    | some u =>
      exact ⟨u, List.mem_of_find?_eq_some hf, by simpa using List.find?_some hf, rfl⟩
  · intro hp
    rw [matchSpec, h2 hp]
    rfl

theorem matchSpec_cases {k : Nat} {ty : TokenType} {r : Rx} {spec : LexSpec} {prev : Option Char}
    {text : Text} {res : TokenType × Text}
    (h : matchSpec k ((ty, r) :: spec) prev text = some res) :
    (∃ t ∈ r.run (k + 1) ⟨prev, text, []⟩, t.rest.length < text.length ∧ res = (ty, t.rest))
    ∨ (matchSpec (k + 1 + r.caps) spec prev text = some res
      ∧ ∀ t ∈ r.run (k + 1) ⟨prev, text, []⟩, ¬ t.rest.length < text.length) := by
  rw [matchSpec] at h
  split at h
  · rename_i t ht
    left
    exact ⟨t, List.mem_of_find?_eq_some ht, by simpa using List.find?_some ht, (Option.some.inj h).symm⟩
  · rename_i hf
    right
    refine ⟨h, fun t ht => ?_⟩
    rw [List.find?_eq_none] at hf
    simpa using hf t ht

/-! ### Losslessness -/

/-- The specification has an alternative for any character. -/
def Total (spec : LexSpec) : Prop := ∃ ty, (ty, Rx.any) ∈ spec

theorem matchSpec_total : ∀ {spec : LexSpec}, Total spec → ∀ k prev c cs,
    ∃ res, matchSpec k spec prev (c :: cs) = some res
  | [], h, _, _, _, _ => by obtain ⟨ty, h⟩ := h; cases h
  | (ty, r) :: spec, h, k, prev, c, cs => by
    rw [matchSpec]
    split
    · exact ⟨_, rfl⟩
    · rename_i hf
      obtain ⟨ty', h⟩ := h
      rw [List.mem_cons] at h
      rcases h with h | h
      · cases h
        rw [List.find?_eq_none] at hf
        exact absurd (by simp) (hf ⟨some c, cs, []⟩ (by simp [Rx.any, run]))
      · exact matchSpec_total ⟨ty', h⟩ _ prev c cs

theorem matchSpec_suffix : ∀ {spec : LexSpec} {k : Nat} {prev : Option Char} {text : Text}
    {res : TokenType × Text}, matchSpec k spec prev text = some res →
    ∃ w, w ≠ [] ∧ text = w ++ res.2
  | [], _, _, _, _, h => by rw [matchSpec] at h; cases h
  | (ty, r) :: spec, k, prev, text, res, h => by
    rcases matchSpec_cases h with ⟨t, ht, hl, rfl⟩ | ⟨h, -⟩
    · obtain ⟨w, hw⟩ := run_ahead r _ _ t ht
      refine ⟨w, ?_, hw.rest⟩
      rintro rfl
      have := hw.rest
      rw [List.nil_append] at this
      rw [← this] at hl
      exact absurd hl (Nat.lt_irrefl _)
    · exact matchSpec_suffix h

/-- One step of the lexer. -/
theorem lexLoop_step {spec : LexSpec} {n : Nat} {prev : Option Char} {c : Char} {cs w rest : Text}
    {ty : TokenType} (h : matchSpec 0 spec prev (c :: cs) = some (ty, rest)) (hw : c :: cs = w ++ rest) :
    lexLoop spec (n + 1) prev (c :: cs) = (ty, w) :: lexLoop spec n w.getLast? rest := by
  rw [lexLoop, h]
  have : (c :: cs).take ((c :: cs).length - rest.length) = w := by
    rw [hw, List.length_append, Nat.add_sub_cancel, List.take_left]
  simp only [this]

/-- Enough steps are enough. -/
theorem lexLoop_fuel {spec : LexSpec} : ∀ (n : Nat) (prev : Option Char) (text : Text),
    text.length ≤ n → lexLoop spec n prev text = lexLoop spec text.length prev text
  | n, prev, [], _ => by simp [lexLoop]
  | 0, _, _ :: _, h => by simp at h
  | n + 1, prev, c :: cs, h => by
    rw [List.length_cons] at h
    rw [List.length_cons]
    cases hm : matchSpec 0 spec prev (c :: cs) with
    | none =>
      rw [lexLoop, lexLoop, hm]
      exact lexLoop_fuel n _ cs (by omega)
    | some res =>
      obtain ⟨ty, rest⟩ := res
      obtain ⟨w, hw, ht⟩ := matchSpec_suffix hm
      dsimp only at ht
      rw [lexLoop_step hm ht, lexLoop_step hm ht]
      have hl : rest.length ≤ cs.length := by
        have := congrArg List.length ht
        rw [List.length_cons, List.length_append] at this
        have := List.length_pos_iff.mpr hw
        omega
      rw [lexLoop_fuel n _ rest (by omega), lexLoop_fuel cs.length _ rest hl]
termination_by n => n

/-- The lexer as a recursion. -/
theorem lex_eq {spec : LexSpec} {prev : Option Char} {text w rest : Text} {ty : TokenType}
    (h : matchSpec 0 spec prev text = some (ty, rest)) (hw : text = w ++ rest) (hne : w ≠ []) :
    lexLoop spec text.length prev text = (ty, w) :: lexLoop spec rest.length w.getLast? rest := by
  cases text with
  | nil => simp at hw; exact absurd hw.1 hne
  | cons c cs =>
    rw [List.length_cons, lexLoop_step h hw, lexLoop_fuel]
    have := congrArg List.length hw
    rw [List.length_cons, List.length_append] at this
    have := List.length_pos_iff.mpr hne
    omega

theorem lexLoop_flatten {spec : LexSpec} (hs : Total spec) : ∀ (n : Nat) (prev : Option Char)
    (text : Text), text.length ≤ n →
    ((lexLoop spec n prev text).map Prod.snd).flatten = text
      ∧ ∀ x ∈ lexLoop spec n prev text, x.2 ≠ []
  | n, prev, [], _ => by simp [lexLoop]
  | 0, _, _ :: _, h => by simp at h
  | n + 1, prev, c :: cs, h => by
    obtain ⟨⟨ty, rest⟩, hm⟩ := matchSpec_total hs 0 prev c cs
    obtain ⟨w, hw, ht⟩ := matchSpec_suffix hm
    dsimp only at ht
    have hl := congrArg List.length ht
    rw [List.length_cons, List.length_append] at hl
    rw [List.length_cons] at h
    have := List.length_pos_iff.mpr hw
    obtain ⟨h1, h2⟩ := lexLoop_flatten hs n w.getLast? rest (by omega)
    rw [lexLoop_step hm ht]
    refine ⟨?_, ?_⟩
    · rw [List.map_cons, List.flatten_cons, h1, ht]
    · rw [List.forall_mem_cons]
      exact ⟨hw, h2⟩

end RUSure.Lemmas
