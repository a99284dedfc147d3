import Verif.Spec.StackParser
import Mathlib.Data.List.Nodup

/-!
# Bracket tables, balanced streams and error correction
-/

namespace RUSure.Lemmas
open RUSure RUSure.Spec
variable {T : Type} [DecidableEq T] {pairs : List (T × T)}

/-! ### Tables -/

theorem isOpener_iff {t : T} : isOpener pairs t = true ↔ t ∈ pairs.map Prod.fst := by
  simp [isOpener]

theorem openerOf_mem {c o : T} (h : openerOf pairs c = some o) : (o, c) ∈ pairs := by
  unfold openerOf at h
  cases hf : pairs.reverse.find? fun p => p.2 == c with
  | none => rw [hf] at h; cases h
  | some p =>
    rw [hf] at h
    have h1 := List.mem_of_find?_eq_some hf
    have h2 := List.find?_some hf
    obtain ⟨a, b⟩ := p
    simp only [Option.map_some, Option.some.injEq] at h
    simp only [beq_iff_eq] at h2
    subst h; subst h2
    simpa using h1

theorem openerOf_none {c : T} : openerOf pairs c = none ↔ c ∉ pairs.map Prod.snd := by
  unfold openerOf
  simp only [Option.map_eq_none_iff, List.find?_eq_none, List.mem_reverse, beq_iff_eq, List.mem_map,
    not_exists, not_and]

theorem closerOf_mem {o c : T} (h : closerOf pairs o = some c) : (o, c) ∈ pairs := by
  unfold closerOf at h
  cases hf : pairs.reverse.find? fun p => p.1 == o with
  | none => rw [hf] at h; cases h
  | some p =>
    rw [hf] at h
    have h1 := List.mem_of_find?_eq_some hf
    have h2 := List.find?_some hf
    obtain ⟨a, b⟩ := p
    simp only [Option.map_some, Option.some.injEq] at h
    simp only [beq_iff_eq] at h2
    subst h; subst h2
    simpa using h1

theorem closerOf_none {o : T} : closerOf pairs o = none ↔ o ∉ pairs.map Prod.fst := by
  unfold closerOf
  simp only [Option.map_eq_none_iff, List.find?_eq_none, List.mem_reverse, beq_iff_eq, List.mem_map,
    not_exists, not_and]

omit [DecidableEq T] in
theorem mem_opener {o c : T} (h : (o, c) ∈ pairs) : o ∈ pairs.map Prod.fst :=
  List.mem_map.mpr ⟨_, h, rfl⟩

omit [DecidableEq T] in
theorem mem_closer {o c : T} (h : (o, c) ∈ pairs) : c ∈ pairs.map Prod.snd :=
  List.mem_map.mpr ⟨_, h, rfl⟩

section
variable (hT : Table pairs)
include hT

omit [DecidableEq T] in
theorem closer_unique {o o' c : T} (h : (o, c) ∈ pairs) (h' : (o', c) ∈ pairs) : o = o' := by
  have := List.inj_on_of_nodup_map hT.closers h h' rfl
  exact congrArg Prod.fst this

theorem openerOf_eq {o c : T} (h : (o, c) ∈ pairs) : openerOf pairs c = some o := by
  cases hf : openerOf pairs c with
  | none => exact absurd (mem_closer h) (openerOf_none.mp hf)
  | some o' => rw [closer_unique hT h (openerOf_mem hf)]

theorem closer_not_opener {o c : T} (h : (o, c) ∈ pairs) : isOpener pairs c = false := by
  rw [Bool.eq_false_iff]
  intro h'
  exact hT.disjoint c (isOpener_iff.mp h') (mem_closer h)

end

omit [DecidableEq T] in
theorem PlainTok.of {t : T} (h : PlainTok pairs t) : t ∉ pairs.map Prod.fst ∧ t ∉ pairs.map Prod.snd := h

theorem plain_step {t : T} (h : PlainTok pairs t) : isOpener pairs t = false ∧ openerOf pairs t = none :=
  ⟨by rw [Bool.eq_false_iff]; exact fun h' => h.1 (isOpener_iff.mp h'), openerOf_none.mpr h.2⟩

/-! ### Balanced streams and a stack machine -/

/-- Both kinds of balanced streams, and streams with closers at the top. -/
inductive Bal (pairs : List (T × T)) (tol drop : Bool) : Option T → List T → Prop
  | nil (ctx) : Bal pairs tol drop ctx []
  | plain {ctx t ts} : PlainTok pairs t → Bal pairs tol drop ctx ts → Bal pairs tol drop ctx (t :: ts)
  | stray {o o' c ts} : tol = true → (o', c) ∈ pairs → o' ≠ o → Bal pairs tol drop (some o) ts →
      Bal pairs tol drop (some o) (c :: ts)
  | dropped {o c ts} : drop = true → (o, c) ∈ pairs → Bal pairs tol drop none ts →
      Bal pairs tol drop none (c :: ts)
  | bracket {ctx o c inner ts} : (o, c) ∈ pairs → Bal pairs tol drop (some o) inner →
      Bal pairs tol drop ctx ts → Bal pairs tol drop ctx (o :: (inner ++ c :: ts))

omit [DecidableEq T] in
theorem bal_balanced {ctx : Option T} {ts : List T} :
    Bal pairs true false ctx ts ↔ Balanced pairs ctx ts := by
  constructor
  · intro h
    induction h with
    | nil => exact .nil _
    | plain h _ ih => exact .plain h ih
    | stray _ h h' _ ih => exact .stray h h' ih
    | dropped h => cases h
    | bracket h _ _ ih ih' => exact .bracket h ih ih'
  · intro h
    induction h with
    | nil => exact .nil _
    | plain h _ ih => exact .plain h ih
    | stray h h' _ ih => exact .stray rfl h h' ih
    | bracket h _ _ ih ih' => exact .bracket h ih ih'

omit [DecidableEq T] in
theorem strict_bal {drop : Bool} {ts : List T} (h : StrictlyBalanced pairs ts) :
    ∀ ctx, Bal pairs false drop ctx ts := by
  induction h with
  | nil => exact fun _ => .nil _
  | plain h _ ih => exact fun _ => .plain h (ih _)
  | bracket h _ _ ih ih' => exact fun _ => .bracket h (ih _) (ih' _)

omit [DecidableEq T] in
theorem bal_strict {drop : Bool} {ctx : Option T} {ts : List T} (h : Bal pairs false drop ctx ts)
    (hd : drop = false ∨ ctx ≠ none) : StrictlyBalanced pairs ts := by
  induction h with
  | nil => exact .nil
  | plain h _ ih => exact .plain h (ih hd)
  | stray h => cases h
  | dropped h =>
    rcases hd with hd | hd
    · rw [hd] at h; cases h
    · exact absurd rfl hd
  | bracket h _ _ ih ih' => exact .bracket h (ih (.inr (by simp))) (ih' hd)

/-- The stack machine. -/
def runStep (pairs : List (T × T)) (tol drop : Bool) (S : List T) (t : T) : Option (List T) :=
  if isOpener pairs t then some (t :: S)
  else
    match openerOf pairs t, S with
    | none, _ => some S
    | some _, [] => if drop then some [] else none
    | some o, o' :: os => if o' = o then some os else if tol then some S else none

/-- The stack machine on a stream. -/
def run (pairs : List (T × T)) (tol drop : Bool) : List T → List T → Option (List T)
  | S, [] => some S
  | S, t :: ts => (runStep pairs tol drop S t).bind fun S' => run pairs tol drop S' ts

theorem run_append (tol drop : Bool) (S ts r : List T) :
    run pairs tol drop S (ts ++ r) = (run pairs tol drop S ts).bind fun S' => run pairs tol drop S' r := by
  induction ts generalizing S with
  | nil => rfl
  | cons t ts ih =>
    simp only [List.cons_append, run]
    cases runStep pairs tol drop S t with
    | none => rfl
    | some S' => simp [ih]

/-- What a stack machine that ends with an empty stack has read. -/
theorem run_bal {tol drop : Bool} : ∀ (n : Nat) (ts S : List T), ts.length ≤ n →
    run pairs tol drop S ts = some [] →
    (S = [] → Bal pairs tol drop none ts) ∧
    (∀ o S', S = o :: S' → ∃ inner c rest, ts = inner ++ c :: rest ∧ (o, c) ∈ pairs
      ∧ Bal pairs tol drop (some o) inner ∧ run pairs tol drop S' rest = some []) := by
  intro n
  induction n with
  | zero =>
    intro ts S hl h
    obtain rfl := List.length_eq_zero_iff.mp (Nat.le_zero.mp hl)
    cases h
    exact ⟨fun _ => .nil _, fun o S' h => by cases h⟩
  | succ n ih =>
    intro ts S hl h
    cases ts with
    | nil =>
      cases h
      exact ⟨fun _ => .nil _, fun o S' h => by cases h⟩
    | cons t ts =>
      have hl : ts.length ≤ n := by simpa using hl
      simp only [run] at h
      by_cases ho : isOpener pairs t = true
      · simp only [runStep, ho, ↓reduceIte, Option.bind_some] at h
        obtain ⟨inner, c, rest, rfl, hc, hb, hr⟩ := (ih ts _ hl h).2 t S rfl
        have hl' : rest.length ≤ n := by simp at hl; omega
        have h2 := ih rest S hl' hr
        refine ⟨fun hS => .bracket hc hb (h2.1 hS), fun o S' hS => ?_⟩
        obtain ⟨inner', c', rest', rfl, hc', hb', hr'⟩ := h2.2 o S' hS
        exact ⟨t :: (inner ++ c :: inner'), c', rest', by simp, hc', .bracket hc hb hb', hr'⟩
      · cases hop : openerOf pairs t with
        | none =>
          have hp : PlainTok pairs t := ⟨fun h => ho (isOpener_iff.mpr h), openerOf_none.mp hop⟩
          simp only [runStep, ho, Bool.false_eq_true, ↓reduceIte, hop, Option.bind_some] at h
          have h2 := ih ts S hl h
          refine ⟨fun hS => .plain hp (h2.1 hS), fun o S' hS => ?_⟩
          obtain ⟨inner', c', rest', rfl, hc', hb', hr'⟩ := h2.2 o S' hS
          exact ⟨t :: inner', c', rest', rfl, hc', .plain hp hb', hr'⟩
        | some o =>
          have hm := openerOf_mem hop
          cases S with
          | nil =>
            simp only [runStep, ho, Bool.false_eq_true, ↓reduceIte, hop] at h
            cases drop with
            | false => simp at h
            | true =>
              simp only [↓reduceIte, Option.bind_some] at h
              exact ⟨fun _ => .dropped rfl hm ((ih ts _ hl h).1 rfl), fun o S' hS => by cases hS⟩
          | cons o' S =>
            refine ⟨fun hS => (by cases hS), fun o2 S' hS => ?_⟩
            obtain ⟨rfl, rfl⟩ : o' = o2 ∧ S = S' := List.cons.inj hS
            by_cases hoo : o' = o
            · subst hoo
              simp only [runStep, ho, Bool.false_eq_true, ↓reduceIte, hop, Option.bind_some] at h
              exact ⟨[], t, ts, rfl, hm, .nil _, h⟩
            · simp only [runStep, ho, Bool.false_eq_true, ↓reduceIte, hop, hoo] at h
              cases tol with
              | false => simp at h
              | true =>
                simp only [↓reduceIte, Option.bind_some] at h
                obtain ⟨inner', c', rest', rfl, hc', hb', hr'⟩ := (ih ts _ hl h).2 _ _ rfl
                exact ⟨t :: inner', c', rest', rfl, hc', .stray rfl hm (fun h => hoo h.symm) hb', hr'⟩

section
variable (hT : Table pairs)
include hT

/-- Balanced streams leave the stack as it is. -/
theorem bal_run {tol drop : Bool} {ctx : Option T} {ts : List T} (h : Bal pairs tol drop ctx ts) :
    ∀ S, (∀ o, ctx = some o → S.head? = some o) → (ctx = none → drop = true → S = []) →
      run pairs tol drop S ts = some S := by
  induction h with
  | nil => exact fun _ _ _ => rfl
  | plain hp _ ih =>
    intro S h h'
    obtain ⟨h1, h2⟩ := plain_step hp
    simp only [run, runStep, h1, Bool.false_eq_true, ↓reduceIte, h2, Option.bind_some]
    exact ih S h h'
  | @stray o o' c ts ht hm hne _ ih =>
    intro S h h'
    have hS := h o rfl
    cases S with
    | nil => cases hS
    | cons o2 S =>
      obtain rfl := Option.some.inj hS
      subst ht
      simp only [run, runStep, closer_not_opener hT hm, Bool.false_eq_true, ↓reduceIte,
        openerOf_eq hT hm, hne.symm, Option.bind_some]
      exact ih _ h h'
  | @dropped o c ts hd hm _ ih =>
    intro S h h'
    obtain rfl := h' rfl hd
    subst hd
    simp only [run, runStep, closer_not_opener hT hm, Bool.false_eq_true, ↓reduceIte,
      openerOf_eq hT hm, Option.bind_some]
    exact ih [] h h'
  | @bracket ctx o c inner ts hm _ _ ih ih' =>
    intro S h h'
    have ho : isOpener pairs o = true := isOpener_iff.mpr (mem_opener hm)
    simp only [run, runStep, ho, ↓reduceIte, Option.bind_some]
    rw [run_append, ih (o :: S) (by simp) (by simp)]
    simp only [Option.bind_some, run, runStep, closer_not_opener hT hm, Bool.false_eq_true,
      ↓reduceIte, openerOf_eq hT hm]
    exact ih' S h h'

theorem bal_iff_run {tol drop : Bool} {ts : List T} :
    Bal pairs tol drop none ts ↔ run pairs tol drop [] ts = some [] :=
  ⟨fun h => bal_run hT h [] (by simp) (by simp), fun h => (run_bal _ ts [] (Nat.le_refl _) h).1 rfl⟩

end

/-! ### Error correction -/

theorem correctLoop_openers : ∀ (ts : List T) (S P : List T), (∀ o ∈ S, o ∈ pairs.map Prod.fst) →
    (∀ o ∈ P, o ∈ pairs.map Prod.fst) →
    (∀ o ∈ (correctLoop pairs ts (S, P)).1, o ∈ pairs.map Prod.fst)
      ∧ (∀ o ∈ (correctLoop pairs ts (S, P)).2, o ∈ pairs.map Prod.fst)
  | [], S, P, hS, hP => ⟨hS, hP⟩
  | t :: ts, S, P, hS, hP => by
    simp only [correctLoop, correctStep]
    by_cases ho : isOpener pairs t = true
    · simp only [ho, ↓reduceIte]
      exact correctLoop_openers ts _ _ (List.forall_mem_cons.mpr ⟨isOpener_iff.mp ho, hS⟩) hP
    · simp only [ho, Bool.false_eq_true, ↓reduceIte]
      cases hop : openerOf pairs t with
      | none => exact correctLoop_openers ts _ _ hS hP
      | some o =>
        have hm := mem_opener (openerOf_mem hop)
        cases S with
        | nil => exact correctLoop_openers ts _ _ hS (by rw [List.forall_mem_cons]; exact ⟨hm, hP⟩)
        | cons o' S =>
          simp only
          split
          · exact correctLoop_openers ts _ _ (fun o ho => hS o (by simp [ho])) hP
          · exact correctLoop_openers ts _ _ hS hP

theorem correctLoop_run : ∀ (ts : List T) (S P : List T), ∃ Q,
    (correctLoop pairs ts (S, P)).2 = Q ++ P ∧ ∀ B, run pairs true false (S ++ (Q.reverse ++ B)) ts
      = some ((correctLoop pairs ts (S, P)).1 ++ B)
  | [], S, P => ⟨[], rfl, fun B => rfl⟩
  | t :: ts, S, P => by
    simp only [correctLoop, correctStep, run, runStep]
    by_cases ho : isOpener pairs t = true
    · simp only [ho, ↓reduceIte, Option.bind_some]
      exact correctLoop_run ts (t :: S) P
    · simp only [ho, Bool.false_eq_true, ↓reduceIte]
      cases hop : openerOf pairs t with
      | none =>
        simp only [Option.bind_some]
        exact correctLoop_run ts S P
      | some o =>
        cases S with
        | nil =>
          obtain ⟨Q, h1, h2⟩ := correctLoop_run ts [] (o :: P)
          refine ⟨Q ++ [o], by rw [h1]; simp, fun B => ?_⟩
          have := h2 B
          simpa using this
        | cons o' S =>
          simp only
          by_cases h : o' = o
          · simp only [h, ↓reduceIte, List.cons_append, Option.bind_some]
            exact correctLoop_run ts S P
          · simp only [h, ↓reduceIte, List.cons_append, Option.bind_some]
            exact correctLoop_run ts (o' :: S) P

theorem run_openers {tol drop : Bool} : ∀ (P S : List T), (∀ o ∈ P, o ∈ pairs.map Prod.fst) →
    run pairs tol drop S P = some (P.reverse ++ S)
  | [], S, _ => rfl
  | o :: P, S, h => by
    rw [List.forall_mem_cons] at h
    simp only [run, runStep, isOpener_iff.mpr h.1, ↓reduceIte, Option.bind_some]
    rw [run_openers P _ h.2]
    simp

section
variable (hT : Table pairs)
include hT

theorem run_closers {tol drop : Bool} : ∀ (S : List T), (∀ o ∈ S, o ∈ pairs.map Prod.fst) →
    run pairs tol drop S (S.filterMap (closerOf pairs)) = some []
  | [], _ => rfl
  | o :: S, h => by
    rw [List.forall_mem_cons] at h
    cases hc : closerOf pairs o with
    | none => exact absurd h.1 (closerOf_none.mp hc)
    | some c =>
      have hm := closerOf_mem hc
      simp only [List.filterMap_cons, hc, run, runStep, closer_not_opener hT hm, Bool.false_eq_true,
        ↓reduceIte, openerOf_eq hT hm, Option.bind_some]
      exact run_closers S h.2

theorem correction_run (ts : List T) :
    run pairs true false [] ((correction pairs ts).1 ++ (ts ++ (correction pairs ts).2)) = some [] := by
  obtain ⟨hS, hP⟩ := correctLoop_openers (pairs := pairs) ts [] [] (by simp) (by simp)
  obtain ⟨Q, h1, h2⟩ := correctLoop_run (pairs := pairs) ts [] []
  have h2 := h2 []
  simp only [List.nil_append, List.append_nil] at h1 h2
  simp only [correction]
  rw [run_append, run_openers _ _ hP]
  simp only [Option.bind_some, List.append_nil]
  rw [run_append, h1, h2]
  simp only [Option.bind_some]
  exact run_closers hT _ hS

theorem bal_correct {ctx : Option T} {ts : List T} (h : Bal pairs true false ctx ts) :
    ∀ S P r, (∀ o, ctx = some o → S.head? = some o) →
      correctLoop pairs (ts ++ r) (S, P) = correctLoop pairs r (S, P) := by
  induction h with
  | nil => exact fun _ _ _ _ => rfl
  | plain hp _ ih =>
    intro S P r h
    obtain ⟨h1, h2⟩ := plain_step hp
    simp only [List.cons_append, correctLoop, correctStep, h1, Bool.false_eq_true, ↓reduceIte, h2]
    exact ih S P r h
  | @stray o o' c ts _ hm hne _ ih =>
    intro S P r h
    have hS := h o rfl
    cases S with
    | nil => cases hS
    | cons o2 S =>
      obtain rfl := Option.some.inj hS
      simp only [List.cons_append, correctLoop, correctStep, closer_not_opener hT hm,
        Bool.false_eq_true, ↓reduceIte, openerOf_eq hT hm, hne.symm]
      exact ih _ P r h
  | dropped hd => cases hd
  | @bracket ctx o c inner ts hm _ _ ih ih' =>
    intro S P r h
    have ho : isOpener pairs o = true := isOpener_iff.mpr (mem_opener hm)
    simp only [List.cons_append, List.append_assoc, correctLoop, correctStep, ho, ↓reduceIte]
    rw [ih (o :: S) P _ (by simp)]
    simp only [correctLoop, correctStep, closer_not_opener hT hm, Bool.false_eq_true, ↓reduceIte,
      openerOf_eq hT hm]
    exact ih' S P r h

theorem correction_balanced (ts : List T) :
    Balanced pairs none ((correction pairs ts).1 ++ ts ++ (correction pairs ts).2) := by
  rw [← bal_balanced, bal_iff_run hT, List.append_assoc]
  exact correction_run hT ts

theorem correction_empty (ts : List T) :
    correction pairs ts = ([], []) ↔ Balanced pairs none ts := by
  constructor
  · intro h
    have := correction_balanced hT ts
    rw [h] at this
    simpa using this
  · intro h
    have := bal_correct hT (bal_balanced.mpr h) [] [] [] (by simp)
    rw [List.append_nil] at this
    simp [correction, this, correctLoop]

end

end RUSure.Lemmas
