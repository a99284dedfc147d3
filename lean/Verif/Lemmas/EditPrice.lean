import Verif.Lemmas.EditAlign
import Mathlib.Tactic.Linarith
import Mathlib.Tactic.Ring

/-!
# Prices of edit scripts
-/

set_option linter.unusedSimpArgs false

namespace RUSure.Lemmas
open RUSure RUSure.Spec
variable {M : Type} {prm : Params}

/-! ### Tokens are found by their index -/

theorem tokens_bounds : ∀ (ns : List (Node M)) (i : Nat),
    (∀ x ∈ tokens i ns, i ≤ x.1 ∧ x.1 < i + seqSize ns)
      ∧ (tokens i ns).Pairwise fun x y => x.1 < y.1
  | [], i => by simp [tokens]
  | n :: ns, i => by
    cases n with
    | tok t mt =>
      obtain ⟨h1, h2⟩ := tokens_bounds ns (i + 1)
      simp only [tokens, seqSize, nodeSize, List.mem_cons, List.pairwise_cons]
      refine ⟨?_, fun x hx => by have := h1 x hx; omega, h2⟩
      rintro x (rfl | hx)
      · dsimp only; omega
      · have := h1 x hx; omega
    | group cs mt =>
      obtain ⟨h1, h2⟩ := tokens_bounds cs (i + 1)
      obtain ⟨h3, h4⟩ := tokens_bounds ns (i + 1 + seqSize cs)
      simp only [tokens, seqSize, nodeSize, List.mem_append, List.pairwise_append]
      refine ⟨?_, h2, h4, fun x hx y hy => ?_⟩
      · rintro x (hx | hx)
        · have := h1 x hx; omega
        · have := h3 x hx; omega
      · have := h1 x hx; have := h3 y hy; omega
    | deco t =>
      obtain ⟨h1, h2⟩ := tokens_bounds ns (i + 1)
      simp only [tokens, seqSize, nodeSize]
      exact ⟨fun x hx => by have := h1 x hx; omega, h2⟩
    | rstart =>
      obtain ⟨h1, h2⟩ := tokens_bounds ns (i + 1)
      simp only [tokens, seqSize, nodeSize]
      exact ⟨fun x hx => by have := h1 x hx; omega, h2⟩
    | rend =>
      obtain ⟨h1, h2⟩ := tokens_bounds ns (i + 1)
      simp only [tokens, seqSize, nodeSize]
      exact ⟨fun x hx => by have := h1 x hx; omega, h2⟩
    | exit =>
      obtain ⟨h1, h2⟩ := tokens_bounds ns (i + 1)
      simp only [tokens, seqSize, nodeSize]
      exact ⟨fun x hx => by have := h1 x hx; omega, h2⟩

theorem lenAt_of_mem {l : List (Nat × Text × M)} (hl : l.Pairwise fun x y => x.1 < y.1) :
    ∀ x ∈ l, lenAt l x.1 = x.2.1.length := by
  intro x hx
  have : l.lookup x.1 = some x.2 := by
    induction l with
    | nil => simp at hx
    | cons y l ih =>
      obtain ⟨h1, h2⟩ := List.pairwise_cons.mp hl
      rcases List.mem_cons.mp hx with rfl | hx
      · simp [List.lookup]
      · have h3 : (x.1 == y.1) = false := by
          have := h1 x hx
          simp only [beq_eq_false_iff_ne, ne_eq]
          omega
        rw [List.lookup, h3]
        exact ih h2 hx
  obtain ⟨a, t, mt⟩ := x
  simp [lenAt, this]

/-! ### The price of a script -/

/-- The price of an edit, given the lengths of tokens. -/
def priceBy (prm : Params) (lp lt : Nat → Nat) (x : EditInfo) : ℚ :=
  match x with
  | ⟨some i, some _, .keep, some c⟩ => -(keepPrize prm c * lp i)
  | ⟨some i, none, .delete, some c⟩ => deletePrice prm c * lp i
  | ⟨none, some j, .insert, _⟩ => prm.insertCost * lt j
  | ⟨_, _, .startEditing, some c⟩ => startPrice prm c
  | ⟨_, _, .startLow, _⟩ => prm.regionCost
  | _ => 0

theorem editPrice_eq (prm : Params) (proto target : List (Node M)) :
    editPrice prm proto target
      = priceBy prm (lenAt (tokens 0 proto)) (lenAt (tokens 0 target)) := rfl

/-- The costs of the steps. -/
def total (ss : List EditStep) : Cost := (ss.map EditStep.cost).sum

/-- The prices of the edits. -/
def price (prm : Params) (lp lt : Nat → Nat) (ss : List EditStep) : ℚ :=
  ((edits ss).map (priceBy prm lp lt)).sum

theorem price_append (lp lt : Nat → Nat) (a b : List EditStep) :
    price prm lp lt (a ++ b) = price prm lp lt a + price prm lp lt b := by
  simp [price]

theorem price_cons (lp lt : Nat → Nat) (s : EditStep) (ss : List EditStep) :
    price prm lp lt (s :: ss) = (s.edit.map (priceBy prm lp lt)).getD 0 + price prm lp lt ss := by
  rw [price, price, edits_cons]
  cases s.edit <;> simp

theorem total_append (a b : List EditStep) : total (a ++ b) = total a + total b := by simp [total]
theorem total_cons (s : EditStep) (ss : List EditStep) : total (s :: ss) = s.cost + total ss := by
  simp [total]

/-- A step costs the price of its edit. -/
def Priced (prm : Params) (lp lt : Nat → Nat) (ss : List EditStep) : Prop :=
  total ss = ((price prm lp lt ss : ℚ) : Cost)

theorem priced_nil {lp lt : Nat → Nat} : Priced prm lp lt [] := rfl

theorem priced_cons {lp lt : Nat → Nat} {s ss}
    (h : s.cost = (((s.edit.map (priceBy prm lp lt)).getD 0 : ℚ) : Cost)) (hs : Priced prm lp lt ss) :
    Priced prm lp lt (s :: ss) := by
  unfold Priced at *
  rw [total_cons, price_cons, hs, h, WithTop.coe_add]

theorem priced_append {lp lt : Nat → Nat} {a b}
    (h : Priced prm lp lt a) (hs : Priced prm lp lt b) : Priced prm lp lt (a ++ b) := by
  unfold Priced at *
  rw [total_append, price_append, hs, h, WithTop.coe_add]

theorem pass_priced {lp lt : Nat → Nat} {c i} {n : Node M} {s c'} (h : Pass prm c i n s c') :
    s.cost = (((s.edit.map (priceBy prm lp lt)).getD 0 : ℚ) : Cost) := by
  cases h <;> rfl

/-- Lengths of tokens are right. -/
def Lens (l : Nat → Nat) (i : Nat) (ns : List (Node M)) : Prop :=
  ∀ x ∈ tokens i ns, l x.1 = x.2.1.length

theorem lens_pass {l c i} {n : Node M} {s c' ns} (h : Pass prm c i n s c') (hl : Lens l i (n :: ns)) :
    Lens l (i + 1) ns := by rwa [Lens, tokens_pass h] at hl

theorem lens_tok {l i t} {mt : M} {ns} (hl : Lens l i (.tok t mt :: ns)) :
    l i = t.length ∧ Lens l (i + 1) ns := by
  simpa [Lens, tokens] using hl

theorem lens_deco {l i t} {ns : List (Node M)} (hl : Lens l i (.deco t :: ns)) :
    Lens l (i + 1) ns := by
  simpa [Lens, tokens] using hl

theorem lens_group {l i} {cs : List (Node M)} {mt : M} {ns} (hl : Lens l i (.group cs mt :: ns)) :
    Lens l (i + 1) cs ∧ Lens l (i + 1 + seqSize cs) ns := by
  unfold Lens at hl
  rw [tokens] at hl
  exact ⟨fun x hx => hl x (List.mem_append_left _ hx), fun x hx => hl x (List.mem_append_right _ hx)⟩

theorem deletes_priced {lp lt : Nat → Nat} {c i} {ns : List (Node M)} {ss r}
    (h : Deletes prm c i ns ss r) (hl : Lens lp i ns) : Priced prm lp lt ss := by
  induction h with
  | nil => exact priced_nil
  | pass hp _ ih => exact priced_cons (pass_priced hp) (ih (lens_pass hp hl))
  | exit => exact priced_cons rfl priced_nil
  | tok _ ih =>
    obtain ⟨h1, h2⟩ := lens_tok hl
    refine priced_cons ?_ (ih h2)
    rw [← h1]; rfl
  | group _ _ ih ih' =>
    obtain ⟨h1, h2⟩ := lens_group hl
    rw [List.cons_append]
    exact priced_cons rfl (priced_append (ih h1) (ih' h2))
  | groupExit _ ih => exact priced_cons rfl (ih (lens_group hl).1)

theorem inserts_priced {lp lt : Nat → Nat} {c j} {ms : List (Node M)} {ss}
    (h : Inserts prm c j ms ss) (hl : Lens lt j ms) : Priced prm lp lt ss := by
  induction h with
  | nil => exact priced_nil
  | deco _ ih => exact priced_cons rfl (ih (lens_deco hl))
  | tok _ ih =>
    obtain ⟨h1, h2⟩ := lens_tok hl
    refine priced_cons ?_ (ih h2)
    rw [← h1]; rfl
  | group _ _ ih ih' =>
    obtain ⟨h1, h2⟩ := lens_group hl
    exact priced_append (ih h1) (ih' h2)

theorem edits_priced {lp lt : Nat → Nat} {ph c i} {ns : List (Node M)} {j} {ms : List (Node M)} {ss r}
    (h : Edits prm ph c i ns j ms ss r) (hl : Lens lp i ns) (hl' : Lens lt j ms) :
    Priced prm lp lt ss := by
  induction h with
  | pass _ hp _ ih => exact priced_cons (pass_priced hp) (ih (lens_pass hp hl) hl')
  | exit => exact priced_cons rfl priced_nil
  | startEditing _ ih => exact priced_cons rfl (ih hl hl')
  | noEditing _ ih => exact ih hl hl'
  | delete _ ih =>
    obtain ⟨h1, h2⟩ := lens_tok hl
    refine priced_cons ?_ (ih h2 hl')
    rw [← h1]; rfl
  | deleteGroup hd _ ih =>
    obtain ⟨h1, h2⟩ := lens_group hl
    rw [List.cons_append]
    exact priced_cons rfl (priced_append (deletes_priced hd h1) (ih h2 hl'))
  | deleteGroupExit hd => exact priced_cons rfl (deletes_priced hd (lens_group hl).1)
  | stopDeleting _ ih => exact ih hl hl'
  | targetDeco _ _ ih => exact priced_cons rfl (ih hl (lens_deco hl'))
  | insert _ ih =>
    obtain ⟨h1, h2⟩ := lens_tok hl'
    refine priced_cons ?_ (ih hl h2)
    rw [← h1]; rfl
  | insertGroup hi _ ih =>
    obtain ⟨h1, h2⟩ := lens_group hl'
    exact priced_append (inserts_priced hi h1) (ih hl h2)
  | stopInserting _ ih => exact ih hl hl'
  | keep _ ih =>
    obtain ⟨h1, h2⟩ := lens_tok hl
    obtain ⟨-, h3⟩ := lens_tok hl'
    refine priced_cons ?_ (ih h2 h3)
    rw [← h1]; rfl
  | matchGroup _ _ ih ih' =>
    obtain ⟨h1, h2⟩ := lens_group hl
    obtain ⟨h3, h4⟩ := lens_group hl'
    rw [List.cons_append]
    exact priced_cons rfl (priced_append (ih h1 h3) (ih' h2 h4))
  | matchGroupExit _ ih => exact priced_cons rfl (ih (lens_group hl).1 (lens_group hl').1)
  | done => exact priced_nil

theorem lens_self (ns : List (Node M)) : Lens (lenAt (tokens 0 ns)) 0 ns :=
  lenAt_of_mem (tokens_bounds ns 0).2

/-! ### Perfect predictions -/

theorem tokens_texts : ∀ (ns : List (Node M)) (i j : Nat),
    (tokens i ns).map (·.2) = (tokens j ns).map (·.2)
  | [], i, j => by simp [tokens]
  | n :: ns, i, j => by
    cases n with
    | group cs mt =>
      simp only [tokens, List.map_append]
      rw [tokens_texts cs (i + 1) (j + 1), tokens_texts ns _ (j + 1 + seqSize cs)]
    | tok t mt => simp only [tokens, List.map_cons]; rw [tokens_texts ns (i + 1) (j + 1)]
    | deco t => simp only [tokens]; rw [tokens_texts ns (i + 1) (j + 1)]
    | rstart => simp only [tokens]; rw [tokens_texts ns (i + 1) (j + 1)]
    | rend => simp only [tokens]; rw [tokens_texts ns (i + 1) (j + 1)]
    | exit => simp only [tokens]; rw [tokens_texts ns (i + 1) (j + 1)]

theorem chars_at (ns : List (Node M)) (i : Nat) :
    chars ns = ((tokens i ns).map fun x => x.2.1.length).sum := by
  have := congrArg (fun l => (l.map fun x : Text × M => x.1.length).sum) (tokens_texts ns 0 i)
  simpa [chars, List.map_map, Function.comp_def] using this

theorem chars_tok {t : Text} {mt : M} {ns} : chars (.tok t mt :: ns) = t.length + chars ns := by
  rw [chars, chars_at ns 1]; simp [tokens]

theorem chars_group {cs : List (Node M)} {mt : M} {ns} :
    chars (.group cs mt :: ns) = chars cs + chars ns := by
  rw [chars, chars_at cs 1, chars_at ns (1 + seqSize cs)]; simp [tokens]

theorem chars_pass {c i} {n : Node M} {s c' ns} (h : Pass prm c i n s c') :
    chars (n :: ns) = chars ns := by
  rw [chars_at _ i, tokens_pass h, chars_at ns (i + 1)]

/-- A step that edits nothing, starts no region and takes no exit. -/
def Calm (s : EditStep) : Prop :=
  (∀ x ∈ s.edit, x.action = .keep ∨ x.action = .protoDeco ∨ x.action = .targetDeco)
    ∧ ∀ d ∈ s.decision, d.2 ≠ .yes

/-- A perfect prediction can be followed without edits. -/
theorem perfect_aux (prm : Params) : ∀ (ns : List (Node M)) (D : List Text) (i j : Nat),
    ∃ ss, Edits prm .advancing .high i ns j (D.map .deco ++ withoutControl ns) ss (some .high)
      ∧ (∀ s ∈ ss, Calm s) ∧ total ss = ((-(prm.highMatch * chars ns) : ℚ) : Cost) := by
  have decos : ∀ (D : List Text) (i j : Nat) (ns ms : List (Node M)) (r : Option Conf) (q : Cost),
      (∀ j, ∃ ss, Edits prm .matching .high i ns j ms ss r ∧ (∀ s ∈ ss, Calm s) ∧ total ss = q) →
      ∃ ss, Edits prm .matching .high i ns j (D.map .deco ++ ms) ss r ∧ (∀ s ∈ ss, Calm s)
        ∧ total ss = q := by
    intro D
    induction D with
    | nil => intro i j ns ms r q h; exact h j
    | cons t D ih =>
      intro i j ns ms r q h
      obtain ⟨ss, h1, h2, h3⟩ := ih i (j + 1) ns ms r q h
      refine ⟨_, .targetDeco (.inr rfl) h1, ?_, ?_⟩
      · intro s hs
        rcases List.mem_cons.mp hs with rfl | hs
        · simp [Calm, targetDecoStep]
        · exact h2 s hs
      · rw [total_cons, h3]; simp [targetDecoStep]
  intro ns
  induction hN : seqSize ns using Nat.strong_induction_on generalizing ns with
  | _ N IH => ?_
  match ns, hN with
  | [], hN =>
    intro D i j
    obtain ⟨ss, h1, h2, h3⟩ := decos D i j ([] : List (Node M)) [] (some .high) 0
      (fun j => ⟨[], .done _ i j, by simp, rfl⟩)
    refine ⟨ss, .noEditing ?_, h2, ?_⟩
    · simpa [withoutControl] using h1
    · rw [h3]; simp [chars, tokens]
  | n :: ns, hN =>
    have hlt : seqSize ns < N := by
      subst hN
      have := nodeSize_pos n
      simp only [seqSize]; omega
    intro D i j
    have ctl : ∀ {s} (_ : Pass prm .high i n s .high) (_ : Calm s) (_ : s.cost = 0)
        (_ : withoutControl (n :: ns) = withoutControl ns),
        ∃ ss, Edits prm .advancing .high i (n :: ns) j (D.map .deco ++ withoutControl (n :: ns)) ss
          (some .high) ∧ (∀ s ∈ ss, Calm s)
          ∧ total ss = ((-(prm.highMatch * chars (n :: ns)) : ℚ) : Cost) := by
      intro s hp hc h0 hw
      obtain ⟨ss, h1, h2, h3⟩ := IH _ hlt ns rfl D (i + 1) j
      refine ⟨s :: ss, .pass (.inl rfl) hp (by rw [hw]; exact h1), ?_, ?_⟩
      · intro s' hs
        rcases List.mem_cons.mp hs with rfl | hs
        · exact hc
        · exact h2 _ hs
      · rw [total_cons, h3, h0, zero_add, chars_pass hp]
    cases n with
    | deco t =>
      obtain ⟨ss, h1, h2, h3⟩ := IH _ hlt ns rfl (D ++ [t]) (i + 1) j
      have hp : Pass prm .high i (.deco t : Node M) _ .high := .deco .high i t
      refine ⟨_, .pass (.inl rfl) hp (by simpa [withoutControl] using h1), ?_, ?_⟩
      · intro s hs
        rcases List.mem_cons.mp hs with rfl | hs
        · simp [Calm]
        · exact h2 _ hs
      · rw [total_cons, h3, chars_pass hp]; simp
    | rstart => exact ctl (.noStart i) (by simp [Calm]) rfl (by simp [withoutControl])
    | rend => exact ctl (.outStop i) (by simp [Calm]) rfl (by simp [withoutControl])
    | exit => exact ctl (.noExit .high i) (by simp [Calm]) rfl (by simp [withoutControl])
    | tok t mt =>
      have := decos D i j (.tok t mt :: ns) (.tok t mt :: withoutControl ns) (some .high)
        ((-(prm.highMatch * chars (.tok t mt :: ns)) : ℚ) : Cost) ?_
      · obtain ⟨ss, h1, h2, h3⟩ := this
        refine ⟨ss, .noEditing ?_, h2, h3⟩
        simpa [withoutControl] using h1
      · intro j
        obtain ⟨ss, h1, h2, h3⟩ := IH _ hlt ns rfl [] (i + 1) (j + 1)
        refine ⟨_, .keep h1, ?_, ?_⟩
        · intro s hs
          rcases List.mem_cons.mp hs with rfl | hs
          · simp [Calm, keepStep, seenAt, inValue]
          · exact h2 _ hs
        · rw [total_cons, h3, chars_tok]
          simp only [keepStep, keepPrize]
          rw [← WithTop.coe_add]
          congr 1
          push_cast
          ring
    | group cs mt =>
      have := decos D i j (.group cs mt :: ns) (.group (withoutControl cs) mt :: withoutControl ns)
        (some .high) ((-(prm.highMatch * chars (.group cs mt :: ns)) : ℚ) : Cost) ?_
      · obtain ⟨ss, h1, h2, h3⟩ := this
        refine ⟨ss, .noEditing ?_, h2, h3⟩
        simpa [withoutControl] using h1
      · intro j
        obtain ⟨ss, h1, h2, h3⟩ := IH _ (by subst hN; simp only [seqSize, nodeSize]; omega) cs rfl []
          (i + 1) (j + 1)
        obtain ⟨ss', h1', h2', h3'⟩ := IH _ hlt ns rfl [] (i + 1 + seqSize cs)
          (j + 1 + seqSize (withoutControl cs))
        refine ⟨_, .matchGroup h1 h1', ?_, ?_⟩
        · intro s hs
          rw [List.cons_append] at hs
          rcases List.mem_cons.mp hs with rfl | hs
          · simp [Calm, enterStep, seenAt, inValue]
          · rcases List.mem_append.mp hs with hs | hs
            · exact h2 _ hs
            · exact h2' _ hs
        · rw [List.cons_append, total_cons, total_append, h3, h3', chars_group]
          rw [show (enterStep .high i).cost = ((0 : ℚ) : Cost) from rfl, ← WithTop.coe_add,
            ← WithTop.coe_add]
          congr 1
          push_cast
          ring

theorem le_cons {s : EditStep} {ss} {a b x : ℚ} (hs : ((a : ℚ) : Cost) ≤ s.cost)
    (h : ((b : ℚ) : Cost) ≤ total ss) (hx : x ≤ a + b) : ((x : ℚ) : Cost) ≤ total (s :: ss) := by
  rw [total_cons]
  exact (WithTop.coe_le_coe.mpr hx).trans (by rw [WithTop.coe_add]; exact add_le_add hs h)

theorem le_append {ss ss' : List EditStep} {a b x : ℚ} (hs : ((a : ℚ) : Cost) ≤ total ss)
    (h : ((b : ℚ) : Cost) ≤ total ss') (hx : x ≤ a + b) : ((x : ℚ) : Cost) ≤ total (ss ++ ss') := by
  rw [total_append]
  exact (WithTop.coe_le_coe.mpr hx).trans (by rw [WithTop.coe_add]; exact add_le_add hs h)

theorem pass_cost (hprm : Sensible prm) {c i} {n : Node M} {s c'} (h : Pass prm c i n s c') :
    ((0 : ℚ) : Cost) ≤ s.cost := by
  cases h with
  | start i => exact WithTop.coe_le_coe.mpr hprm.regionCost
  | _ => exact le_refl _

theorem delete_bound (hprm : Sensible prm) (c : Conf) (t : Text) :
    -(prm.highMatch * t.length) ≤ deletePrice prm c * t.length := by
  rw [← neg_mul]
  refine mul_le_mul_of_nonneg_right ?_ (Nat.cast_nonneg _)
  cases c
  · exact hprm.highDelete
  · exact hprm.lowDelete

theorem deletes_cost (hprm : Sensible prm) {c i} {ns : List (Node M)} {ss r}
    (h : Deletes prm c i ns ss r) : ((-(prm.highMatch * chars ns) : ℚ) : Cost) ≤ total ss := by
  have hn : ∀ ns : List (Node M), (0 : ℚ) ≤ prm.highMatch * chars ns := fun ns =>
    mul_nonneg hprm.highMatch (Nat.cast_nonneg _)
  induction h with
  | nil => simp [chars, tokens, total]
  | pass hp _ ih => exact le_cons (pass_cost hprm hp) ih (by rw [chars_pass hp]; simp)
  | exit c i ns =>
    exact le_cons (a := 0) (b := 0) (le_refl _) (le_refl _) (by have := hn (.exit :: ns); linarith)
  | @tok c i t mt ns ss r _ ih =>
    refine le_cons (a := -(prm.highMatch * t.length)) (WithTop.coe_le_coe.mpr ?_) ih ?_
    · exact delete_bound hprm c t
    · rw [chars_tok]
      push_cast
      linarith
  | group _ _ ih ih' =>
    rw [List.cons_append]
    refine le_cons (a := 0) (le_refl _) (le_append ih ih' (le_refl _)) ?_
    rw [chars_group]
    push_cast
    linarith
  | @groupExit _ _ _ _ ns _ _ ih =>
    refine le_cons (a := 0) (le_refl _) ih ?_
    rw [chars_group]
    have := hn ns
    push_cast
    linarith

theorem inserts_cost (hprm : Sensible prm) {c j} {ms : List (Node M)} {ss}
    (h : Inserts prm c j ms ss) : ((0 : ℚ) : Cost) ≤ total ss := by
  induction h with
  | nil => exact le_refl _
  | deco _ ih => exact le_cons (a := 0) (b := 0) (le_refl _) ih (by simp)
  | tok _ ih =>
    exact le_cons (a := 0) (WithTop.coe_le_coe.mpr (mul_nonneg hprm.insertCost (Nat.cast_nonneg _)))
      ih (by simp)
  | group _ _ ih ih' => exact le_append ih ih' (by simp)

/-- No script is better than keeping every token at high confidence. -/
theorem edits_cost (hprm : Sensible prm) {ph c i} {ns : List (Node M)} {j} {ms : List (Node M)} {ss r}
    (h : Edits prm ph c i ns j ms ss r) :
    ((-(prm.highMatch * chars ns) : ℚ) : Cost) ≤ total ss := by
  have hn : ∀ ns : List (Node M), (0 : ℚ) ≤ prm.highMatch * chars ns := fun ns =>
    mul_nonneg hprm.highMatch (Nat.cast_nonneg _)
  induction h with
  | pass _ hp _ ih => exact le_cons (pass_cost hprm hp) ih (by rw [chars_pass hp]; simp)
  | exit c i ns =>
    exact le_cons (a := 0) (b := 0) (le_refl _) (le_refl _) (by have := hn (.exit :: ns); linarith)
  | @startEditing c _ _ _ _ _ _ _ ih =>
    refine le_cons (a := 0) (WithTop.coe_le_coe.mpr ?_) ih (by simp)
    cases c
    · exact hprm.highStart
    · exact hprm.lowStart
  | noEditing _ ih => exact ih
  | @delete c i t mt ns _ _ _ _ _ ih =>
    refine le_cons (a := -(prm.highMatch * t.length)) (WithTop.coe_le_coe.mpr ?_) ih ?_
    · exact delete_bound hprm c t
    · rw [chars_tok]
      push_cast
      linarith
  | @deleteGroup _ _ _ cs _ _ _ _ _ _ _ hd _ ih =>
    rw [List.cons_append]
    refine le_cons (a := 0) (le_refl _) (le_append (deletes_cost hprm hd) ih (le_refl _)) ?_
    rw [chars_group]
    push_cast
    linarith
  | @deleteGroupExit _ _ cs mt ns _ _ _ hd =>
    refine le_cons (a := 0) (le_refl _) (deletes_cost hprm hd) ?_
    rw [chars_group]
    have := hn ns
    push_cast
    linarith
  | stopDeleting _ ih => exact ih
  | targetDeco _ _ ih => exact le_cons (a := 0) (le_refl _) ih (by simp)
  | insert _ ih =>
    exact le_cons (a := 0) (WithTop.coe_le_coe.mpr (mul_nonneg hprm.insertCost (Nat.cast_nonneg _)))
      ih (by simp)
  | insertGroup hi _ ih => exact le_append (inserts_cost hprm hi) ih (by simp)
  | stopInserting _ ih => exact ih
  | @keep c i t mt ns _ _ _ _ _ ih =>
    refine le_cons (a := -(prm.highMatch * t.length)) (WithTop.coe_le_coe.mpr ?_) ih ?_
    · cases c
      · exact le_refl _
      · exact neg_le_neg (mul_le_mul_of_nonneg_right hprm.lowMatch (Nat.cast_nonneg _))
    · rw [chars_tok]
      push_cast
      linarith
  | matchGroup _ _ ih ih' =>
    rw [List.cons_append]
    refine le_cons (a := 0) (le_refl _) (le_append ih ih' (le_refl _)) ?_
    rw [chars_group]
    push_cast
    linarith
  | @matchGroupExit _ _ _ _ ns _ _ _ _ _ ih =>
    refine le_cons (a := 0) (le_refl _) ih ?_
    rw [chars_group]
    have := hn ns
    push_cast
    linarith
  | done => simp [chars, tokens, total]

end RUSure.Lemmas
