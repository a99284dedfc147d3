import Verif.Lemmas.Codec

/-!
# Lexing is stable under brackets before and after the text (Python)
-/

namespace RUSure.Lemmas
open RUSure RUSure.Rx RUSure.Spec

/-! ### The previous character does not matter -/

/-- The matches do not depend on the previous character. -/
def PrevFree (r : Rx) : Prop := ∀ k p p' rest g, r.run k ⟨p, rest, g⟩ = r.run k ⟨p', rest, g⟩

theorem prevFree_chr (p : Char → Bool) : PrevFree (.chr p) := by
  intro k a b rest g
  rw [run, run]

theorem PrevFree.seq {a : Rx} (h : PrevFree a) (b : Rx) : PrevFree (.seq a b) := by
  intro k p p' rest g
  rw [run, run, h k p p' rest g]

theorem PrevFree.alt {a b : Rx} (h : PrevFree a) (h' : PrevFree b) : PrevFree (.alt a b) := by
  intro k p p' rest g
  rw [run, run, h k p p' rest g, h' _ p p' rest g]

theorem PrevFree.cap {a : Rx} (h : PrevFree a) : PrevFree (.cap a) := by
  intro k p p' rest g
  rw [run, run, h _ p p' rest g]
  rfl

theorem prevFree_lit : ∀ w : List Char, w ≠ [] → PrevFree (lit w)
  | [], h => absurd rfl h
  | [_], _ => prevFree_chr _
  | _ :: d :: w, _ => by rw [lit_cons]; exact (prevFree_chr _).seq _

theorem matchSpec_prev : ∀ {spec : LexSpec}, (∀ x ∈ spec, PrevFree x.2) → ∀ k p p' text,
    matchSpec k spec p text = matchSpec k spec p' text
  | [], _, _, _, _, _ => rfl
  | (ty, r) :: spec, h, k, p, p', text => by
    rw [List.forall_mem_cons] at h
    rw [matchSpec, matchSpec, h.1 _ p p', matchSpec_prev h.2 _ p p']

theorem lexLoop_prev {spec : LexSpec} (h : ∀ x ∈ spec, PrevFree x.2) : ∀ (n : Nat) p p' text,
    lexLoop spec n p text = lexLoop spec n p' text
  | _, _, _, [] => by rw [lexLoop, lexLoop]
  | 0, _, _, _ :: _ => by rw [lexLoop, lexLoop]
  | n + 1, p, p', c :: cs => by rw [lexLoop, lexLoop, matchSpec_prev h 0 p p']

theorem prevFree_basic (digit : Char → Bool) : ∀ x ∈ basicSpec digit, PrevFree x.2 := by
  unfold basicSpec
  simp only [List.forall_mem_cons, List.not_mem_nil, false_implies, implies_true, and_true]
  refine ⟨((prevFree_chr _).seq _).seq _, (prevFree_chr _).seq _, prevFree_chr _, prevFree_chr _,
    prevFree_chr _, prevFree_chr _, prevFree_chr _, (prevFree_chr _).seq _, prevFree_chr _⟩

theorem prevFree_python (digit : Char → Bool) :
    ∀ x ∈ Language.pythonPreprocessor.spec digit, PrevFree x.2 := by
  intro x hx
  unfold Language.spec at hx
  rw [List.mem_append] at hx
  rcases hx with hx | hx
  · revert x
    unfold pythonStringsAndComments
    simp only [List.forall_mem_cons, List.not_mem_nil, false_implies, implies_true, and_true]
    refine ⟨PrevFree.seq ?_ _, ?_⟩
    · exact ((prevFree_lit _ (by simp)).alt ((prevFree_lit _ (by simp)).alt
        ((prevFree_lit _ (by simp)).alt (prevFree_lit _ (by simp))))).cap
    · exact (prevFree_chr _).cap.seq _
  · exact prevFree_basic digit x hx

/-! ### More text behind -/

/-- The state with more text behind. -/
def extend (z : Text) (s : RxState) : RxState := { s with rest := s.rest ++ z }

/-- No `$` in the expression. -/
def NoDollar : Rx → Prop
  | .chr _ => True
  | .seq a b => NoDollar a ∧ NoDollar b
  | .alt a b => NoDollar a ∧ NoDollar b
  | .opt a => NoDollar a
  | .star _ a => NoDollar a
  | .cap a => NoDollar a
  | .ref _ => True
  | .notAfter _ => True
  | .atEnd => False

/-- The match ends before the added text. -/
def inside (z : Text) (t : RxState) : Bool := decide (z.length ≤ t.rest.length)

theorem inside_extend (z : Text) (s : RxState) : inside z (extend z s) = true := by
  simp [inside, extend]

theorem not_inside_ahead {z : Text} {s t : RxState} {w : Text} (h : Ahead s t w)
    (hs : inside z s = false) : inside z t = false := by
  have := congrArg List.length h.rest
  rw [List.length_append] at this
  simp only [inside, decide_eq_false_iff_not] at hs ⊢
  omega

theorem filter_flatMap_inside {z : Text} {l : List RxState} {f : RxState → List RxState}
    (hf : ∀ u ∈ l, ∀ t ∈ f u, ∃ w, Ahead u t w) :
    (l.flatMap f).filter (inside z) = (l.filter (inside z)).flatMap fun u => (f u).filter (inside z) := by
  induction l with
  | nil => rfl
  | cons u l ih =>
    rw [List.forall_mem_cons] at hf
    rw [List.flatMap_cons, List.filter_append, ih hf.2, List.filter_cons]
    cases hu : inside z u with
    | true => rw [if_pos rfl, List.flatMap_cons]
    | false =>
      have : (f u).filter (inside z) = [] := by
        rw [List.filter_eq_nil_iff]
        intro t ht
        obtain ⟨w, hw⟩ := hf.1 t ht
        rw [not_inside_ahead hw hu]
        simp
      rw [this]
      simp

theorem repeat_extend {lazy : Bool} {z : Text} {f : RxState → List RxState}
    (hf : ∀ s, ∀ t ∈ f s, ∃ w, Ahead s t w)
    (he : ∀ s, (f (extend z s)).filter (inside z) = (f s).map (extend z)) :
    ∀ (n n' : Nat) (s : RxState), s.rest.length ≤ n → s.rest.length + z.length ≤ n' →
      (repeat_ lazy f n' (extend z s)).filter (inside z) = (repeat_ lazy f n s).map (extend z) := by
  have hmore : ∀ (n n' : Nat) (s : RxState), s.rest.length ≤ n + 1 → s.rest.length + z.length ≤ n' + 1 →
      (∀ u : RxState, u.rest.length ≤ n → u.rest.length + z.length ≤ n' →
        (repeat_ lazy f n' (extend z u)).filter (inside z) = (repeat_ lazy f n u).map (extend z)) →
      (((f (extend z s)).filter fun t => t.rest.length < (extend z s).rest.length).flatMap
          (repeat_ lazy f n')).filter (inside z)
        = (((f s).filter fun t => t.rest.length < s.rest.length).flatMap (repeat_ lazy f n)).map
          (extend z) := by
    intro n n' s h1 h2 ih
    rw [filter_flatMap_inside (fun u _ => repeat_ahead hf n' u), List.filter_filter]
    have hc : ((f (extend z s)).filter fun t =>
        inside z t && decide (t.rest.length < (extend z s).rest.length))
        = ((f s).filter fun t => decide (t.rest.length < s.rest.length)).map (extend z) := by
      rw [show (fun t => inside z t && decide (t.rest.length < (extend z s).rest.length))
        = (fun t => decide (t.rest.length < (extend z s).rest.length) && inside z t) from
          funext fun t => Bool.and_comm _ _]
      rw [← List.filter_filter, he s, List.filter_map]
      congr 1
      refine List.filter_congr fun t _ => ?_
      simp [extend, Function.comp]
    rw [hc, List.flatMap_map, List.map_flatMap]
    refine List.flatMap_congr fun u hu => ?_
    rw [List.mem_filter, decide_eq_true_eq] at hu
    exact ih u (by omega) (by omega)
  intro n
  induction n with
  | zero =>
    intro n' s h1 h2
    have h0 : s.rest = [] := List.length_eq_zero_iff.mp (by omega)
    cases n' with
    | zero => simp [repeat_, inside_extend]
    | succ n' =>
      have hnil : (((f (extend z s)).filter fun t => t.rest.length < (extend z s).rest.length).flatMap
          (repeat_ lazy f n')).filter (inside z) = [] := by
        rw [List.filter_eq_nil_iff]
        intro t ht
        obtain ⟨u, hu, ht⟩ := List.mem_flatMap.mp ht
        rw [List.mem_filter, decide_eq_true_eq] at hu
        obtain ⟨w, hw⟩ := repeat_ahead hf n' u t ht
        have : inside z u = false := by
          simp only [inside, decide_eq_false_iff_not]
          have := hu.2
          simp only [extend, h0, List.nil_append] at this
          omega
        rw [not_inside_ahead hw this]
        simp
      rw [repeat_, repeat_]
      split
      · rw [List.filter_cons, inside_extend, if_pos rfl, hnil]
        rfl
      · rw [List.filter_append, hnil, List.filter_cons, inside_extend]
        rfl
  | succ n ih =>
    intro n' s h1 h2
    cases n' with
    | zero =>
      have h0 : s.rest = [] := List.length_eq_zero_iff.mp (by omega)
      rw [repeat_, repeat_]
      simp only [h0, List.length_nil, Nat.not_lt_zero, decide_false, List.filter_false,
        List.flatMap_nil, List.nil_append]
      cases lazy <;> simp [inside_extend]
    | succ n' =>
      have := hmore n n' s h1 h2 (fun u h3 h4 => ih n' u h3 h4)
      rw [repeat_, repeat_]
      split
      · rw [List.filter_cons, inside_extend, if_pos rfl, this]
        rfl
      · rw [List.filter_append, this, List.filter_cons, inside_extend, List.map_append]
        rfl

/-- With more text behind, the matches that end before it are the same, in the same order. -/
theorem run_extend (z : Text) : ∀ (r : Rx), NoDollar r → ∀ (k : Nat) (s : RxState),
    (r.run k (extend z s)).filter (inside z) = (r.run k s).map (extend z)
  | .chr p, _, k, s => by
    rw [run, run]
    cases hs : s.rest with
    | nil =>
      simp only [extend, hs, List.nil_append, List.map_nil]
      cases hz : z with
      | nil => rfl
      | cons c cs =>
        dsimp only
        split
        · simp [inside]
        · rfl
    | cons c cs =>
      simp only [extend, hs, List.cons_append]
      split
      · simp [inside, extend]
      · rfl
  | .seq a b, h, k, s => by
    rw [run, run, filter_flatMap_inside (fun u _ => run_ahead b _ u), run_extend z a h.1, List.flatMap_map,
      List.map_flatMap]
    exact List.flatMap_congr fun u _ => run_extend z b h.2 _ u
  | .alt a b, h, k, s => by
    rw [run, run, List.filter_append, run_extend z a h.1, run_extend z b h.2, List.map_append]
  | .opt a, h, k, s => by
    rw [run, run, List.filter_append, run_extend z a h, List.map_append, List.filter_cons, inside_extend]
    rfl
  | .star lazy a, h, k, s => by
    rw [run, run]
    exact repeat_extend (fun s => run_ahead a k s) (fun s => run_extend z a h k s) _ _ s (Nat.le_refl _)
      (by simp [extend])
  | .cap a, h, k, s => by
    rw [run, run, List.filter_map, show (inside z ∘ fun t : RxState =>
      { t with groups := (k + 1, between (extend z s) t) :: t.groups }) = inside z from rfl,
      run_extend z a h, List.map_map, List.map_map]
    refine List.map_congr_left fun t ht => ?_
    obtain ⟨w, hw⟩ := run_ahead a _ s t ht
    have hw' : Ahead (extend z s) (extend z t) w := ⟨by simp [extend, hw.rest], hw.prev⟩
    simp only [Function.comp, hw.between, hw'.between]
    rfl
  | .ref n, _, k, s => by
    rw [run, run]
    simp only [extend]
    split
    · rfl
    · rename_i w hw
      by_cases hp : w.isPrefixOf s.rest = true
      · have hp2 : w.isPrefixOf (s.rest ++ z) = true := by
          rw [List.isPrefixOf_iff_prefix] at hp ⊢
          exact hp.trans (List.prefix_append _ _)
        rw [if_pos hp]
        simp only [hp2, if_true]
        have hl := (List.isPrefixOf_iff_prefix.mp hp).length_le
        simp only [List.map_cons, List.map_nil, List.drop_append_of_le_length hl]
        rw [List.filter_cons, if_pos (by simp [inside]), List.filter_nil]
        rfl
      · rw [if_neg hp]
        by_cases hp2 : w.isPrefixOf (s.rest ++ z) = true
        · simp only [hp2, if_true]
          rw [List.isPrefixOf_iff_prefix] at hp hp2
          rw [List.map_nil, List.filter_eq_nil_iff]
          intro t ht
          rw [List.mem_singleton] at ht
          subst ht
          simp only [inside, List.length_drop, List.length_append, decide_eq_true_eq]
          intro hl
          apply hp
          refine List.prefix_of_prefix_length_le hp2 (List.prefix_append _ _) ?_
          have := hp2.length_le
          rw [List.length_append] at this
          by_cases hz : z = []
          · subst hz
            simpa using this
          · have := List.length_pos_iff.mpr hz
            omega
        · simp [hp2]
  | .notAfter c, _, k, s => by
    rw [run, run]
    by_cases hc : s.prev = some c
    · simp [extend, hc]
    · simp [extend, hc, inside]
  | .atEnd, h, _, _ => h.elim

/-! ### Matches that cannot run into the added text -/

/-- No character class of the expression has a newline, and there are no references. -/
def Quiet : Rx → Prop
  | .chr p => p '\n' = false
  | .seq a b => Quiet a ∧ Quiet b
  | .alt a b => Quiet a ∧ Quiet b
  | .opt a => Quiet a
  | .star _ a => Quiet a
  | .cap a => Quiet a
  | .ref _ => False
  | .notAfter _ => True
  | .atEnd => True

theorem repeat_quiet {lazy : Bool} {f : RxState → List RxState}
    (hf : ∀ s, ∀ t ∈ f s, ∃ w, Ahead s t w ∧ '\n' ∉ w) :
    ∀ (n : Nat) (s : RxState), ∀ t ∈ repeat_ lazy f n s, ∃ w, Ahead s t w ∧ '\n' ∉ w
  | 0, s, t, h => by
    rw [repeat_, List.mem_singleton] at h
    subst h; exact ⟨[], .refl _, by simp⟩
  | n + 1, s, t, h => by
    have hm : t = s ∨ t ∈ ((f s).filter fun t => t.rest.length < s.rest.length).flatMap
        (repeat_ lazy f n) := by
      rw [repeat_] at h
      split at h
      · simpa using h
      · rw [List.mem_append, List.mem_singleton] at h
        exact h.symm
    rcases hm with rfl | hm
    · exact ⟨[], .refl t, by simp⟩
    · obtain ⟨u, hu, ht⟩ := List.mem_flatMap.mp hm
      obtain ⟨v, hv, h1⟩ := hf s u (List.mem_of_mem_filter hu)
      obtain ⟨w, hw, h2⟩ := repeat_quiet hf n u t ht
      exact ⟨v ++ w, hv.trans hw, by simp [h1, h2]⟩

theorem run_quiet : ∀ (r : Rx), Quiet r → ∀ (k : Nat) (s : RxState), ∀ t ∈ r.run k s,
    ∃ w, Ahead s t w ∧ '\n' ∉ w
  | .chr p, hq, k, s, t, h => by
    obtain ⟨c, h1, h2⟩ := chr_some h
    obtain ⟨-, -, -, h4⟩ := chr_rest h1 h
    refine ⟨[c], ⟨h1, h4⟩, ?_⟩
    rw [List.mem_singleton]
    rintro rfl
    rw [Quiet] at hq
    rw [hq] at h2
    cases h2
  | .seq a b, hq, k, s, t, h => by
    rw [run] at h
    obtain ⟨u, hu, ht⟩ := List.mem_flatMap.mp h
    obtain ⟨v, hv, h1⟩ := run_quiet a hq.1 k s u hu
    obtain ⟨w, hw, h2⟩ := run_quiet b hq.2 _ u t ht
    exact ⟨v ++ w, hv.trans hw, by simp [h1, h2]⟩
  | .alt a b, hq, k, s, t, h => by
    rw [run, List.mem_append] at h
    rcases h with h | h
    · exact run_quiet a hq.1 k s t h
    · exact run_quiet b hq.2 _ s t h
  | .opt a, hq, k, s, t, h => by
    rw [run, List.mem_append, List.mem_singleton] at h
    rcases h with h | rfl
    · exact run_quiet a hq k s t h
    · exact ⟨[], .refl t, by simp⟩
  | .star lazy a, hq, k, s, t, h => by
    rw [run] at h
    exact repeat_quiet (fun s => run_quiet a hq k s) _ s t h
  | .cap a, hq, k, s, t, h => by
    rw [run] at h
    obtain ⟨u, hu, rfl⟩ := List.mem_map.mp h
    obtain ⟨w, hw, h1⟩ := run_quiet a hq _ s u hu
    exact ⟨w, ⟨hw.rest, hw.prev⟩, h1⟩
  | .notAfter c, _, k, s, t, h => by
    rw [run] at h
    split at h
    · cases h
    · rw [List.mem_singleton] at h
      subst h; exact ⟨[], .refl _, by simp⟩
  | .atEnd, _, k, s, t, h => by
    rw [run] at h
    split at h
    · rw [List.mem_singleton] at h
      subst h; exact ⟨[], .refl _, by simp⟩
    · cases h

/-- Texts of matches that cannot run over a newline at the end into text without quotes. -/
def SafeText (w : Text) : Prop :=
  '\n' ∉ w ∨ w.length ≤ 1 ∨ ∃ q, (q = '"' ∨ q = '\'') ∧ w.getLast? = some q

theorem safe_inside {p : Option Char} {g : List (Nat × Text)} {t z w : Text} {u : RxState}
    (ht : t.getLast? = some '\n') (hz : '"' ∉ z ∧ '\'' ∉ z)
    (h : Ahead ⟨p, t ++ z, g⟩ u w) (hw : SafeText w) : inside z u = true := by
  by_contra hi
  rw [Bool.not_eq_true] at hi
  simp only [inside, decide_eq_false_iff_not, Nat.not_le] at hi
  have hr : t ++ z = w ++ u.rest := h.rest
  have hl := congrArg List.length hr
  rw [List.length_append, List.length_append] at hl
  obtain ⟨v, rfl⟩ : t <+: w := by
    refine List.prefix_of_prefix_length_le (List.prefix_append t z) ?_ (by omega)
    rw [hr]
    exact List.prefix_append _ _
  rw [List.append_assoc] at hr
  have hz' := List.append_cancel_left hr
  have hv : v ≠ [] := by
    rintro rfl
    simp at hl
    omega
  have hn : '\n' ∈ t := List.mem_of_getLast? ht
  have htl := List.length_pos_of_mem hn
  have hvl := List.length_pos_iff.mpr hv
  rcases hw with hw | hw | ⟨q, hq, hw⟩
  · exact hw (List.mem_append_left _ hn)
  · rw [List.length_append] at hw
    omega
  · rw [List.getLast?_append_of_ne_nil _ hv] at hw
    have : q ∈ z := by
      rw [hz']
      exact List.mem_append_left _ (List.mem_of_getLast? hw)
    rcases hq with rfl | rfl
    · exact hz.1 this
    · exact hz.2 this

/-- Every match of the specification, after `k` groups, is safe. -/
def SafeSpec : Nat → LexSpec → Prop
  | _, [] => True
  | k, (_, r) :: spec => NoDollar r
      ∧ (∀ p text, ∀ t ∈ r.run (k + 1) ⟨p, text, []⟩, ∃ w, Ahead ⟨p, text, []⟩ t w ∧ SafeText w)
      ∧ SafeSpec (k + 1 + r.caps) spec

theorem find_map_extend {z t : Text} : ∀ l : List RxState,
    (l.map (extend z)).find? (fun u => u.rest.length < (t ++ z).length)
      = (l.find? fun u => u.rest.length < t.length).map (extend z)
  | [] => rfl
  | u :: l => by
    rw [List.map_cons, List.find?_cons, List.find?_cons, find_map_extend l]
    have : decide ((extend z u).rest.length < (t ++ z).length) = decide (u.rest.length < t.length) := by
      simp [extend]
    rw [this]
    cases decide (u.rest.length < t.length) <;> rfl

theorem matchSpec_extend {t z : Text} (ht : t.getLast? = some '\n') (hz : '"' ∉ z ∧ '\'' ∉ z)
    {p : Option Char} : ∀ (spec : LexSpec) (k : Nat), SafeSpec k spec →
    matchSpec k spec p (t ++ z) = (matchSpec k spec p t).map fun x => (x.1, x.2 ++ z)
  | [], _, _ => rfl
  | (ty, r) :: spec, k, h => by
    have he := run_extend z r h.1 (k + 1) ⟨p, t, []⟩
    have hall : (r.run (k + 1) (extend z ⟨p, t, []⟩)).filter (inside z)
        = r.run (k + 1) (extend z ⟨p, t, []⟩) := by
      rw [List.filter_eq_self]
      intro u hu
      obtain ⟨w, h1, h2⟩ := h.2.1 p (t ++ z) u hu
      exact safe_inside ht hz h1 h2
    rw [hall] at he
    rw [matchSpec, matchSpec]
    rw [show r.run (k + 1) ⟨p, t ++ z, []⟩ = r.run (k + 1) (extend z ⟨p, t, []⟩) from rfl, he,
      find_map_extend, matchSpec_extend ht hz spec _ h.2.2]
    cases (r.run (k + 1) ⟨p, t, []⟩).find? fun u => u.rest.length < t.length with
    | none => rfl
    | some u => rfl

theorem safe_quiet {r : Rx} (h : Quiet r) (k : Nat) (p : Option Char) (text : Text) :
    ∀ t ∈ r.run k ⟨p, text, []⟩, ∃ w, Ahead ⟨p, text, []⟩ t w ∧ SafeText w := by
  intro t ht
  obtain ⟨w, h1, h2⟩ := run_quiet r h k _ t ht
  exact ⟨w, h1, .inl h2⟩

theorem safe_chr (q : Char → Bool) (k : Nat) (p : Option Char) (text : Text) :
    ∀ t ∈ (Rx.chr q).run k ⟨p, text, []⟩, ∃ w, Ahead ⟨p, text, []⟩ t w ∧ SafeText w := by
  intro t ht
  obtain ⟨c, h1, h2⟩ := chr_some ht
  obtain ⟨-, -, -, h4⟩ := chr_rest h1 ht
  exact ⟨[c], ⟨h1, h4⟩, .inr (.inl (Nat.le_refl 1))⟩

theorem safe_basic {digit : Char → Bool} (hd : DigitSane digit) (k : Nat) :
    SafeSpec k (basicSpec digit) := by
  have h0 : digit '\n' = false := digit_false hd (by decide) (by decide)
  refine ⟨?_, safe_quiet ?_ _, ?_, safe_quiet ?_ _, trivial, safe_chr _ _, trivial, safe_chr _ _,
    trivial, safe_chr _ _, trivial, safe_chr _ _, trivial, safe_chr _ _, ?_, safe_quiet ?_ _,
    trivial, safe_chr _ _, trivial⟩
  · simp [NoDollar, plus, lit]
  · simp [Quiet, plus, lit, h0]
  · simp [NoDollar, plus]
  · simp [Quiet, plus]
  · simp [NoDollar, plus, lit]
  · simp [Quiet, plus, lit]

theorem safe_python {digit : Char → Bool} (hd : DigitSane digit) :
    SafeSpec 0 (Language.pythonPreprocessor.spec digit) := by
  refine ⟨?_, ?_, ?_, safe_quiet ?_ _, safe_basic hd _⟩
  · simp [NoDollar, lit, stringRest, any]
  · intro p text t ht
    obtain ⟨q, v, hq, ha⟩ := pyString_ahead ht
    refine ⟨_, ha, .inr (.inr ?_)⟩
    rcases hq with rfl | rfl | rfl | rfl
    · exact ⟨'"', .inl rfl, by rw [List.getLast?_append_of_ne_nil _ (by simp)]; rfl⟩
    · exact ⟨'\'', .inr rfl, by rw [List.getLast?_append_of_ne_nil _ (by simp)]; rfl⟩
    · exact ⟨'"', .inl rfl, by rw [List.getLast?_append_of_ne_nil _ (by simp)]; rfl⟩
    · exact ⟨'\'', .inr rfl, by rw [List.getLast?_append_of_ne_nil _ (by simp)]; rfl⟩
  · simp [NoDollar, lit, noneOf]
  · simp [Quiet, lit, noneOf]

/-- Text that ends with a newline, with text without quotes behind it, is lexed separately. -/
theorem lex_extend {digit : Char → Bool} (hd : DigitSane digit) {z : Text} (hz : '"' ∉ z ∧ '\'' ∉ z) :
    ∀ (n : Nat) (t : Text), t.length ≤ n → t = [] ∨ t.getLast? = some '\n' → ∀ p,
      lexLoop (Language.pythonPreprocessor.spec digit) (t ++ z).length p (t ++ z)
        = lexLoop (Language.pythonPreprocessor.spec digit) t.length p t
          ++ lexLoop (Language.pythonPreprocessor.spec digit) z.length none z
  | _, [], _, _, p => by
    rw [List.nil_append, lexLoop_prev (prevFree_python digit) z.length p none z]
    simp [lexLoop]
  | 0, _ :: _, h, _, _ => by simp at h
  | n + 1, c :: cs, h, hn, p => by
    have hn := hn.resolve_left (by simp)
    obtain ⟨⟨ty, rest⟩, hm⟩ := matchSpec_total (spec_total digit .pythonPreprocessor) 0 p c cs
    obtain ⟨w, hw, ht⟩ := matchSpec_suffix hm
    dsimp only at ht
    have hme := matchSpec_extend hn hz (p := p) _ 0 (safe_python hd)
    rw [hm] at hme
    rw [lex_eq hme (w := w) (by rw [ht, List.append_assoc]) hw, lex_eq hm ht hw]
    have hl := congrArg List.length ht
    rw [List.length_cons, List.length_append] at hl
    have := List.length_pos_iff.mpr hw
    rw [List.length_cons] at h
    dsimp only
    rw [lex_extend hd hz n rest (by omega) ?_ _]
    · rfl
    · by_cases hr : rest = []
      · exact .inl hr
      · rw [ht, List.getLast?_append_of_ne_nil _ hr] at hn
        exact .inr hn

/-- A bracket is a token, whatever follows. -/
theorem lex_bracket {digit : Char → Bool} (hd : DigitSane digit) {c : Char}
    (hc : c ∈ ['(', ')', '[', ']', '{', '}', '\n']) (cs : Text) :
    ∃ ty, lex (Language.pythonPreprocessor.spec digit) (c :: cs)
      = (ty, [c]) :: lex (Language.pythonPreprocessor.spec digit) cs := by
  obtain ⟨⟨ty, rest⟩, hm⟩ := matchSpec_total (spec_total digit .pythonPreprocessor) 0 none c cs
  obtain ⟨w, hw, ht⟩ := matchSpec_suffix hm
  have hrest : rest = cs := by
    unfold Language.spec pythonStringsAndComments at hm
    simp only [List.cons_append, List.nil_append] at hm
    rcases matchSpec_cases hm with ⟨t, h1, -, he⟩ | ⟨hm, -⟩
    · obtain ⟨q, v, hq, ha⟩ := pyString_ahead h1
      have hr := ha.rest
      dsimp only at hr
      exfalso
      rcases hq with rfl | rfl | rfl | rfl <;> simp at hr <;> obtain ⟨rfl, -⟩ := hr <;> simp at hc
    · have hs : Starts (fun x => decide (x = '#')) (.seq (.cap (lit ['#'])) (.star false (noneOf ['\n']))) :=
        (starts_lit1 _).cap.seq (nullable_star _ _)
      rcases matchSpec_first hs hm with ⟨hp, -⟩ | ⟨h0, hm⟩
      · simp only [decide_eq_true_eq] at hp
        subst hp
        simp at hc
      · refine (matchSpec_basic hm).2 ?_ ?_ ?_
        · refine digit_false hd ?_ ?_ <;> simp only [List.mem_cons, List.not_mem_nil, or_false] at hc <;>
            rcases hc with rfl | rfl | rfl | rfl | rfl | rfl | rfl <;> decide
        · simp only [List.mem_cons, List.not_mem_nil, or_false] at hc
          rcases hc with rfl | rfl | rfl | rfl | rfl | rfl | rfl <;> decide
        · rintro rfl
          simp at hc
  subst hrest
  refine ⟨ty, ?_⟩
  rw [lex, lex_eq hm (w := [c]) rfl (by simp)]
  congr 1
  exact lexLoop_prev (prevFree_python digit) _ _ _ _

end RUSure.Lemmas
