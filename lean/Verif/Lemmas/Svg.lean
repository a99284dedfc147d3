import Verif.Spec.Drawing
import Verif.Props.Constraint
import Verif.Lemmas.EditShown
import Verif.Lemmas.RenderDag

/-!
# Lemmas on SVG documents
-/

namespace RUSure.Draw

open RUSure.Spec (tagsOf stripTags)
open RUSure.Props (tags_text escape_no_lt)

/-! ## The view box -/

theorem hull_box {b : Box} (hw : 0 ≤ b.width) (hh : 0 ≤ b.height) :
    Hull [⟨b.left, b.top⟩, ⟨b.left + b.width, b.top + b.height⟩] b := by
  refine ⟨?_, ⟨⟨b.left, b.top⟩, by simp, rfl⟩,
    ⟨⟨b.left + b.width, b.top + b.height⟩, by simp, rfl⟩, ⟨⟨b.left, b.top⟩, by simp, rfl⟩,
    ⟨⟨b.left + b.width, b.top + b.height⟩, by simp, rfl⟩⟩
  intro p hp
  simp only [List.mem_cons, List.not_mem_nil, or_false] at hp
  rcases hp with rfl | rfl <;> refine ⟨?_, ?_, ?_, ?_⟩ <;> dsimp only <;> linarith

theorem hull_union {ps qs : List Point} {b c : Box} (h1 : Hull ps b) (h2 : Hull qs c) :
    Hull (ps ++ qs) (b.union c) := by
  obtain ⟨hb, ⟨p1, m1, e1⟩, ⟨p2, m2, e2⟩, ⟨p3, m3, e3⟩, ⟨p4, m4, e4⟩⟩ := h1
  obtain ⟨hc, ⟨q1, k1, f1⟩, ⟨q2, k2, f2⟩, ⟨q3, k3, f3⟩, ⟨q4, k4, f4⟩⟩ := h2
  have hw : (b.union c).left + (b.union c).width = max (b.left + b.width) (c.left + c.width) := by
    simp only [Box.union, Box.fromBoundary, Box.right]; ring
  have hh : (b.union c).top + (b.union c).height = max (b.top + b.height) (c.top + c.height) := by
    simp only [Box.union, Box.fromBoundary, Box.bottom]; ring
  have hl : (b.union c).left = min b.left c.left := rfl
  have ht : (b.union c).top = min b.top c.top := rfl
  rw [Hull, hw, hh, hl, ht]
  refine ⟨?_, ?_, ?_, ?_, ?_⟩
  · intro p hp
    rcases List.mem_append.mp hp with hp | hp
    · obtain ⟨a1, a2, a3, a4⟩ := hb p hp
      exact ⟨min_le_iff.mpr (.inl a1), le_max_iff.mpr (.inl a2), min_le_iff.mpr (.inl a3),
        le_max_iff.mpr (.inl a4)⟩
    · obtain ⟨a1, a2, a3, a4⟩ := hc p hp
      exact ⟨min_le_iff.mpr (.inr a1), le_max_iff.mpr (.inr a2), min_le_iff.mpr (.inr a3),
        le_max_iff.mpr (.inr a4)⟩
  · rcases min_choice b.left c.left with h | h <;> rw [h]
    · exact ⟨p1, List.mem_append.mpr (.inl m1), e1⟩
    · exact ⟨q1, List.mem_append.mpr (.inr k1), f1⟩
  · rcases max_choice (b.left + b.width) (c.left + c.width) with h | h <;> rw [h]
    · exact ⟨p2, List.mem_append.mpr (.inl m2), e2⟩
    · exact ⟨q2, List.mem_append.mpr (.inr k2), f2⟩
  · rcases min_choice b.top c.top with h | h <;> rw [h]
    · exact ⟨p3, List.mem_append.mpr (.inl m3), e3⟩
    · exact ⟨q3, List.mem_append.mpr (.inr k3), f3⟩
  · rcases max_choice (b.top + b.height) (c.top + c.height) with h | h <;> rw [h]
    · exact ⟨p4, List.mem_append.mpr (.inl m4), e4⟩
    · exact ⟨q4, List.mem_append.mpr (.inr k4), f4⟩

theorem fold_min (f : Point → ℚ) (ps : List Point) (m : ℚ) :
    ps.foldl (fun m q => min m (f q)) m ≤ m
      ∧ (∀ q ∈ ps, ps.foldl (fun m q => min m (f q)) m ≤ f q)
      ∧ (ps.foldl (fun m q => min m (f q)) m = m
        ∨ ∃ q ∈ ps, f q = ps.foldl (fun m q => min m (f q)) m) := by
  induction ps generalizing m with
  | nil => exact ⟨le_refl _, fun _ h => (List.not_mem_nil h).elim, .inl rfl⟩
  | cons p ps ih =>
    obtain ⟨h1, h2, h3⟩ := ih (min m (f p))
    rw [List.foldl_cons]
    refine ⟨h1.trans (min_le_left _ _), ?_, ?_⟩
    · intro q hq
      rcases List.mem_cons.mp hq with rfl | hq
      · exact h1.trans (min_le_right _ _)
      · exact h2 q hq
    · rcases h3 with h3 | ⟨q, hq, e⟩
      · rw [h3]
        rcases min_choice m (f p) with h | h
        · exact .inl h
        · exact .inr ⟨p, List.mem_cons_self .., h.symm⟩
      · exact .inr ⟨q, List.mem_cons_of_mem _ hq, e⟩

theorem fold_max (f : Point → ℚ) (ps : List Point) (m : ℚ) :
    m ≤ ps.foldl (fun m q => max m (f q)) m
      ∧ (∀ q ∈ ps, f q ≤ ps.foldl (fun m q => max m (f q)) m)
      ∧ (ps.foldl (fun m q => max m (f q)) m = m
        ∨ ∃ q ∈ ps, f q = ps.foldl (fun m q => max m (f q)) m) := by
  induction ps generalizing m with
  | nil => exact ⟨le_refl _, fun _ h => (List.not_mem_nil h).elim, .inl rfl⟩
  | cons p ps ih =>
    obtain ⟨h1, h2, h3⟩ := ih (max m (f p))
    rw [List.foldl_cons]
    refine ⟨(le_max_left _ _).trans h1, ?_, ?_⟩
    · intro q hq
      rcases List.mem_cons.mp hq with rfl | hq
      · exact (le_max_right _ _).trans h1
      · exact h2 q hq
    · rcases h3 with h3 | ⟨q, hq, e⟩
      · rw [h3]
        rcases max_choice m (f p) with h | h
        · exact .inl h
        · exact .inr ⟨p, List.mem_cons_self .., h.symm⟩
      · exact .inr ⟨q, List.mem_cons_of_mem _ hq, e⟩

theorem hull_line {ps : List Point} {b : Box} (h : lineBounds ps = some b) : Hull ps b := by
  cases ps with
  | nil => cases h
  | cons p ps =>
    simp only [lineBounds, Option.some.injEq] at h
    subst h
    obtain ⟨a1, a2, a3⟩ := fold_min Point.x ps p.x
    obtain ⟨b1, b2, b3⟩ := fold_max Point.x ps p.x
    obtain ⟨c1, c2, c3⟩ := fold_min Point.y ps p.y
    obtain ⟨d1, d2, d3⟩ := fold_max Point.y ps p.y
    simp only [Hull, Box.fromBoundary, add_sub_cancel]
    refine ⟨?_, ?_, ?_, ?_, ?_⟩
    · intro q hq
      rcases List.mem_cons.mp hq with rfl | hq
      · exact ⟨a1, b1, c1, d1⟩
      · exact ⟨a2 q hq, b2 q hq, c2 q hq, d2 q hq⟩
    · rcases a3 with e | ⟨q, hq, e⟩
      · exact ⟨p, List.mem_cons_self .., e.symm⟩
      · exact ⟨q, List.mem_cons_of_mem _ hq, e⟩
    · rcases b3 with e | ⟨q, hq, e⟩
      · exact ⟨p, List.mem_cons_self .., e.symm⟩
      · exact ⟨q, List.mem_cons_of_mem _ hq, e⟩
    · rcases c3 with e | ⟨q, hq, e⟩
      · exact ⟨p, List.mem_cons_self .., e.symm⟩
      · exact ⟨q, List.mem_cons_of_mem _ hq, e⟩
    · rcases d3 with e | ⟨q, hq, e⟩
      · exact ⟨p, List.mem_cons_self .., e.symm⟩
      · exact ⟨q, List.mem_cons_of_mem _ hq, e⟩

/-- The bounds are those of what has been drawn. -/
def HullOf (pts : List Point) (b : Option Box) : Prop :=
  match b with
  | none => pts = []
  | some b => Hull pts b

theorem hull_grow {pts qs : List Point} {s : SvgState} {c : Box} (h : HullOf pts s.bounds)
    (hc : Hull qs c) : HullOf (pts ++ qs) (s.grow c).bounds := by
  unfold SvgState.grow
  cases hb : s.bounds with
  | none =>
    rw [hb] at h
    simp only [HullOf] at h ⊢
    rw [h]
    exact hc
  | some b =>
    rw [hb] at h
    exact hull_union h hc

theorem hull_point (p : Point) : Hull [p] ⟨p.x, p.y, 0, 0⟩ := by
  refine ⟨?_, ⟨p, by simp, rfl⟩, ⟨p, by simp, (add_zero _).symm⟩, ⟨p, by simp, rfl⟩,
    ⟨p, by simp, (add_zero _).symm⟩⟩
  intro q hq
  rw [List.mem_singleton] at hq
  subst hq
  simp

section
variable {num : ℚ → Text}

theorem hull_call {pts : List Point} {s s' : SvgState} {c : Call} (h : HullOf pts s.bounds)
    (hc : SizesOk c) (he : s.call num c = some s') : HullOf (pts ++ corners c) s'.bounds := by
  cases c with
  | style css => cases he; simpa [corners] using h
  | custom svg => cases he; simpa [corners] using h
  | boxLabel b t ho size tags => cases he; exact hull_grow h (hull_box hc.1 hc.2)
  | container b tags => cases he; exact hull_grow h (hull_box hc.1 hc.2)
  | openGroup ho tags => cases he; simpa [corners] using h
  | line ps =>
    simp only [SvgState.call] at he
    split at he
    · cases he
    · rename_i b hb
      cases he
      exact hull_grow h (hull_line hb)
  | dot p =>
    cases he
    have : Box.fromBoundary p.x p.y p.x p.y = ⟨p.x, p.y, 0, 0⟩ := by simp [Box.fromBoundary]
    rw [this]
    exact hull_grow h (hull_point p)
  | pointLabel p t size dir => cases he; exact hull_grow h (hull_point p)
  | closeGroup => cases he; simpa [corners] using h

theorem hull_calls {cs : List Call} {pts : List Point} {s s' : SvgState} (h : HullOf pts s.bounds)
    (hc : ∀ c ∈ cs, SizesOk c) (he : s.calls num cs = some s') :
    HullOf (pts ++ cs.flatMap corners) s'.bounds := by
  induction cs generalizing pts s with
  | nil =>
    cases he
    simpa using h
  | cons c cs ih =>
    simp only [SvgState.calls] at he
    split at he
    · cases he
    · rename_i s1 h1
      have := ih (hull_call h (hc c (List.mem_cons_self ..)) h1)
        (fun d hd => hc d (List.mem_cons_of_mem _ hd)) he
      rwa [List.append_assoc, ← List.flatMap_cons] at this

/-! ## Items -/

/-- The items that a call adds. -/
def itemOf (num : ℚ → Text) (withHover : Bool) : Call → List (List Piece)
  | .style _ => []
  | .custom svg => [[.layout svg]]
  | .boxLabel b t hover size tags => [boxLabelItem num withHover b t hover size tags]
  | .container b tags => [containerItem num b tags]
  | .openGroup hover tags => [[layout0, .tag ("g class=\"".toList ++ joinTags tags ++ ['"']), layout1]
        ++ hoverTitle withHover hover ++ [layout2]]
  | .line ps => [lineItem num ps]
  | .dot p => [dotItem num p]
  | .pointLabel p t size dir => [pointLabelItem num p t size dir]
  | .closeGroup => [[layout0, .tag "/g".toList, layout2]]

/-- The style sheets that a call adds. -/
def stylesOf : Call → List Text
  | .style css => [css]
  | _ => []

theorem call_items {s s' : SvgState} {c : Call} (he : s.call num c = some s') :
    s'.items = s.items ++ itemOf num s.withHover c ∧ s'.styles = s.styles ++ stylesOf c
      ∧ s'.withHover = s.withHover := by
  cases c with
  | line ps =>
    simp only [SvgState.call] at he
    split at he
    · cases he
    · cases he
      exact ⟨rfl, (List.append_nil _).symm, rfl⟩
  | style css => cases he; exact ⟨(List.append_nil _).symm, rfl, rfl⟩
  | _ => cases he; exact ⟨rfl, (List.append_nil _).symm, rfl⟩

theorem calls_items {cs : List Call} {s s' : SvgState} (he : s.calls num cs = some s') :
    s'.items = s.items ++ cs.flatMap (itemOf num s.withHover)
      ∧ s'.styles = s.styles ++ cs.flatMap stylesOf ∧ s'.withHover = s.withHover := by
  induction cs generalizing s with
  | nil => cases he; simp
  | cons c cs ih =>
    simp only [SvgState.calls] at he
    split at he
    · cases he
    · rename_i s1 h1
      obtain ⟨a1, a2, a3⟩ := call_items h1
      obtain ⟨b1, b2, b3⟩ := ih he
      rw [b1, b2, b3, a1, a2, a3]
      simp

theorem calls_exist {cs : List Call} (s : SvgState) (h : ∀ ps, Call.line ps ∈ cs → ps ≠ []) :
    ∃ s', s.calls num cs = some s' := by
  induction cs generalizing s with
  | nil => exact ⟨s, rfl⟩
  | cons c cs ih =>
    have h1 : ∃ s1, s.call num c = some s1 := by
      cases c with
      | line ps =>
        cases ps with
        | nil => exact ((h [] (List.mem_cons_self ..)) rfl).elim
        | cons p ps => exact ⟨_, rfl⟩
      | _ => exact ⟨_, rfl⟩
    obtain ⟨s1, h1⟩ := h1
    obtain ⟨s2, h2⟩ := ih s1 fun ps hp => h ps (List.mem_cons_of_mem _ hp)
    exact ⟨s2, by simp only [SvgState.calls, h1, h2]⟩

end

/-! ## Tags of pieces -/

/-- Whether a scan of the text ends inside of a tag. -/
def insideAfter : Bool → Text → Bool
  | b, [] => b
  | false, c :: r => insideAfter (c == '<') r
  | true, c :: r => insideAfter (c != '>') r

theorem tags_closed {l : Text} (cur : Option Text) (h : insideAfter cur.isSome l = false) (r : Text) :
    tagsOf cur (l ++ r) = tagsOf cur l ++ tagsOf none r := by
  induction l generalizing cur with
  | nil =>
    cases cur with
    | none => simp [tagsOf]
    | some t => simp [insideAfter] at h
  | cons c l ih =>
    cases cur with
    | none =>
      rw [List.cons_append, tagsOf, tagsOf]
      by_cases hc : c = '<'
      · rw [if_pos hc, if_pos hc]
        refine ih (some []) ?_
        simpa [insideAfter, hc] using h
      · rw [if_neg hc, if_neg hc]
        refine ih none ?_
        have : (c == '<') = false := by simpa using hc
        simpa [insideAfter, this] using h
    | some t =>
      rw [List.cons_append, tagsOf, tagsOf]
      by_cases hc : c = '>'
      · rw [if_pos hc, if_pos hc, List.cons_append]
        congr 1
        refine ih none ?_
        simpa [insideAfter, hc] using h
      · rw [if_neg hc, if_neg hc]
        refine ih (some (t ++ [c])) ?_
        have : (c != '>') = true := by simpa using hc
        simpa [insideAfter, this] using h

theorem tags_content {l : Text} (h : '>' ∉ l) (cur r : Text) :
    tagsOf (some cur) (l ++ '>' :: r) = (cur ++ l) :: tagsOf none r := by
  induction l generalizing cur with
  | nil => simp [tagsOf]
  | cons c l ih =>
    simp only [List.mem_cons, not_or] at h
    rw [List.cons_append, tagsOf, if_neg (Ne.symm h.1), ih h.2]
    simp

/-- The tags of a piece. -/
def pieceTags : Piece → List Text
  | .tag t => [t]
  | .layout t => tagsOf none t
  | .shown _ => []

/-- Pieces that are closed. -/
def PieceOk : Piece → Prop
  | .tag t => '>' ∉ t
  | .layout t => insideAfter false t = false
  | .shown _ => True

theorem tags_piece {p : Piece} (h : PieceOk p) (r : Text) :
    tagsOf none (p.write ++ r) = pieceTags p ++ tagsOf none r := by
  cases p with
  | tag t =>
    rw [Piece.write, List.cons_append, tagsOf, if_pos rfl, List.append_assoc, List.singleton_append,
      tags_content h]
    rfl
  | layout t => exact tags_closed none h r
  | shown t => exact tags_text (escape_no_lt t) r

theorem tags_pieces {ps : List Piece} (h : ∀ p ∈ ps, PieceOk p) :
    tagsOf none (ps.flatMap Piece.write) = ps.flatMap pieceTags := by
  induction ps with
  | nil => rfl
  | cons p ps ih =>
    rw [List.flatMap_cons, tags_piece (h p (List.mem_cons_self ..)),
      ih fun q hq => h q (List.mem_cons_of_mem _ hq), List.flatMap_cons]

/-! ## Nesting -/

theorem nest_append (a b st : List Text) : nest st (a ++ b) = (nest st a).bind (nest · b) := by
  induction a generalizing st with
  | nil => rfl
  | cons t a ih =>
    rw [List.cons_append, nest, nest]
    cases tagStep st t with
    | none => rfl
    | some st' => exact ih st'

theorem nest_close (n : Text) (st ts : List Text) : nest (n :: st) (('/' :: n) :: ts) = nest st ts := by
  simp [nest, tagStep]

theorem nest_self {t : Text} {c : Char} (h1 : t.head? = some c) (hc : c ≠ '/')
    (h2 : t.getLast? = some '/') (st ts : List Text) : nest st (t :: ts) = nest st ts := by
  rw [nest, tagStep.eq_def, if_neg (by rw [h1]; simpa using hc), if_pos h2]
  rfl

theorem nest_open {t n : Text} {c d : Char} (h1 : t.head? = some c) (hc : c ≠ '/')
    (h2 : t.getLast? = some d) (hd : d ≠ '/') (hn : tagName t = n) (st ts : List Text) :
    nest st (t :: ts) = nest (n :: st) ts := by
  rw [nest, tagStep.eq_def, if_neg (by rw [h1]; simpa using hc), if_neg (by rw [h2]; simpa using hd), hn]
  rfl

theorem head_append {a b : Text} {c : Char} (h : a.head? = some c) : (a ++ b).head? = some c := by
  rw [List.head?_append, h]
  rfl

theorem last_append {a b : Text} {c : Char} (h : b.getLast? = some c) :
    (a ++ b).getLast? = some c := by
  rw [List.getLast?_append, h]
  rfl

theorem name_append {a b : Text} (h : a.any (fun c => c == ' ' || c == '\n') = true) :
    (a ++ b).any (fun c => c == ' ' || c == '\n') = true ∧ tagName (a ++ b) = tagName a := by
  refine ⟨by rw [List.any_append, h]; rfl, ?_⟩
  induction a with
  | nil => simp at h
  | cons c a ih =>
    rw [tagName, tagName, List.cons_append, List.takeWhile_cons, List.takeWhile_cons]
    split
    · congr 1
      refine ih ?_
      rw [List.any_cons, Bool.or_eq_true] at h
      rcases h with h | h
      · rename_i h'
        simp only [Bool.and_eq_true, bne_iff_ne, Bool.or_eq_true, beq_iff_eq] at h h'
        rcases h with h | h
        · exact (h'.1 h).elim
        · exact (h'.2 h).elim
      · exact h
    · rfl

/-- Names of long tags are those of their beginnings. -/
theorem name_of {a b n : Text} (h : a.any (fun c => c == ' ' || c == '\n') = true ∧ tagName a = n) :
    (a ++ b).any (fun c => c == ' ' || c == '\n') = true ∧ tagName (a ++ b) = n := by
  have := name_append (b := b) h.1
  exact ⟨this.1, this.2.trans h.2⟩

theorem name_done {a n : Text}
    (h : a.any (fun c => c == ' ' || c == '\n') = true ∧ tagName a = n) : tagName a = n := h.2

theorem gt_append {a b : Text} (ha : '>' ∉ a) (hb : '>' ∉ b) : '>' ∉ a ++ b :=
  fun h => (List.mem_append.mp h).elim ha hb

/-! ## Documents are well nested -/

/-- Closed pieces that lead from some open elements to others. -/
structure Moves (ps : List Piece) (st st' : List Text) : Prop where
  ok : ∀ p ∈ ps, PieceOk p
  nested : nest st (ps.flatMap pieceTags) = some st'

theorem Moves.nil (st : List Text) : Moves [] st st := ⟨fun _ h => (List.not_mem_nil h).elim, rfl⟩

theorem Moves.append {ps qs : List Piece} {a b c : List Text} (h1 : Moves ps a b) (h2 : Moves qs b c) :
    Moves (ps ++ qs) a c := by
  refine ⟨fun p hp => (List.mem_append.mp hp).elim (h1.ok p) (h2.ok p), ?_⟩
  rw [List.flatMap_append, nest_append, h1.nested]
  exact h2.nested

theorem Moves.cons {p : Piece} {ps : List Piece} {a b c : List Text} (h1 : Moves [p] a b)
    (h2 : Moves ps b c) : Moves (p :: ps) a c := h1.append h2

theorem inside_text {l : Text} (h : '<' ∉ l) : insideAfter false l = false := by
  induction l with
  | nil => rfl
  | cons c l ih =>
    simp only [List.mem_cons, not_or] at h
    have : (c == '<') = false := by simpa using Ne.symm h.1
    rw [insideAfter, this]
    exact ih h.2

theorem Moves.blank {l : Text} (h : '<' ∉ l) (st : List Text) : Moves [.layout l] st st := by
  refine ⟨fun p hp => ?_, ?_⟩
  · rw [List.mem_singleton] at hp
    subst hp
    exact inside_text h
  · have := tags_text h []
    rw [List.append_nil] at this
    rw [List.flatMap_cons, List.flatMap_nil, List.append_nil, pieceTags, this]
    rfl

theorem Moves.text (t : Text) (st : List Text) : Moves [.shown t] st st := by
  refine ⟨fun p hp => ?_, rfl⟩
  rw [List.mem_singleton] at hp
  subst hp
  trivial

theorem Moves.ofTag {t : Text} (h : '>' ∉ t) {a b : List Text} (hn : nest a [t] = some b) :
    Moves [.tag t] a b := by
  refine ⟨fun p hp => ?_, hn⟩
  rw [List.mem_singleton] at hp
  subst hp
  exact h

theorem Moves.close {n t : Text} (ht : t = '/' :: n) (h : '>' ∉ t) (st : List Text) :
    Moves [.tag t] (n :: st) st := Moves.ofTag h (by rw [ht, nest_close]; rfl)

theorem Moves.join {sep : Piece} {ls : List (List Piece)} {st : List Text} (hs : Moves [sep] st st)
    (h : ∀ l ∈ ls, Moves l st st) : Moves (joinPieces sep ls) st st := by
  induction ls with
  | nil => exact Moves.nil st
  | cons l ls ih =>
    cases ls with
    | nil => exact h l (List.mem_cons_self ..)
    | cons k ls =>
      exact (h l (List.mem_cons_self ..)).append
        (hs.cons (ih fun m hm => h m (List.mem_cons_of_mem _ hm)))

theorem moves0 (st : List Text) : Moves [layout0] st st := .blank (by decide +kernel) st
theorem moves1 (st : List Text) : Moves [layout1] st st := .blank (by decide +kernel) st
theorem moves2 (st : List Text) : Moves [layout2] st st := .blank (by decide +kernel) st

theorem moves_g (st : List Text) : Moves [.tag "g".toList] st ("g".toList :: st) :=
  .ofTag (by decide +kernel) (nest_open (c := 'g') (d := 'g') (by decide +kernel) (by decide)
    (by decide +kernel) (by decide) (by decide +kernel) st [])

theorem moves_end (st : List Text) : Moves [.tag "/g".toList] ("g".toList :: st) st :=
  .close (by decide +kernel) (by decide +kernel) st

theorem moves_hover (w : Bool) (h : Option Text) (st : List Text) : Moves (hoverTitle w h) st st := by
  cases h with
  | none => exact .nil st
  | some t =>
    rw [hoverTitle]
    split
    · exact (Moves.ofTag (by decide +kernel) (nest_open (c := 't') (d := 'e') (by decide +kernel)
        (by decide) (by decide +kernel) (by decide) (n := "title".toList) (by decide +kernel) st [])).cons
        ((Moves.text t _).cons (.close (by decide +kernel) (by decide +kernel) st))
    · exact .nil st

theorem joinTags_gt {tags : List Text} (h : ∀ t ∈ tags, '>' ∉ t) : '>' ∉ joinTags tags := by
  induction tags with
  | nil => exact List.not_mem_nil
  | cons t ts ih =>
    cases ts with
    | nil => exact h t (List.mem_cons_self ..)
    | cons u ts =>
      rw [joinTags, List.mem_append, List.mem_cons, not_or, not_or]
      · exact ⟨h t (List.mem_cons_self ..), by decide, ih fun x hx => h x (List.mem_cons_of_mem _ hx)⟩
      · simp

section
variable {num : ℚ → Text} (hn : ∀ q, '>' ∉ num q)
include hn

theorem moves_rect (b : Box) {tags : List Text} (ht : ∀ t ∈ tags, '>' ∉ t) {cls : Text} (hc : '>' ∉ cls)
    (st : List Text) : Moves [.tag (rectTag num b tags cls)] st st := by
  unfold rectTag
  exact .ofTag (gt_append (gt_append (gt_append (gt_append (gt_append (gt_append (gt_append
    (gt_append (gt_append (gt_append (gt_append (gt_append (by decide +kernel) (hn _))
    (by decide +kernel)) (hn _)) (by decide +kernel)) (hn _)) (by decide +kernel)) (hn _))
    (by decide +kernel)) (joinTags_gt ht)) (by decide +kernel)) hc) (by decide +kernel))
    (nest_self (c := 'r') (head_append (head_append (head_append (head_append (head_append
    (head_append (head_append (head_append (head_append (head_append (head_append (head_append
    (by decide +kernel))))))))))))) (by decide) (last_append (by decide +kernel)) st [])

theorem boxText_attrs (x y size : ℚ) (st : List Text) :
    Moves [.tag (boxTextTag num x y size)] st ("text".toList :: st) := by
  unfold boxTextTag
  exact .ofTag (gt_append (gt_append (gt_append (gt_append (gt_append (gt_append
    (by decide +kernel) (hn _)) (by decide +kernel)) (hn _)) (by decide +kernel)) (hn _))
    (by decide +kernel)) (nest_open (c := 't') (d := '"') (head_append (head_append (head_append
    (head_append (head_append (head_append (by decide +kernel))))))) (by decide) (last_append
    (by decide +kernel)) (by decide) (name_done (name_of (name_of (name_of (name_of (name_of
    (name_of (by decide +kernel)))))))) st [])

theorem pointText_attrs (x y size : ℚ) (dir : Direction) (st : List Text) :
    Moves [.tag (pointTextTag num x y size (horizontalOffset size dir).1)] st ("text".toList :: st) := by
  have ha : '>' ∉ (horizontalOffset size dir).1 := by
    have e : (horizontalOffset size dir).1 = (horizontalOffset 0 dir).1 := by cases dir <;> rfl
    rw [e]
    cases dir <;> decide +kernel
  unfold pointTextTag
  exact .ofTag (gt_append (gt_append (gt_append (gt_append (gt_append (gt_append (gt_append
    (gt_append (by decide +kernel) (hn _)) (by decide +kernel)) (hn _)) (by decide +kernel)) (hn
    _)) (by decide +kernel)) ha) (by decide +kernel)) (nest_open (c := 't') (d := '"')
    (head_append (head_append (head_append (head_append (head_append (head_append (head_append
    (head_append (by decide +kernel))))))))) (by decide) (last_append (by decide +kernel))
    (by decide) (name_done (name_of (name_of (name_of (name_of (name_of (name_of (name_of
    (name_of (by decide +kernel)))))))))) st [])

theorem moves_boxLabel (w : Bool) (b : Box) (t : Text) (h : Option Text) (size : ℚ) {tags : List Text}
    (ht : ∀ t ∈ tags, '>' ∉ t) (st : List Text) : Moves (boxLabelItem num w b t h size tags) st st := by
  unfold boxLabelItem
  dsimp only
  refine Moves.append (b := "g".toList :: st) (Moves.append (b := "g".toList :: st)
    (Moves.append (b := "g".toList :: st) (Moves.append (b := "g".toList :: st) ?_
    (moves_hover w h _)) ?_) ?_) ?_
  · exact (moves0 _).cons ((moves_g _).cons (moves1 _))
  · exact (moves1 _).cons ((moves_rect hn b ht (by decide +kernel) _).cons (moves1 _))
  · refine Moves.join (.blank (by decide +kernel) _) fun l hl => ?_
    obtain ⟨x, -, rfl⟩ := List.mem_map.mp hl
    exact (boxText_attrs hn _ _ _ _).cons ((Moves.text _ _).cons
      (.close (by decide +kernel) (by decide +kernel) _))
  · exact (moves0 _).cons ((moves_end _).cons (moves2 _))

theorem moves_pointLabel (p : Point) (t : Text) (size : ℚ) (dir : Direction) (st : List Text) :
    Moves (pointLabelItem num p t size dir) st st := by
  unfold pointLabelItem
  dsimp only
  refine Moves.append (b := "g".toList :: st) (Moves.append (b := "g".toList :: st) ?_ ?_) ?_
  · exact (moves0 _).cons ((moves_g _).cons ((moves1 _).cons (moves1 _)))
  · refine Moves.join (.blank (by decide +kernel) _) fun l hl => ?_
    obtain ⟨x, -, rfl⟩ := List.mem_map.mp hl
    exact (pointText_attrs hn _ _ _ _ _).cons ((Moves.text _ _).cons
      (.close (by decide +kernel) (by decide +kernel) _))
  · exact (moves0 _).cons ((moves_end _).cons (moves2 _))

theorem moves_container (b : Box) {tags : List Text} (ht : ∀ t ∈ tags, '>' ∉ t) (st : List Text) :
    Moves (containerItem num b tags) st st :=
  (moves0 _).cons ((moves_g _).cons ((moves1 _).cons
    ((moves_rect hn b ht (by decide +kernel) _).cons ((moves0 _).cons ((moves_end _).cons (moves2 _))))))

theorem pathSpec_gt (ps : List Point) : '>' ∉ pathSpec num ps := by
  cases ps with
  | nil => exact List.not_mem_nil
  | cons p ps =>
    unfold pathSpec
    have h : '>' ∉ ps.flatMap fun q => " L ".toList ++ num q.x ++ [' '] ++ num q.y := by
      intro h
      obtain ⟨q, -, hq⟩ := List.mem_flatMap.mp h
      exact gt_append (gt_append (gt_append (by decide +kernel) (hn _)) (by decide +kernel)) (hn _) hq
    exact gt_append (gt_append (gt_append (gt_append (by decide +kernel) (hn _)) (by decide +kernel)) (hn _)) h

theorem moves_line (ps : List Point) (st : List Text) : Moves (lineItem num ps) st st := by
  unfold lineItem
  exact (moves0 _).cons ((moves_g _).cons ((moves1 _).cons ((moves1 _).cons
    (Moves.cons (b := "g".toList :: st)
      (.ofTag (gt_append (gt_append (gt_append (by decide +kernel) (pathSpec_gt hn ps))
        (by decide +kernel)) (by decide +kernel)) (nest_self (c := 'p') (head_append (head_append
        (head_append (by decide +kernel)))) (by decide) (last_append (by decide +kernel)) _ []))
      ((moves0 _).cons ((moves_end _).cons (moves2 _)))))))

theorem moves_dot (p : Point) (st : List Text) : Moves (dotItem num p) st st := by
  unfold dotItem
  exact (moves0 _).cons ((moves_g _).cons ((moves1 _).cons ((moves1 _).cons
    (Moves.cons (b := "g".toList :: st)
      (.ofTag (gt_append (gt_append (gt_append (gt_append (by decide +kernel) (hn _))
        (by decide +kernel)) (hn _)) (by decide +kernel)) (nest_self (c := 'c') (head_append
        (head_append (head_append (head_append (by decide +kernel))))) (by decide) (last_append
        (by decide +kernel)) _ []))
      ((moves0 _).cons ((moves_end _).cons (moves2 _)))))))

/-- The tags of the filter in between. -/
def filterTags : List Text := (tagsOf none hoverFilter).tail.dropLast

omit hn in
theorem filter_tags : tagsOf none hoverFilter
    = ("filter id=\"hoverhighlight\"".toList :: filterTags) ++ ['/' :: "filter".toList] := by
  decide +kernel

omit hn in
theorem nest_selfs {ts : List Text} (h : ∀ t ∈ ts, t.head? = some 'f' ∧ t.getLast? = some '/')
    (st us : List Text) : nest st (ts ++ us) = nest st us := by
  induction ts with
  | nil => rfl
  | cons t ts ih =>
    rw [List.cons_append, nest_self (h t (List.mem_cons_self ..)).1 (by decide)
      (h t (List.mem_cons_self ..)).2]
    exact ih fun u hu => h u (List.mem_cons_of_mem _ hu)

omit hn in
theorem filter_nest {f n : Text} {ts : List Text} (st : List Text)
    (hf : f.head? = some 'f' ∧ f.getLast? = some '"' ∧ tagName f = n)
    (h : ∀ t ∈ ts, t.head? = some 'f' ∧ t.getLast? = some '/') :
    nest st ((f :: ts) ++ ['/' :: n]) = some st := by
  rw [List.cons_append, nest_open hf.1 (by decide) hf.2.1 (by decide) hf.2.2, nest_selfs h, nest_close]
  rfl

omit hn in
theorem moves_layout {l f n : Text} {ts : List Text} (h1 : insideAfter false l = false)
    (h2 : tagsOf none l = (f :: ts) ++ ['/' :: n])
    (hf : f.head? = some 'f' ∧ f.getLast? = some '"' ∧ tagName f = n)
    (h : ∀ t ∈ ts, t.head? = some 'f' ∧ t.getLast? = some '/') (st : List Text) :
    Moves [.layout l] st st := by
  refine ⟨fun p hp => ?_, ?_⟩
  · rw [List.mem_singleton] at hp
    subst hp
    exact h1
  · rw [List.flatMap_cons, List.flatMap_nil, List.append_nil, pieceTags, h2]
    exact filter_nest st hf h

omit hn in
theorem filter_closed : insideAfter false hoverFilter = false := by decide +kernel

omit hn in
theorem filter_inner : ∀ t ∈ filterTags, t.head? = some 'f' ∧ t.getLast? = some '/' := by decide +kernel

omit hn in
theorem moves_filter (st : List Text) : Moves [.layout hoverFilter] st st :=
  moves_layout filter_closed filter_tags (by decide +kernel) filter_inner st

omit hn in
theorem moves_group (w : Bool) (h : Option Text) {tags : List Text} (ht : ∀ t ∈ tags, '>' ∉ t)
    (st : List Text) : Moves ([layout0, .tag ("g class=\"".toList ++ joinTags tags ++ ['"']), layout1]
        ++ hoverTitle w h ++ [layout2]) st ("g".toList :: st) := by
  exact ((Moves.cons (moves0 _) (Moves.cons (b := "g".toList :: st)
    (.ofTag (gt_append (gt_append (by decide +kernel) (joinTags_gt ht)) (by decide +kernel))
      (nest_open (c := 'g') (d := '"') (head_append (head_append (by decide +kernel)))
      (by decide) (last_append (by decide +kernel)) (by decide) (name_done (name_of (name_of
      (by decide +kernel)))) st [])) (moves1 _))).append (moves_hover w h _)).append (moves2 _)

omit hn in
theorem moves_stop (st : List Text) :
    Moves [layout0, .tag "/g".toList, layout2] ("g".toList :: st) st :=
  (moves0 _).cons ((moves_end _).cons (moves2 _))

/-- Calls that do not open or close groups. -/
theorem moves_call (w : Bool) {c : Call} (hc : Tame c) (ho : ∀ h ts, c ≠ .openGroup h ts)
    (hs : c ≠ .closeGroup) (st : List Text) : ∀ l ∈ itemOf num w c, Moves l st st := by
  intro l hl
  cases c with
  | style css => cases hl
  | custom svg =>
    rw [itemOf, List.mem_singleton] at hl
    subst hl
    rw [show svg = hoverFilter from hc]
    exact moves_filter st
  | boxLabel b t hov size tags =>
    rw [itemOf, List.mem_singleton] at hl
    subst hl
    exact moves_boxLabel hn w b t hov size hc st
  | container b tags =>
    rw [itemOf, List.mem_singleton] at hl
    subst hl
    exact moves_container hn b hc st
  | openGroup h ts => exact (ho h ts rfl).elim
  | line ps =>
    rw [itemOf, List.mem_singleton] at hl
    subst hl
    exact moves_line hn ps st
  | dot p =>
    rw [itemOf, List.mem_singleton] at hl
    subst hl
    exact moves_dot hn p st
  | pointLabel p t size dir =>
    rw [itemOf, List.mem_singleton] at hl
    subst hl
    exact moves_pointLabel hn p t size dir st
  | closeGroup => exact (hs rfl).elim

/-- Moves of one item after another. -/
inductive MovesList : List (List Piece) → List Text → List Text → Prop
  | nil (st : List Text) : MovesList [] st st
  | cons {l : List Piece} {ls : List (List Piece)} {a b c : List Text} (h : Moves l a b)
    (t : MovesList ls b c) : MovesList (l :: ls) a c

omit hn in
theorem MovesList.append {ls ks : List (List Piece)} {a b c : List Text} (h1 : MovesList ls a b)
    (h2 : MovesList ks b c) : MovesList (ls ++ ks) a c := by
  induction h1 with
  | nil => exact h2
  | cons h _ ih => exact .cons h (ih h2)

omit hn in
theorem MovesList.join {sep : Piece} (hs : ∀ st, Moves [sep] st st) {ls : List (List Piece)}
    {a b : List Text} (h : MovesList ls a b) : Moves (joinPieces sep ls) a b := by
  induction h with
  | nil => exact .nil _
  | cons h t ih =>
    cases t with
    | nil => exact h
    | cons h' t' => exact h.append ((hs _).cons ih)

omit hn in
theorem MovesList.same {ls : List (List Piece)} {st : List Text} (h : ∀ l ∈ ls, Moves l st st) :
    MovesList ls st st := by
  induction ls with
  | nil => exact .nil st
  | cons l ls ih =>
    exact .cons (h l (List.mem_cons_self ..)) (ih fun k hk => h k (List.mem_cons_of_mem _ hk))

theorem moves_calls (w : Bool) {cs : List Call} (hb : Balanced cs) (ht : ∀ c ∈ cs, Tame c)
    (st : List Text) : MovesList (cs.flatMap (itemOf num w)) st st := by
  induction hb generalizing st with
  | nil => exact .nil st
  | draw c cs h1 h2 _ ih =>
    rw [List.flatMap_cons]
    exact (MovesList.same (moves_call hn w (ht c (List.mem_cons_self ..)) h1 h2 st)).append
      (ih (fun d hd => ht d (List.mem_cons_of_mem _ hd)) st)
  | group h ts inner cs _ _ ih1 ih2 =>
    rw [List.flatMap_cons, List.flatMap_append, List.flatMap_cons]
    refine MovesList.append (.cons (moves_group w h ?_ st) (.nil _)) ((ih1 ?_ _).append
      (MovesList.append (.cons (moves_stop st) (.nil _)) (ih2 ?_ st)))
    · exact ht (.openGroup h ts) (List.mem_cons_self ..)
    · exact fun d hd => ht d (List.mem_cons_of_mem _ (List.mem_append_left _ hd))
    · exact fun d hd => ht d (List.mem_cons_of_mem _ (List.mem_append_right _ (List.mem_cons_of_mem _ hd)))

omit hn in
theorem moves_open {t n : Text} {c d : Char} (h : '>' ∉ t) (h1 : t.head? = some c) (hc : c ≠ '/')
    (h2 : t.getLast? = some d) (hd : d ≠ '/') (hn : tagName t = n) (st : List Text) :
    Moves [.tag t] st (n :: st) := .ofTag h (nest_open h1 hc h2 hd hn st [])

omit hn in
theorem moves_self {t : Text} {c : Char} (h : '>' ∉ t) (h1 : t.head? = some c) (hc : c ≠ '/')
    (h2 : t.getLast? = some '/') (st : List Text) :
    Moves [.tag t] st st := .ofTag h (nest_self h1 hc h2 st [])

theorem moves_svg (v : Box) (st : List Text) :
    Moves [.tag (svgTag num v)] st ("svg".toList :: st) := by
  unfold svgTag
  exact moves_open (c := 's') (d := '"') (gt_append (gt_append (gt_append (gt_append (gt_append
    (gt_append (gt_append (gt_append (by decide +kernel) (hn _)) (by decide)) (hn _)) (by decide)) (hn _))
    (by decide)) (hn _)) (by decide)) (head_append (head_append (head_append (head_append (head_append
    (head_append (head_append (head_append (by decide +kernel))))))))) (by decide)
    (last_append (by decide)) (by decide) (name_done (name_of (name_of (name_of (name_of (name_of (name_of
    (name_of (name_of (by decide +kernel)))))))))) st

/-- The document is closed and well nested. -/
theorem moves_document {s : SvgState} (padding : ℚ) (hs : ∀ css ∈ s.styles, '<' ∉ css)
    (hi : ∀ st, MovesList s.items st st) : Moves (s.document num padding) [] [] := by
  have hl : ∀ st, Moves [Piece.layout ['\n']] st st := fun st => .blank (by decide +kernel) st
  have hst : Moves (joinPieces (.layout ['\n']) (s.styles.map fun t => [Piece.layout t]))
      ["style".toList] ["style".toList] := by
    refine Moves.join (hl _) fun l h => ?_
    obtain ⟨css, hc, rfl⟩ := List.mem_map.mp h
    exact .blank (hs css hc) _
  have h1 : Moves [layout0, .tag "style type=\"text/css\"".toList, layout1] [] ["style".toList] :=
    (moves0 _).cons ((moves_open (c := 's') (d := '"') (by decide +kernel) (by decide +kernel) (by decide)
      (by decide +kernel) (by decide) (by decide +kernel) _).cons (moves1 _))
  have h2 : Moves [layout1, .tag "/g".toList, layout0, .tag "/svg".toList, layout2]
      ["g".toList, "svg".toList] [] :=
    (moves1 _).cons ((moves_end _).cons ((moves0 _).cons
      ((Moves.close (n := "svg".toList) (by decide +kernel) (by decide +kernel) _).cons (moves2 _))))
  have hm1 : ∀ st, Moves [.tag (markerTag "arrowend".toList ['4'] ['5'])] st ("marker".toList :: st) :=
    moves_open (c := 'm') (d := ' ') (by decide +kernel) (by decide +kernel) (by decide) (by decide +kernel)
      (by decide) (by decide +kernel)
  have hm2 : ∀ st, Moves [.tag (markerTag "arrowstart".toList ['5'] ['0'])] st ("marker".toList :: st) :=
    moves_open (c := 'm') (d := ' ') (by decide +kernel) (by decide +kernel) (by decide) (by decide +kernel)
      (by decide) (by decide +kernel)
  have hp : ∀ st, Moves [.tag "path d=\"M0,0 L0,4 L5,2 z\" fill=\"black\" /".toList] st st :=
    moves_self (c := 'p') (by decide +kernel) (by decide +kernel) (by decide) (by decide +kernel)
  have hc : ∀ st, Moves [.tag "circle cx=\"1.5\" cy=\"2\" r=1.5 fill=\"black\" /".toList] st st :=
    moves_self (c := 'c') (by decide +kernel) (by decide +kernel) (by decide) (by decide +kernel)
  have hd : ∀ st, Moves [.tag "defs".toList] st ("defs".toList :: st) :=
    moves_open (c := 'd') (d := 's') (by decide +kernel) (by decide +kernel) (by decide) (by decide +kernel)
      (by decide) (by decide +kernel)
  have hcm : ∀ st, Moves [.tag "/marker".toList] ("marker".toList :: st) st :=
    Moves.close (by decide +kernel) (by decide +kernel)
  have hcd : ∀ st, Moves [.tag "/defs".toList] ("defs".toList :: st) st :=
    Moves.close (by decide +kernel) (by decide +kernel)
  have hcs : ∀ st, Moves [.tag "/style".toList] ("style".toList :: st) st :=
    Moves.close (by decide +kernel) (by decide +kernel)
  unfold SvgState.document
  refine Moves.append (Moves.append (Moves.append (Moves.append h1 hst) ?_)
    ((hi _).join hl)) h2
  exact (moves0 _).cons ((hcs _).cons ((moves0 _).cons ((moves_svg hn _ _).cons ((moves0 _).cons
    ((hd _).cons ((moves1 _).cons ((hm1 _).cons ((moves1 _).cons ((hp _).cons ((moves1 _).cons
    ((hcm _).cons ((moves1 _).cons ((hm2 _).cons ((moves1 _).cons ((hc _).cons ((moves1 _).cons
    ((hcm _).cons ((moves0 _).cons ((hcd _).cons ((moves1 _).cons ((moves_g _).cons (moves1 _)))))))))))))))))))))) 

end

/-! ## Texts -/

theorem split_ne (t : Text) : splitLines t ≠ [] := by
  cases t with
  | nil => simp [splitLines]
  | cons c t =>
    rw [splitLines]
    split
    · simp
    · split <;> simp

theorem split_lines (t : Text) :
    List.intercalate ['\n'] (splitLines t) = t ∧ ∀ l ∈ splitLines t, '\n' ∉ l := by
  induction t with
  | nil => exact ⟨rfl, by simp [splitLines]⟩
  | cons c t ih =>
    obtain ⟨h1, h2⟩ := ih
    rw [splitLines]
    split
    · rename_i hc
      subst hc
      refine ⟨?_, ?_⟩
      · cases hs : splitLines t with
        | nil => exact (split_ne t hs).elim
        | cons l ls =>
          rw [hs] at h1
          conv_rhs => rw [← h1]
          simp [List.intercalate, List.intersperse]
      · intro l hl
        rcases List.mem_cons.mp hl with rfl | hl
        · exact List.not_mem_nil
        · exact h2 l hl
    · rename_i hc
      split
      · rename_i hs
        exact (split_ne t hs).elim
      · rename_i l ls hs
        rw [hs] at h1 h2
        refine ⟨?_, ?_⟩
        · rw [← h1]
          cases ls <;> simp [List.intercalate, List.intersperse]
        · intro k hk
          rcases List.mem_cons.mp hk with rfl | hk
          · rw [List.mem_cons, not_or]
            exact ⟨fun h => hc h.symm, h2 l (List.mem_cons_self ..)⟩
          · exact h2 k (List.mem_cons_of_mem _ hk)

theorem infix_join {sep : Piece} {ls : List (List Piece)} {l : List Piece} (h : l ∈ ls) :
    l <:+: joinPieces sep ls := by
  induction ls with
  | nil => cases h
  | cons k ls ih =>
    cases ls with
    | nil =>
      rw [List.mem_singleton] at h
      subst h
      exact List.infix_rfl
    | cons m ls =>
      rcases List.mem_cons.mp h with rfl | h
      · exact (List.prefix_append _ _).isInfix
      · exact (ih h).trans (((List.suffix_cons _ _).trans (List.suffix_append _ _)).isInfix)

theorem infix_write {ps qs : List Piece} (h : ps <:+: qs) :
    ps.flatMap Piece.write <:+: qs.flatMap Piece.write := by
  obtain ⟨a, b, rfl⟩ := h
  rw [List.flatMap_append, List.flatMap_append]
  exact ⟨_, _, rfl⟩

theorem texts_infix (f : Text × Nat → Text) {ls : List (Text × Nat)} {l : Text × Nat} (h : l ∈ ls) :
    [Piece.tag (f l), .shown l.1, .tag "/text".toList]
      <:+: joinPieces (.layout ['\n'])
        (ls.map fun l => [Piece.tag (f l), .shown l.1, .tag "/text".toList]) :=
  infix_join (List.mem_map.mpr ⟨l, h, rfl⟩)

end RUSure.Draw
