import Verif.Spec.PrefixBaselines
import Verif.Lemmas.Regions
import Verif.Lemmas.Codec
import Verif.Lemmas.TokenProbAlign
import Mathlib.Tactic.Linarith

/-!
# Lemmas on the baselines for prefix truncation
-/

namespace RUSure.Lemmas
open RUSure RUSure.Spec
variable {M : Type}

/-- The id stands for the node. -/
def HoldsAt (S : Storage M) (id : NodeId) (x : Placed M) : Prop := id.preorder = x.idx ∧ Represents S id x.node

theorem holdsAt_pack (proto : List (Node M)) :
    List.Forall₂ (HoldsAt (pack proto)) (pack proto).preorder (placed proto) := by
  obtain ⟨h1, -, -, h2⟩ := Props.C02_preorder proto
  refine forall₂_of_getElem? (by rw [h1]; simp [placed]) fun k x hk => ?_
  unfold placed at hk
  rw [List.getElem?_map, List.getElem?_zipIdx, Option.map_map, Option.map_eq_some_iff] at hk
  obtain ⟨⟨n, path, tag⟩, hw, rfl⟩ := hk
  obtain ⟨id, pos, g1, g2, g3, -⟩ := h2 k n path tag hw
  exact ⟨id, g1, by simpa using g2, g3⟩

theorem placed_idx {proto : List (Node M)} {l r : List (Placed M)} {x : Placed M}
    (h : placed proto = l ++ x :: r) : x.idx = l.length := by
  have : (placed proto)[l.length]? = some x := by rw [h]; simp
  unfold placed at this
  rw [List.getElem?_map, List.getElem?_zipIdx, Option.map_map, Option.map_eq_some_iff] at this
  obtain ⟨⟨n, path, tag⟩, hw, rfl⟩ := this
  simp

/-! ### First exits -/

/-- Look for the first early exit such that the nodes before it meet a condition. -/
def firstScan (cond : List (Placed M) → Bool) : List (Placed M) → List (Placed M) → Option Nat
  | _, [] => none
  | l, x :: r =>
    match x.node with
    | .exit => if cond l then some x.idx else firstScan cond (l ++ [x]) r
    | _ => firstScan cond (l ++ [x]) r

theorem firstScan_exit (cond : List (Placed M) → Bool) (l r : List (Placed M)) {x : Placed M} (h : x.node = .exit) :
    firstScan cond l (x :: r) = if cond l then some x.idx else firstScan cond (l ++ [x]) r := by
  rw [firstScan, h]

theorem firstScan_other (cond : List (Placed M) → Bool) (l r : List (Placed M)) {x : Placed M} (h : x.node ≠ .exit) :
    firstScan cond l (x :: r) = firstScan cond (l ++ [x]) r := by
  rw [firstScan]
  split
  · rename_i h'
    exact absurd h' h
  · rfl

theorem firstScan_spec (cond : List (Placed M) → Bool) : ∀ (r l : List (Placed M)),
    match firstScan cond l r with
    | some e => ∃ m x r', r = m ++ x :: r' ∧ x.node = .exit ∧ x.idx = e ∧ cond (l ++ m) = true
        ∧ ∀ l' y r', m = l' ++ y :: r' → y.node = .exit → ¬ cond (l ++ l') = true
    | none => ∀ m x r', r = m ++ x :: r' → x.node = .exit → ¬ cond (l ++ m) = true
  | [], l => by
    rw [firstScan]
    simp
  | x :: r, l => by
    have ih := firstScan_spec cond r (l ++ [x])
    have lift : ∀ (P : Prop), (x.node = .exit → ¬ cond l = true) → (firstScan cond l (x :: r) = firstScan cond (l ++ [x]) r) →
        match firstScan cond l (x :: r) with
        | some e => ∃ m y r', x :: r = m ++ y :: r' ∧ y.node = .exit ∧ y.idx = e ∧ cond (l ++ m) = true
            ∧ ∀ l' y r', m = l' ++ y :: r' → y.node = .exit → ¬ cond (l ++ l') = true
        | none => ∀ m y r', x :: r = m ++ y :: r' → y.node = .exit → ¬ cond (l ++ m) = true := by
      intro _ hx he
      rw [he]
      cases hs : firstScan cond (l ++ [x]) r with
      | none =>
        rw [hs] at ih
        intro m y r' h hy
        cases m with
        | nil =>
          cases h
          simpa using hx hy
        | cons a m =>
          cases h
          simpa using ih m y r' rfl hy
      | some e =>
        rw [hs] at ih
        obtain ⟨m, y, r', h1, h2, h3, h4, h5⟩ := ih
        refine ⟨x :: m, y, r', by rw [h1]; rfl, h2, h3, by simpa using h4, ?_⟩
        intro l' z r'' h hz
        cases l' with
        | nil =>
          cases h
          simpa using hx hz
        | cons a l' =>
          cases h
          simpa using h5 l' z r'' rfl hz
    by_cases hx : x.node = .exit
    · by_cases hc : cond l = true
      · rw [firstScan_exit _ _ _ hx, if_pos hc]
        exact ⟨[], x, r, rfl, hx, rfl, by simpa using hc, by simp⟩
      · exact lift True (fun _ => hc) (by rw [firstScan_exit _ _ _ hx, if_neg hc])
    · exact lift True (fun h => absurd h hx) (firstScan_other _ _ _ hx)

theorem firstExitWhere_scan (proto : List (Node M)) (cond : List (Placed M) → Bool) (P : List (Placed M) → Prop)
    (h : ∀ l, cond l = true ↔ P l) : FirstExitWhere proto P (firstScan cond [] (placed proto)) := by
  have := firstScan_spec cond (placed proto) []
  cases hs : firstScan cond [] (placed proto) with
  | none =>
    rw [hs] at this
    intro l x r hl hx
    rw [← h]
    exact this l x r hl hx
  | some e =>
    rw [hs] at this
    obtain ⟨m, x, r, h1, h2, h3, h4, h5⟩ := this
    refine ⟨m, x, r, h1, h2, h3, (h m).1 h4, ?_⟩
    intro l' y r' hl hy
    rw [← h]
    exact h5 l' y r' hl hy

/-! ### Low tokens -/

/-- Look for the early exit to take because of the first low token. -/
def lowScan (low : List (Placed M) → Placed M → Bool) : List (Placed M) → List (Placed M) → Option Nat → Bool →
    Option Nat
  | _, [], _, _ => none
  | l, x :: r, last, next =>
    match x.node with
    | .exit => if next then some x.idx else lowScan low (l ++ [x]) r (some x.idx) next
    | _ =>
      if low l x then
        match last with
        | some e => some e
        | none => lowScan low (l ++ [x]) r last true
      else lowScan low (l ++ [x]) r last next

theorem lowScan_exit (low : List (Placed M) → Placed M → Bool) (l r : List (Placed M)) {x : Placed M} (h : x.node = .exit)
    (last : Option Nat) (next : Bool) :
    lowScan low l (x :: r) last next = if next then some x.idx else lowScan low (l ++ [x]) r (some x.idx) next := by
  rw [lowScan.eq_def]
  dsimp only
  rw [h]

theorem lowScan_other (low : List (Placed M) → Placed M → Bool) (l r : List (Placed M)) {x : Placed M} (h : x.node ≠ .exit)
    (last : Option Nat) (next : Bool) :
    lowScan low l (x :: r) last next = if low l x then
        match last with
        | some e => some e
        | none => lowScan low (l ++ [x]) r last true
      else lowScan low (l ++ [x]) r last next := by
  rw [lowScan.eq_def]
  dsimp only
  split
  · rename_i h'
    exact absurd h' h
  · rfl

theorem exitsOf_cons_exit {x : Placed M} (h : x.node = .exit) (l : List (Placed M)) :
    exitsOf (x :: l) = x.idx :: exitsOf l := by
  unfold exitsOf
  rw [List.filterMap_cons, h]

theorem exitsOf_cons_other {x : Placed M} (h : x.node ≠ .exit) (l : List (Placed M)) :
    exitsOf (x :: l) = exitsOf l := by
  unfold exitsOf
  rw [List.filterMap_cons]
  split
  · rfl
  · rename_i h'
    exfalso
    split at h'
    · rename_i h''
      exact h h''
    · cases h'

theorem exitsOf_append (l l' : List (Placed M)) : exitsOf (l ++ l') = exitsOf l ++ exitsOf l' :=
  List.filterMap_append

theorem exitsOf_snoc_other {x : Placed M} (h : x.node ≠ .exit) (l : List (Placed M)) :
    exitsOf (l ++ [x]) = exitsOf l := by
  rw [exitsOf_append, exitsOf_cons_other h]
  simp [exitsOf]

theorem lowScan_next (low : List (Placed M) → Placed M → Bool) : ∀ (r l : List (Placed M)),
    lowScan low l r none true = (exitsOf r).head?
  | [], _ => rfl
  | x :: r, l => by
    by_cases h : x.node = .exit
    · rw [lowScan_exit _ _ _ h, exitsOf_cons_exit h]
      rfl
    · rw [lowScan_other _ _ _ h, exitsOf_cons_other h]
      dsimp only
      rw [lowScan_next low r, ite_self]

theorem lowScan_spec (low : List (Placed M) → Placed M → Bool) (hlow : ∀ l x, low l x = true → x.node ≠ .exit) :
    ∀ (r l : List (Placed M)) (last : Option Nat), last = (exitsOf l).getLast? →
    (∃ m x r', r = m ++ x :: r' ∧ low (l ++ m) x = true ∧ (∀ l' y r', m = l' ++ y :: r' → ¬ low (l ++ l') y = true)
      ∧ lowScan low l r last false = (exitsOf (l ++ m)).getLast?.or (exitsOf r').head?)
    ∨ ((∀ m x r', r = m ++ x :: r' → ¬ low (l ++ m) x = true) ∧ lowScan low l r last false = none)
  | [], l, last, _ => by
    right
    simp [lowScan]
  | x :: r, l, last, hl => by
    have lift : ∀ last', last' = (exitsOf (l ++ [x])).getLast? → ¬ low l x = true →
        lowScan low l (x :: r) last false = lowScan low (l ++ [x]) r last' false →
        (∃ m y r', x :: r = m ++ y :: r' ∧ low (l ++ m) y = true
          ∧ (∀ l' y r', m = l' ++ y :: r' → ¬ low (l ++ l') y = true)
          ∧ lowScan low l (x :: r) last false = (exitsOf (l ++ m)).getLast?.or (exitsOf r').head?)
        ∨ ((∀ m y r', x :: r = m ++ y :: r' → ¬ low (l ++ m) y = true) ∧ lowScan low l (x :: r) last false = none) := by
      intro last' hl' hx he
      rw [he]
      rcases lowScan_spec low hlow r (l ++ [x]) last' hl' with ⟨m, y, r', h1, h2, h3, h4⟩ | ⟨h1, h2⟩
      · left
        refine ⟨x :: m, y, r', by rw [h1]; rfl, by simpa using h2, ?_, by rw [h4]; simp⟩
        intro l' z r'' h
        cases l' with
        | nil =>
          cases h
          simpa using hx
        | cons a l' =>
          cases h
          simpa using h3 l' z r'' rfl
      · right
        refine ⟨?_, h2⟩
        intro m y r' h
        cases m with
        | nil =>
          cases h
          simpa using hx
        | cons a m =>
          cases h
          simpa using h1 m y r' rfl
    by_cases h : x.node = .exit
    · refine lift (some x.idx) ?_ (fun hx => hlow l x hx h) ?_
      · rw [exitsOf_append, exitsOf_cons_exit h]
        simp [exitsOf]
      · rw [lowScan_exit _ _ _ h]
        rfl
    · by_cases hx : low l x = true
      · left
        refine ⟨[], x, r, rfl, by simpa using hx, by simp, ?_⟩
        rw [lowScan_other _ _ _ h, if_pos hx, List.append_nil, ← hl]
        cases last with
        | some e => rfl
        | none =>
          dsimp only
          rw [lowScan_next]
          rfl
      · refine lift last ?_ hx ?_
        · rw [exitsOf_snoc_other h, hl]
        · rw [lowScan_other _ _ _ h, if_neg hx]

theorem exitAtLow_scan (proto : List (Node M)) (low : List (Placed M) → Placed M → Bool)
    (P : List (Placed M) → Placed M → Prop) (hlow : ∀ l x, low l x = true → x.node ≠ .exit)
    (h : ∀ l x, low l x = true ↔ P l x) : ExitAtLow proto P (lowScan low [] (placed proto) none false) := by
  rcases lowScan_spec low hlow (placed proto) [] none rfl with ⟨m, x, r, h1, h2, h3, h4⟩ | ⟨h1, h2⟩
  · left
    refine ⟨m, x, r, h1, (h _ _).1 h2, ?_, h4⟩
    intro l' y r' hl
    rw [← h]
    exact h3 l' y r' hl
  · right
    refine ⟨?_, h2⟩
    intro l x r hl
    rw [← h]
    exact h1 l x r hl

/-! ### The loops -/

theorem stands_cat {S : Storage M} {id : NodeId} {x : Placed M} (h : HoldsAt S id x) :
    (id.cat = .exit ↔ x.node = .exit) ∧ (id.cat = .rstart ↔ x.node = .rstart)
      ∧ (id.cat = .tok → ∃ t mt, x.node = .tok t mt ∧ tokenText S id = .ok t)
      ∧ (id.cat = .deco → ∃ t, x.node = .deco t ∧ decoText S id = .ok t)
      ∧ (id.cat ≠ .tok → ∀ t mt, x.node ≠ .tok t mt) ∧ (id.cat ≠ .deco → ∀ t, x.node ≠ .deco t) := by
  obtain ⟨i, p, n⟩ := x
  obtain ⟨-, h⟩ := h
  cases n with
  | deco t =>
    obtain ⟨h1, h2⟩ := h
    simp [h1, decoText, h2]
  | tok t mt =>
    obtain ⟨h1, h2⟩ := h
    simp [h1, tokenText, h2]
  | group cs mt =>
    obtain ⟨h1, -⟩ := h
    simp [h1]
  | rstart =>
    have h1 : id.cat = .rstart := h
    simp [h1]
  | rend =>
    have h1 : id.cat = .rend := h
    simp [h1]
  | exit =>
    have h1 : id.cat = .exit := h
    simp [h1]

theorem ok_bind_eq {ε α β : Type} (a : α) (f : α → Except ε β) : ((Except.ok a : Except ε α) >>= f) = f a := rfl

/-- The index of a node as an integer. -/
def asInt : Option Nat → Option Int
  | none => none
  | some n => some n

theorem tokenTextsOf_snoc (l : List (Placed M)) (x : Placed M) :
    tokenTextsOf (l ++ [x]) = tokenTextsOf l ++ (match x.node with | .tok t _ => [t] | _ => []) := by
  obtain ⟨i, p, n⟩ := x
  cases n <;> simp [tokenTextsOf]

theorem newlinesOf_snoc (l : List (Placed M)) (x : Placed M) :
    newlinesOf (l ++ [x]) = newlinesOf l ++ (match x.node with | .deco t => if '\n' ∈ t then [t] else [] | _ => []) := by
  obtain ⟨i, p, n⟩ := x
  cases n with
  | deco t =>
    by_cases h : '\n' ∈ t
    · simp [newlinesOf, h]
    · simp [newlinesOf, h]
  | _ => simp [newlinesOf]

/-- The condition of the character baseline. -/
def charsCond (limit : Int) (l : List (Placed M)) : Bool :=
  !(tokenTextsOf l).isEmpty && decide (limit ≤ ((tokenTextsOf l).flatten.length : Int))

theorem charactersLoop_eq {S : Storage M} (limit : Int) {ids : List NodeId} {r : List (Placed M)}
    (h : List.Forall₂ (HoldsAt S) ids r) : ∀ l : List (Placed M),
    charactersLoop S limit ids (tokenTextsOf l).flatten.length (charsCond limit l)
      = .ok (asInt (firstScan (charsCond limit) l r)) := by
  induction h with
  | nil => intro l; rfl
  | @cons id x ids r hx _ ih =>
    intro l
    obtain ⟨c1, -, c3, -, c5, -⟩ := stands_cat hx
    rw [charactersLoop]
    by_cases he : id.cat = .exit
    · rw [if_pos he, firstScan_exit _ _ _ (c1.1 he)]
      have e1 : tokenTextsOf (l ++ [x]) = tokenTextsOf l := by
        rw [tokenTextsOf_snoc, c1.1 he]; simp
      have e2 : charsCond limit (l ++ [x]) = charsCond limit l := by
        unfold charsCond; rw [e1]
      by_cases hc : charsCond limit l = true
      · rw [if_pos hc, if_pos hc, hx.1]; rfl
      · rw [if_neg hc, if_neg hc, ← ih, e1, e2]
    · rw [if_neg he, firstScan_other _ _ _ (fun h => he (c1.2 h))]
      by_cases ht : id.cat = .tok
      · obtain ⟨t, mt, hn, htt⟩ := c3 ht
        rw [if_pos ht, ← ih, htt]
        have e1 : tokenTextsOf (l ++ [x]) = tokenTextsOf l ++ [t] := by
          rw [tokenTextsOf_snoc, hn]
        have e2 : (tokenTextsOf (l ++ [x])).flatten.length = (tokenTextsOf l).flatten.length + t.length := by
          rw [e1]; simp
        have e3 : charsCond limit (l ++ [x])
            = decide (limit ≤ (((tokenTextsOf l).flatten.length + t.length : Nat) : Int)) := by
          unfold charsCond
          rw [e2, e1]
          simp
        rw [e2, e3]
        rw [ok_bind_eq]
        by_cases hc : limit ≤ (((tokenTextsOf l).flatten.length + t.length : Nat) : Int)
        · rw [if_pos hc, decide_eq_true hc]
        · rw [if_neg hc, decide_eq_false hc]
          congr 1
          unfold charsCond
          rw [decide_eq_false (by omega), Bool.and_false]
      · have e1 : tokenTextsOf (l ++ [x]) = tokenTextsOf l := by
          rw [tokenTextsOf_snoc]
          split
          · rename_i t mt hn
            exact absurd hn (c5 ht t mt)
          · simp
        have e2 : charsCond limit (l ++ [x]) = charsCond limit l := by
          unfold charsCond; rw [e1]
        rw [if_neg ht, ← ih, e1, e2]

/-- The condition of the line baseline. -/
def linesCond (limit : Int) (l : List (Placed M)) : Bool :=
  !(newlinesOf l).isEmpty && decide (limit ≤ ((newlinesOf l).length : Int))

theorem linesLoop_eq {S : Storage M} (limit : Int) {ids : List NodeId} {r : List (Placed M)}
    (h : List.Forall₂ (HoldsAt S) ids r) : ∀ l : List (Placed M),
    linesLoop S limit ids (newlinesOf l).length (linesCond limit l)
      = .ok (asInt (firstScan (linesCond limit) l r)) := by
  induction h with
  | nil => intro l; rfl
  | @cons id x ids r hx _ ih =>
    intro l
    obtain ⟨c1, -, -, c4, -, c6⟩ := stands_cat hx
    rw [linesLoop]
    by_cases he : id.cat = .exit
    · rw [if_pos he, firstScan_exit _ _ _ (c1.1 he)]
      have e1 : newlinesOf (l ++ [x]) = newlinesOf l := by
        rw [newlinesOf_snoc, c1.1 he]; simp
      have e2 : linesCond limit (l ++ [x]) = linesCond limit l := by
        unfold linesCond; rw [e1]
      by_cases hc : linesCond limit l = true
      · rw [if_pos hc, if_pos hc, hx.1]; rfl
      · rw [if_neg hc, if_neg hc, ← ih, e1, e2]
    · rw [if_neg he, firstScan_other _ _ _ (fun h => he (c1.2 h))]
      by_cases ht : id.cat = .deco
      · obtain ⟨t, hn, htt⟩ := c4 ht
        rw [if_pos ht, ← ih, htt]
        rw [ok_bind_eq]
        by_cases hnl : '\n' ∈ t
        · have e1 : newlinesOf (l ++ [x]) = newlinesOf l ++ [t] := by
            rw [newlinesOf_snoc, hn]
            simp [hnl]
          have e2 : (newlinesOf (l ++ [x])).length = (newlinesOf l).length + 1 := by
            rw [e1]; simp
          have e3 : linesCond limit (l ++ [x]) = decide (limit ≤ (((newlinesOf l).length + 1 : Nat) : Int)) := by
            unfold linesCond
            rw [e2, e1]
            simp
          rw [if_pos hnl, e2, e3]
          by_cases hc : limit ≤ (((newlinesOf l).length + 1 : Nat) : Int)
          · rw [if_pos hc, decide_eq_true hc]
          · rw [if_neg hc, decide_eq_false hc]
            congr 1
            unfold linesCond
            rw [decide_eq_false (by omega), Bool.and_false]
        · have e1 : newlinesOf (l ++ [x]) = newlinesOf l := by
            rw [newlinesOf_snoc, hn]
            simp [hnl]
          have e2 : linesCond limit (l ++ [x]) = linesCond limit l := by
            unfold linesCond; rw [e1]
          rw [if_neg hnl, e1, e2]
      · have e1 : newlinesOf (l ++ [x]) = newlinesOf l := by
          rw [newlinesOf_snoc]
          split
          · rename_i t hn
            exact absurd hn (c6 ht t)
          · simp
        have e2 : linesCond limit (l ++ [x]) = linesCond limit l := by
          unfold linesCond; rw [e1]
        rw [if_neg ht, ← ih, e1, e2]

/-! ### Words -/

theorem words_snoc (l : List (Placed M)) (x : Placed M) :
    (l ++ [x]).filter Placed.isWord = l.filter Placed.isWord ++ (if x.isWord then [x] else []) := by
  rw [List.filter_append, List.filter_singleton]
  cases x.isWord <;> rfl

theorem totalLogProb_snoc (aligned : List (Int × LogProb)) (l : List (Placed M)) (x : Placed M) :
    totalLogProb aligned (l ++ [x])
      = if x.isWord then totalLogProb aligned l + logProbOf aligned x else totalLogProb aligned l := by
  unfold totalLogProb
  rw [words_snoc]
  cases x.isWord <;> simp

theorem isWord_tok {x : Placed M} {t : Text} {mt : M} (h : x.node = .tok t mt) : x.isWord = decide (t ≠ []) := by
  unfold Placed.isWord
  rw [h]

theorem isWord_other {x : Placed M} (h : ∀ t mt, x.node ≠ .tok t mt) : x.isWord = false := by
  unfold Placed.isWord
  split
  · rename_i t mt hn
    exact absurd hn (h t mt)
  · rfl

/-- Every token has a log probability. -/
def HasLogProbs (aligned : List (Int × LogProb)) (x : Placed M) : Prop :=
  x.isWord = true → aligned.lookup (x.idx : Int) = some (logProbOf aligned x)

theorem aligned_ok {S : Storage M} {aligned : List (Int × LogProb)} {id : NodeId} {x : Placed M} (h : HoldsAt S id x)
    (hl : HasLogProbs aligned x) (hw : x.isWord = true) :
    alignedLogProb aligned id = .ok (logProbOf aligned x) := by
  unfold alignedLogProb
  rw [h.1, hl hw]

/-- A word is low because of its own probability or that of the words up to it. -/
def probLow (aligned : List (Int × LogProb)) (exp : LogProb → ℚ) (threshold : ℚ) (cumulative : Bool)
    (l : List (Placed M)) (x : Placed M) : Bool :=
  x.isWord && decide (exp (if cumulative then totalLogProb aligned (l ++ [x]) else logProbOf aligned x) < threshold)

theorem tokenProbLoop_eq {S : Storage M} {aligned : List (Int × LogProb)} {exp : LogProb → ℚ} {threshold : ℚ}
    {cumulative : Bool} {ids : List NodeId} {r : List (Placed M)}
    (h : List.Forall₂ (fun id x => HoldsAt S id x ∧ HasLogProbs aligned x) ids r) :
    ∀ (l : List (Placed M)) (current : LogProb) (last : Option Nat) (next : Bool),
    (cumulative = true → current = totalLogProb aligned l) →
    tokenProbLoop S aligned exp threshold cumulative ids current (asInt last) next
      = .ok (asInt (lowScan (probLow aligned exp threshold cumulative) l r last next)) := by
  induction h with
  | nil => intro l current last next _; rfl
  | @cons id x ids r hx _ ih =>
    intro l current last next hcur
    obtain ⟨hx, hlp⟩ := hx
    obtain ⟨c1, -, c3, -, c5, -⟩ := stands_cat hx
    rw [tokenProbLoop.eq_def]
    dsimp only
    by_cases he : id.cat = .exit
    · have hn := c1.1 he
      have hw : x.isWord = false := isWord_other (by rw [hn]; simp)
      rw [if_pos he, lowScan_exit _ _ _ hn]
      cases next with
      | true => rw [if_pos rfl, if_pos rfl, hx.1]; rfl
      | false =>
        rw [if_neg (by simp), if_neg (by simp), hx.1]
        exact ih (l ++ [x]) current (some x.idx) false (fun h => by rw [totalLogProb_snoc, hw, hcur h]; rfl)
    · rw [if_neg he, lowScan_other _ _ _ (fun h => he (c1.2 h))]
      by_cases ht : id.cat = .tok
      · obtain ⟨t, mt, hn, htt⟩ := c3 ht
        rw [if_pos ht, htt, ok_bind_eq]
        have hw := isWord_tok hn
        by_cases h0 : t = []
        · rw [if_neg (by simpa using h0)]
          have hw' : x.isWord = false := by rw [hw]; simp [h0]
          rw [if_neg (by simp [probLow, hw'])]
          exact ih (l ++ [x]) current last next (fun h => by rw [totalLogProb_snoc, hw', hcur h]; rfl)
        · have hw' : x.isWord = true := by rw [hw]; simp [h0]
          rw [if_pos h0, aligned_ok hx hlp hw', ok_bind_eq]
          have hc' : (if cumulative = true then current + logProbOf aligned x else logProbOf aligned x)
              = if cumulative = true then totalLogProb aligned (l ++ [x]) else logProbOf aligned x := by
            split
            · rename_i h
              rw [totalLogProb_snoc, hw', hcur h]
              rfl
            · rfl
          rw [hc']
          have hcur' : cumulative = true →
              (if cumulative = true then totalLogProb aligned (l ++ [x]) else logProbOf aligned x)
                = totalLogProb aligned (l ++ [x]) := fun h => by rw [if_pos h]
          have hpl : probLow aligned exp threshold cumulative l x = decide (exp
              (if cumulative = true then totalLogProb aligned (l ++ [x]) else logProbOf aligned x) < threshold) := by
            unfold probLow
            rw [hw', Bool.true_and]
          rw [hpl]
          generalize (if cumulative = true then totalLogProb aligned (l ++ [x]) else logProbOf aligned x) = cur
            at hcur'
          by_cases hlow : exp cur < threshold
          · rw [if_pos hlow, if_pos (decide_eq_true hlow)]
            cases last with
            | some e => rfl
            | none => exact ih (l ++ [x]) _ none true hcur'
          · rw [if_neg hlow, if_neg (by simpa using hlow)]
            exact ih (l ++ [x]) _ last next hcur'
      · have hw' := isWord_other (c5 ht)
        rw [if_neg ht, if_neg (by simp [probLow, hw'])]
        exact ih (l ++ [x]) current last next (fun h => by rw [totalLogProb_snoc, hw', hcur h]; rfl)

/-- A word is low according to the IntelliCode Compose heuristic. -/
def composeLow (aligned : List (Int × LogProb)) (exp : LogProb → ℚ) (alpha kappa : ℚ) (l : List (Placed M))
    (x : Placed M) : Bool :=
  x.isWord && decide (exp (logProbOf aligned x)
    < alpha / (1 + exp ((-((l.filter Placed.isWord).length : ℚ) / kappa : ℚ) : LogProb)))

theorem intellicodeLoop_eq {S : Storage M} {aligned : List (Int × LogProb)} {exp : LogProb → ℚ} {alpha kappa : ℚ}
    (hk : kappa ≠ 0) (hexp : ∀ p, 0 ≤ exp p) {ids : List NodeId} {r : List (Placed M)}
    (h : List.Forall₂ (fun id x => HoldsAt S id x ∧ HasLogProbs aligned x) ids r) :
    ∀ (l : List (Placed M)) (last : Option Nat) (next : Bool),
    intellicodeLoop S aligned exp alpha kappa ids (asInt last) next (l.filter Placed.isWord).length
      = .ok (asInt (lowScan (composeLow aligned exp alpha kappa) l r last next)) := by
  induction h with
  | nil => intro l last next; rfl
  | @cons id x ids r hx _ ih =>
    intro l last next
    obtain ⟨hx, hlp⟩ := hx
    obtain ⟨c1, -, c3, -, c5, -⟩ := stands_cat hx
    have hlen : ∀ b, x.isWord = b → ((l ++ [x]).filter Placed.isWord).length
        = (l.filter Placed.isWord).length + if b then 1 else 0 := by
      rintro b rfl
      rw [words_snoc]
      cases x.isWord <;> simp
    rw [intellicodeLoop.eq_def]
    dsimp only
    by_cases he : id.cat = .exit
    · have hn := c1.1 he
      have hw : x.isWord = false := isWord_other (by rw [hn]; simp)
      rw [if_pos he, lowScan_exit _ _ _ hn]
      cases next with
      | true => rw [if_pos rfl, if_pos rfl, hx.1]; rfl
      | false =>
        rw [if_neg (by simp), if_neg (by simp), hx.1]
        have := ih (l ++ [x]) (some x.idx) false
        rw [hlen _ hw] at this
        exact this
    · rw [if_neg he, lowScan_other _ _ _ (fun h => he (c1.2 h))]
      by_cases ht : id.cat = .tok
      · obtain ⟨t, mt, hn, htt⟩ := c3 ht
        rw [if_pos ht, htt, ok_bind_eq]
        have hw := isWord_tok hn
        by_cases h0 : t = []
        · rw [if_neg (by simpa using h0)]
          have hw' : x.isWord = false := by rw [hw]; simp [h0]
          rw [if_neg (by simp [composeLow, hw'])]
          have := ih (l ++ [x]) last next
          rw [hlen _ hw'] at this
          exact this
        · have hw' : x.isWord = true := by rw [hw]; simp [h0]
          rw [if_pos h0, aligned_ok hx hlp hw', ok_bind_eq, if_neg hk]
          have hpos := hexp ((-((l.filter Placed.isWord).length : ℚ) / kappa : ℚ) : LogProb)
          rw [if_neg (by intro h; rw [← h] at hpos; linarith)]
          have ih' := fun last next => ih (l ++ [x]) last next
          rw [hlen _ hw'] at ih'
          by_cases hlow : exp (logProbOf aligned x)
              < alpha / (1 + exp ((-((l.filter Placed.isWord).length : ℚ) / kappa : ℚ) : LogProb))
          · rw [if_pos hlow, if_pos (by rw [composeLow, hw', decide_eq_true hlow]; rfl)]
            cases last with
            | some e => rfl
            | none => exact ih' none true
          · rw [if_neg hlow, if_neg (by rw [composeLow, hw', decide_eq_false hlow]; simp)]
            exact ih' last next
      · have hw' := isWord_other (c5 ht)
        rw [if_neg ht, if_neg (by simp [composeLow, hw'])]
        have := ih (l ++ [x]) last next
        rw [hlen _ hw'] at this
        exact this

/-- The best average at an early exit among the nodes read so far. -/
def BestSoFar (aligned : List (Int × LogProb)) (l : List (Placed M)) (best : LogProb) : Option Nat → Prop
  | some e => ∃ l0 x r, l = l0 ++ x :: r ∧ x.node = .exit ∧ x.idx = e ∧ l0.filter Placed.isWord ≠ []
      ∧ best = averageLogProb aligned l0 ∧ best ≠ ⊥
      ∧ ∀ l' y r', l = l' ++ y :: r' → y.node = .exit → l'.filter Placed.isWord ≠ [] →
        averageLogProb aligned l' ≤ best ∧ (l'.length < l0.length → averageLogProb aligned l' < best)
  | none => best = ⊥ ∧ ∀ l' x r, l = l' ++ x :: r → x.node = .exit → l'.filter Placed.isWord ≠ [] →
      averageLogProb aligned l' = ⊥

theorem snoc_split {A : Type} {l l' r : List A} {x y : A} (h : l ++ [x] = l' ++ y :: r) :
    (r = [] ∧ l = l' ∧ x = y) ∨ ∃ r', r = r' ++ [x] ∧ l = l' ++ y :: r' := by
  rcases List.eq_nil_or_concat r with rfl | ⟨r', z, rfl⟩
  · left
    have := List.append_inj' h rfl
    exact ⟨rfl, this.1, by simpa using this.2⟩
  · right
    rw [List.concat_eq_append, ← List.cons_append, ← List.append_assoc] at h
    have := List.append_inj' h rfl
    have hz : x = z := by simpa using this.2
    subst hz
    exact ⟨r', by rw [List.concat_eq_append], this.1⟩

/-- Nodes that are no early exits, or have no words before them, change nothing. -/
theorem bestSoFar_skip {aligned : List (Int × LogProb)} {l : List (Placed M)} {best : LogProb} {e : Option Nat}
    (h : BestSoFar aligned l best e) {x : Placed M}
    (hx : x.node = .exit → l.filter Placed.isWord ≠ [] → averageLogProb aligned l ≤ best) :
    BestSoFar aligned (l ++ [x]) best e := by
  cases e with
  | none =>
    obtain ⟨h1, h2⟩ := h
    refine ⟨h1, ?_⟩
    intro l' y r hl hy hw
    rcases snoc_split hl with ⟨rfl, rfl, rfl⟩ | ⟨r', rfl, hl'⟩
    · have := hx hy hw
      rw [h1] at this
      exact le_bot_iff.mp this
    · exact h2 l' y r' hl' hy hw
  | some e =>
    obtain ⟨l0, z, r, h1, h2, h3, h4, h5, h6, h7⟩ := h
    refine ⟨l0, z, r ++ [x], by rw [h1]; simp, h2, h3, h4, h5, h6, ?_⟩
    intro l' y r' hl hy hw
    rcases snoc_split hl with ⟨rfl, rfl, rfl⟩ | ⟨r'', rfl, hl'⟩
    · refine ⟨hx hy hw, ?_⟩
      intro hlt
      rw [h1] at hlt
      simp at hlt
    · exact h7 l' y r'' hl' hy hw

theorem bestSoFar_new {aligned : List (Int × LogProb)} {l : List (Placed M)} {best : LogProb} {e : Option Nat}
    (h : BestSoFar aligned l best e) {x : Placed M} (hx : x.node = .exit) (hw : l.filter Placed.isWord ≠ [])
    (hlt : best < averageLogProb aligned l) :
    BestSoFar aligned (l ++ [x]) (averageLogProb aligned l) (some x.idx) := by
  refine ⟨l, x, [], rfl, hx, rfl, hw, rfl, (lt_of_le_of_lt bot_le hlt).ne', ?_⟩
  intro l' y r' hl hy hw'
  rcases snoc_split hl with ⟨rfl, rfl, rfl⟩ | ⟨r'', rfl, hl'⟩
  · exact ⟨le_refl _, fun h => absurd h (lt_irrefl _)⟩
  · have hle : averageLogProb aligned l' ≤ best := by
      cases e with
      | none => rw [h.2 l' y r'' hl' hy hw']; exact bot_le
      | some e =>
        obtain ⟨_, _, _, _, _, _, _, _, _, h7⟩ := h
        exact (h7 l' y r'' hl' hy hw').1
    exact ⟨(lt_of_le_of_lt hle hlt).le, fun _ => lt_of_le_of_lt hle hlt⟩

theorem maxAverageLoop_spec {S : Storage M} {aligned : List (Int × LogProb)} {ids : List NodeId} {r : List (Placed M)}
    (h : List.Forall₂ (fun id x => HoldsAt S id x ∧ HasLogProbs aligned x) ids r) :
    ∀ (l : List (Placed M)) (best : LogProb) (e : Option Nat), BestSoFar aligned l best e →
    ∃ best' e', maxAverageLoop S aligned ids (totalLogProb aligned l) (l.filter Placed.isWord).length best (asInt e)
      = .ok (asInt e') ∧ BestSoFar aligned (l ++ r) best' e' := by
  induction h with
  | nil => intro l best e hb; exact ⟨best, e, rfl, by simpa using hb⟩
  | @cons id x ids r hx _ ih =>
    intro l best e hb
    obtain ⟨hx, hlp⟩ := hx
    obtain ⟨c1, -, c3, -, c5, -⟩ := stands_cat hx
    have hlen : ∀ b, x.isWord = b → ((l ++ [x]).filter Placed.isWord).length
        = (l.filter Placed.isWord).length + if b then 1 else 0 := by
      rintro b rfl
      rw [words_snoc]
      cases x.isWord <;> simp
    have skip : x.isWord = false → BestSoFar aligned (l ++ [x]) best e →
        ∃ best' e', maxAverageLoop S aligned ids (totalLogProb aligned l) (l.filter Placed.isWord).length best (asInt e)
          = .ok (asInt e') ∧ BestSoFar aligned (l ++ x :: r) best' e' := by
      intro hw hb'
      have := ih (l ++ [x]) best e hb'
      rw [hlen _ hw, totalLogProb_snoc, hw] at this
      simpa using this
    rw [maxAverageLoop.eq_def]
    dsimp only
    by_cases he : id.cat = .exit
    · have hn := c1.1 he
      have hw : x.isWord = false := isWord_other (by rw [hn]; simp)
      rw [if_pos he]
      split
      · rename_i hpos
        have hne : l.filter Placed.isWord ≠ [] := List.length_pos_iff.mp hpos
        split
        · rename_i hgt
          have := ih (l ++ [x]) _ _ (bestSoFar_new hb hn hne hgt)
          rw [hlen _ hw, totalLogProb_snoc, hw] at this
          rw [hx.1]
          simpa [averageLogProb, asInt] using this
        · rename_i hgt
          exact skip hw (bestSoFar_skip hb fun _ _ => not_lt.mp hgt)
      · rename_i hpos
        exact skip hw (bestSoFar_skip hb fun _ hne => absurd (List.length_pos_iff.mpr hne) hpos)
    · have hn : x.node ≠ .exit := fun h => he (c1.2 h)
      rw [if_neg he]
      by_cases ht : id.cat = .tok
      · obtain ⟨t, mt, hnt, htt⟩ := c3 ht
        rw [if_pos ht, htt, ok_bind_eq]
        have hw := isWord_tok hnt
        by_cases h0 : t = []
        · rw [if_neg (by simpa using h0)]
          exact skip (by rw [hw]; simp [h0]) (bestSoFar_skip hb fun h => absurd h hn)
        · have hw' : x.isWord = true := by rw [hw]; simp [h0]
          rw [if_pos h0, aligned_ok hx hlp hw', ok_bind_eq]
          have := ih (l ++ [x]) best e (bestSoFar_skip hb fun h => absurd h hn)
          rw [hlen _ hw', totalLogProb_snoc, hw'] at this
          simpa using this
      · rw [if_neg ht]
        exact skip (isWord_other (c5 ht)) (bestSoFar_skip hb fun h => absurd h hn)

theorem hasLogProbs_aligned {tokens : List (Text × LogProb)} {proto : List (Node M)} {all : Bool}
    {aligned : List (Int × LogProb)} (h : alignTokenLogProbs tokens (pack proto) all = some aligned) :
    ∀ x ∈ placed proto, HasLogProbs aligned x := by
  intro x hx hw
  simp only [alignTokenLogProbs, alignLoop_pack] at h
  split at h
  · simp at h
  · rename_i st' res' ha
    split at h
    · simp at h
    · simp only [Option.some.injEq] at h
      subst h
      obtain ⟨-, h2⟩ := alignNodes_keys _ _ _ _ _ _ ha
      obtain ⟨k, hk, hk'⟩ := List.mem_iff_getElem.mp hx
      have hk2 : (placed proto)[k]? = some x := by rw [List.getElem?_eq_getElem hk, hk']
      unfold placed at hk2
      rw [List.getElem?_map, List.getElem?_zipIdx, Option.map_map, Option.map_eq_some_iff] at hk2
      obtain ⟨⟨n, path, tag⟩, hw', rfl⟩ := hk2
      have hn : (docNodes proto)[k]? = some n := by
        unfold docNodes
        rw [List.getElem?_map, hw']
        rfl
      cases n with
      | tok t mt =>
        have := h2 k t mt hn
        simp only [Nat.zero_add] at this
        obtain ⟨lp, hlp⟩ := Option.isSome_iff_exists.mp this
        simp [logProbOf, hlp]
      | _ => simp [Placed.isWord] at hw

theorem holdsAt_aligned {tokens : List (Text × LogProb)} {proto : List (Node M)} {all : Bool}
    {aligned : List (Int × LogProb)} (h : alignTokenLogProbs tokens (pack proto) all = some aligned) :
    List.Forall₂ (fun id x => HoldsAt (pack proto) id x ∧ HasLogProbs aligned x) (pack proto).preorder
      (placed proto) := by
  have hl := hasLogProbs_aligned h
  revert hl
  generalize hP : placed proto = P
  have := holdsAt_pack proto
  rw [hP] at this
  revert this
  generalize (pack proto).preorder = ids
  intro this
  clear hP
  induction this with
  | nil => intro _; exact .nil
  | cons hx _ ih =>
    intro hl
    exact .cons ⟨hx, hl _ (by simp)⟩ (ih fun x hx => hl x (by simp [hx]))

/-! ### Decisions -/

theorem mem_exitsOf {P : List (Placed M)} {i : Nat} :
    i ∈ exitsOf P ↔ ∃ x ∈ P, x.node = .exit ∧ x.idx = i := by
  unfold exitsOf
  rw [List.mem_filterMap]
  constructor
  · rintro ⟨x, hx, h⟩
    split at h
    · rename_i hn
      exact ⟨x, hx, hn, Option.some.inj h⟩
    · cases h
  · rintro ⟨x, hx, hn, rfl⟩
    exact ⟨x, hx, by rw [hn]⟩

theorem mem_startsOf {P : List (Placed M)} {i : Nat} :
    i ∈ startsOf P ↔ ∃ x ∈ P, x.node = .rstart ∧ x.idx = i := by
  unfold startsOf
  rw [List.mem_filterMap]
  constructor
  · rintro ⟨x, hx, h⟩
    split at h
    · rename_i hn
      exact ⟨x, hx, hn, Option.some.inj h⟩
    · cases h
  · rintro ⟨x, hx, hn, rfl⟩
    exact ⟨x, hx, by rw [hn]⟩

/-- The decisions for the nodes read so far. -/
def exitValue (P : List (Placed M)) (e : Option Nat) (k : DecisionKey) : Option DecisionValue :=
  match k.cat with
  | .exit =>
    if k.index ∈ exitsOf P then
      some (match e with
        | none => .no
        | some i => if k.index < i then .no else if k.index = i then .yes else .na)
    else none
  | .start => if k.index ∈ startsOf P then some .no else none
  | _ => none

theorem exitPointLoop_spec {proto : List (Node M)} {e : Option Nat}
    (he : ∀ i, e = some i → i ∈ exitsOf (placed proto)) {ids : List NodeId} {r : List (Placed M)}
    (h : List.Forall₂ (HoldsAt (pack proto)) ids r) : ∀ (l : List (Placed M)) (d : Decisions),
    placed proto = l ++ r → (∀ k, d.lookup k = exitValue l e k) →
    ∃ d', exitPointLoop (asInt e) ids (decide (∃ i, e = some i ∧ i ∈ exitsOf l)) d
      = .ok (decide (∃ i, e = some i ∧ i ∈ exitsOf (placed proto)), d')
      ∧ ∀ k, d'.lookup k = exitValue (placed proto) e k := by
  induction h with
  | nil =>
    intro l d hl hd
    rw [List.append_nil] at hl
    rw [hl]
    exact ⟨d, rfl, hd⟩
  | @cons id x ids r hx _ ih =>
    intro l d hl hd
    obtain ⟨c1, c2, -⟩ := stands_cat hx
    have hidx := placed_idx hl
    have hl' : placed proto = (l ++ [x]) ++ r := by rw [hl]; simp
    have hlt : ∀ i, i ∈ exitsOf l → i < x.idx := by
      intro i hi
      obtain ⟨y, hy, -, rfl⟩ := mem_exitsOf.mp hi
      obtain ⟨a, b, rfl⟩ := List.append_of_mem hy
      rw [List.append_assoc, List.cons_append] at hl
      rw [placed_idx hl, hidx]
      simp
    have hgt : ∀ i, i ∈ exitsOf r → x.idx < i := by
      intro i hi
      obtain ⟨y, hy, -, rfl⟩ := mem_exitsOf.mp hi
      obtain ⟨a, b, rfl⟩ := List.append_of_mem hy
      rw [← List.append_assoc] at hl'
      rw [placed_idx hl', hidx]
      simp
    have hpre : id.preorder.toNat = x.idx := by rw [hx.1]; simp
    rw [exitPointLoop]
    by_cases hex : id.cat = .exit
    · have hn := c1.1 hex
      have hmem : ∀ i, i ∈ exitsOf (l ++ [x]) ↔ i ∈ exitsOf l ∨ i = x.idx := by
        intro i
        rw [exitsOf_append, List.mem_append, exitsOf_cons_exit hn]
        simp [exitsOf]
      have hst : startsOf (l ++ [x]) = startsOf l := by
        unfold startsOf
        simp [hn]
      have step : ∀ v, exitValue (l ++ [x]) e ⟨x.idx, .exit⟩ = some v → ∀ k : DecisionKey,
          (dictSet ⟨x.idx, .exit⟩ v d).lookup k = exitValue (l ++ [x]) e k := by
        intro v hv k
        rw [lookup_dictSet]
        split
        · rename_i hk
          rw [hk, hv]
        · rename_i hk
          rw [hd]
          obtain ⟨i, c⟩ := k
          cases c with
          | exit =>
            have : i ≠ x.idx := fun h => hk (by rw [h])
            simp only [exitValue, hmem, this, or_false]
          | start => simp only [exitValue, hst]
          | _ => rfl
      rw [if_pos hex]
      dsimp only
      rw [hpre]
      by_cases ht : e = some x.idx
      · have hnot : ¬ ∃ i, e = some i ∧ i ∈ exitsOf l := by
          rintro ⟨i, hi, hm⟩
          rw [ht] at hi
          cases hi
          exact absurd (hlt _ hm) (lt_irrefl _)
        rw [if_pos (by rw [ht, hx.1]; rfl), if_neg (by simpa using hnot)]
        have := ih (l ++ [x]) _ hl' (step .yes (by
          simp only [exitValue, hmem, or_true, if_true, ht, lt_irrefl, if_false]))
        rw [decide_eq_true (show ∃ i, e = some i ∧ i ∈ exitsOf (l ++ [x]) from ⟨x.idx, ht, by simp [hmem]⟩)] at this
        exact this
      · rw [if_neg (by
          rw [hx.1]
          intro h
          apply ht
          cases e with
          | none => cases h
          | some i =>
            have : (x.idx : Int) = (i : Int) := Option.some.inj h
            rw [Int.ofNat_inj.mp this])]
        have hsame : (∃ i, e = some i ∧ i ∈ exitsOf (l ++ [x])) ↔ ∃ i, e = some i ∧ i ∈ exitsOf l := by
          constructor
          · rintro ⟨i, hi, hm⟩
            refine ⟨i, hi, ?_⟩
            rcases (hmem i).mp hm with h | rfl
            · exact h
            · exact absurd hi ht
          · rintro ⟨i, hi, hm⟩
            exact ⟨i, hi, (hmem i).mpr (.inl hm)⟩
        by_cases hb : ∃ i, e = some i ∧ i ∈ exitsOf l
        · rw [if_pos (by simpa using hb)]
          obtain ⟨i, hi, hm⟩ := hb
          have := ih (l ++ [x]) _ hl' (step .na (by
            have := hlt i hm
            simp only [exitValue, hmem, or_true, if_true, hi]
            rw [if_neg (by omega), if_neg (by omega)]))
          rw [decide_eq_decide.mpr hsame] at this
          exact this
        · rw [if_neg (by simpa using hb)]
          have := ih (l ++ [x]) _ hl' (step .no (by
            simp only [exitValue, hmem, or_true, if_true]
            cases e with
            | none => rfl
            | some i =>
              have h1 := he i rfl
              rw [hl', exitsOf_append, List.mem_append, hmem] at h1
              have h2 : x.idx < i := by
                rcases h1 with (h1 | h1) | h1
                · exact absurd ⟨i, rfl, h1⟩ hb
                · exact absurd (by rw [h1]) ht
                · exact hgt i h1
              dsimp only
              rw [if_pos h2]))
          rw [decide_eq_decide.mpr hsame] at this
          exact this
    · have hn : x.node ≠ .exit := fun h => hex (c1.2 h)
      have hex' := exitsOf_snoc_other hn l
      rw [if_neg hex]
      by_cases hs : id.cat = .rstart
      · have hns := c2.1 hs
        have hst : ∀ i, i ∈ startsOf (l ++ [x]) ↔ i ∈ startsOf l ∨ i = x.idx := by
          intro i
          unfold startsOf
          simp [hns]
        rw [if_pos hs, hpre]
        have := ih (l ++ [x]) (dictSet ⟨x.idx, .start⟩ .no d) hl' (by
          intro k
          rw [lookup_dictSet]
          split
          · rename_i hk
            rw [hk]
            simp only [exitValue, hst, or_true, if_true]
          · rename_i hk
            rw [hd]
            obtain ⟨i, c⟩ := k
            cases c with
            | exit => simp only [exitValue, hex']
            | start =>
              have : i ≠ x.idx := fun h => hk (by rw [h])
              simp only [exitValue, hst, this, or_false]
            | _ => rfl)
        rw [hex'] at this
        exact this
      · have hst : startsOf (l ++ [x]) = startsOf l := by
          have hns : x.node ≠ .rstart := fun h => hs (c2.2 h)
          unfold startsOf
          rw [List.filterMap_append, List.filterMap_cons]
          split
          · simp
          · rename_i h'
            exfalso
            split at h'
            · rename_i h''
              exact hns h''
            · cases h'
        rw [if_neg hs]
        have := ih (l ++ [x]) d hl' (by
          intro k
          rw [hd]
          simp only [exitValue, hex', hst])
        rw [hex'] at this
        exact this

theorem exitPointLoop_unknown {S : Storage M} {e : Nat} {ids : List NodeId} {r : List (Placed M)}
    (h : List.Forall₂ (HoldsAt S) ids r) : e ∉ exitsOf r → ∀ d : Decisions,
    ∃ d', exitPointLoop (some (e : Int)) ids false d = .ok (false, d') := by
  induction h with
  | nil => intro _ d; exact ⟨d, rfl⟩
  | @cons id x ids r hx _ ih =>
    intro hne d
    obtain ⟨c1, -⟩ := stands_cat hx
    rw [exitPointLoop]
    by_cases hex : id.cat = .exit
    · rw [exitsOf_cons_exit (c1.1 hex), List.mem_cons, not_or] at hne
      rw [if_pos hex]
      dsimp only
      rw [if_neg (by rw [hx.1, Option.some.injEq, Int.natCast_inj]; exact fun h => hne.1 h.symm), if_neg (by simp)]
      exact ih hne.2 _
    · rw [exitsOf_cons_other (fun h => hex (c1.2 h))] at hne
      rw [if_neg hex]
      split
      · exact ih hne _
      · exact ih hne _

theorem exitPointLoop_once {t : Option Int} : ∀ {ids : List NodeId} {x : Bool} {d : Decisions}
    {r : Bool × Decisions}, exitPointLoop t ids x d = .ok r → (d.map Prod.fst).Nodup →
      (r.2.map Prod.fst).Nodup := by
  intro ids
  induction ids with
  | nil => intro x d r h hd; cases h; exact hd
  | cons id ids ih =>
    intro x d r h hd
    rw [exitPointLoop] at h
    split_ifs at h
    all_goals first
      | exact ih h hd
      | exact ih h (dictSet_nodup _ _ _ hd).1

theorem assignment_ok (proto : List (Node M)) (e : Option Nat) :
    ((∀ i, e = some i → i ∈ exitsOf (placed proto)) →
      ∃ d, assignmentFromExitPoint (pack proto) (asInt e) = .ok d ∧ ExitsAt proto e d)
    ∧ (∀ i, e = some i → i ∉ exitsOf (placed proto) →
      assignmentFromExitPoint (pack proto) (asInt e) = .error .value) := by
  constructor
  · intro he
    obtain ⟨d, h1, h2⟩ := exitPointLoop_spec he (holdsAt_pack proto) [] [] rfl (by
      intro k
      obtain ⟨i, c⟩ := k
      cases c <;> simp [exitValue, exitsOf, startsOf])
    rw [decide_eq_false (by simp [exitsOf])] at h1
    refine ⟨d, ?_, exitPointLoop_once h1 (by simp), h2⟩
    unfold assignmentFromExitPoint
    rw [h1]
    dsimp only
    rw [if_neg]
    rintro ⟨h3, h4⟩
    cases e with
    | none => exact h3 rfl
    | some i =>
      rw [decide_eq_false_iff_not] at h4
      exact h4 ⟨i, rfl, he i rfl⟩
  · rintro i rfl hi
    obtain ⟨d, h1⟩ := exitPointLoop_unknown (holdsAt_pack proto) hi []
    unfold assignmentFromExitPoint
    rw [asInt, h1]
    dsimp only
    rw [if_pos ⟨by simp, rfl⟩]

end RUSure.Lemmas
