import Verif.Spec.Truncation
import Verif.Lemmas.StackSplit

/-!
# Docstrings: the texts
-/

namespace RUSure.Lemmas
open RUSure RUSure.Spec

theorem afterSpaces_split (t : Text) : ∃ s, Spaces s ∧ t = s ++ afterSpaces t ∧ (afterSpaces t).head? ≠ some ' ' := by
  induction t with
  | nil => exact ⟨[], by simp [Spaces], rfl, by simp [afterSpaces]⟩
  | cons c t ih =>
    by_cases hc : c = ' '
    · subst hc
      obtain ⟨s, h1, h2, h3⟩ := ih
      have e : afterSpaces (' ' :: t) = afterSpaces t := by simp [afterSpaces]
      rw [e]
      refine ⟨' ' :: s, ?_, ?_, h3⟩
      · intro c hc
        rcases List.mem_cons.mp hc with rfl | hc
        · rfl
        · exact h1 c hc
      · rw [List.cons_append, ← h2]
    · have e : afterSpaces (c :: t) = c :: t := by simp [afterSpaces, hc]
      rw [e]
      exact ⟨[], by simp [Spaces], rfl, by simpa using hc⟩

theorem afterSpaces_append {s u : Text} (hs : Spaces s) (hu : u.head? ≠ some ' ') : afterSpaces (s ++ u) = u := by
  induction s with
  | nil =>
    cases u with
    | nil => rfl
    | cons c u =>
      have : c ≠ ' ' := by simpa using hu
      simp [afterSpaces, this]
  | cons c s ih =>
    have hc := hs c (by simp)
    subst hc
    have := ih fun c hc => hs c (by simp [hc])
    simpa [afterSpaces] using this

theorem isPrefixOf_append {p t : Text} : p.isPrefixOf t = true ↔ ∃ rest, t = p ++ rest := by
  rw [List.isPrefixOf_iff_prefix]
  constructor
  · rintro ⟨r, h⟩
    exact ⟨r, h.symm⟩
  · rintro ⟨r, h⟩
    exact ⟨r, h.symm⟩

theorem looks_iff (t : Text) : looksLikeFunction t = true ↔ ∃ n, FunctionText n t := by
  unfold looksLikeFunction
  rw [isPrefixOf_append]
  constructor
  · rintro ⟨rest, h⟩
    obtain ⟨s, h1, h2, -⟩ := afterSpaces_split t
    refine ⟨s.length, s, rest, h1, rfl, ?_⟩
    rw [h] at h2
    rw [h2, List.append_assoc]
  · rintro ⟨n, s, rest, h1, -, rfl⟩
    refine ⟨rest, ?_⟩
    rw [List.append_assoc, afterSpaces_append h1 (by simp)]

theorem docMatch_iff (t : Text) (e : Nat) : docstringMatch t = some e ↔ ∃ n, DocText n t ∧ e = n + 3 := by
  unfold docstringMatch
  obtain ⟨s, h1, h2, h3⟩ := afterSpaces_split t
  have hlen : t.length = s.length + (afterSpaces t).length := by
    conv_lhs => rw [h2]
    rw [List.length_append]
  constructor
  · intro h
    split at h
    · rename_i hc
      have : ∃ q, TripleQuotes q ∧ ∃ rest, afterSpaces t = q ++ rest := by
        rcases hc with hc | hc
        · exact ⟨_, .inl rfl, isPrefixOf_append.mp hc⟩
        · exact ⟨_, .inr rfl, isPrefixOf_append.mp hc⟩
      obtain ⟨q, hq, rest, hr⟩ := this
      have h' := Option.some.inj h
      refine ⟨s.length, ⟨s, q, rest, h1, rfl, hq, ?_⟩, by omega⟩
      rw [hr] at h2
      rw [h2, List.append_assoc]
    · cases h
  · rintro ⟨n, ⟨s', q, rest, k1, k2, k3, k4⟩, rfl⟩
    have hq : (q ++ rest).head? ≠ some ' ' := by rcases k3 with rfl | rfl <;> simp
    have ha : afterSpaces t = q ++ rest := by
      rw [k4, List.append_assoc, afterSpaces_append k1 hq]
    rw [if_pos]
    · have : t.length = s'.length + (q ++ rest).length := by
        rw [k4]; simp
      rw [ha]
      congr 1
      omega
    · rw [ha]
      rcases k3 with rfl | rfl
      · exact .inl (isPrefixOf_append.mpr ⟨rest, rfl⟩)
      · exact .inr (isPrefixOf_append.mpr ⟨rest, rfl⟩)

/-! ### Counting indents -/

theorem indents_loop {cc : CharClass} (hcc : cc.isSpace ' ' = true) {width : Nat} (hw : 0 < width) {s : Text}
    (hs : Spaces s) {x : Char} (hx : cc.isSpace x = false) (u : Text) : ∀ (fuel k : Nat),
    k * width ≤ s.length → s.length < k * width + fuel * width →
    leadingIndentsLoop cc width (s ++ x :: u) fuel ((k + 1) * width) k = s.length / width
  | 0, k, h1, h2 => by omega
  | fuel + 1, k, h1, h2 => by
    have hmul : (k + 1) * width = k * width + width := by rw [Nat.add_mul, Nat.one_mul]
    rw [leadingIndentsLoop]
    have hsub : (k + 1) * width - width = k * width := by omega
    by_cases hle : (k + 1) * width ≤ s.length
    · have hlt : (k + 1) * width < (s ++ x :: u).length := by simp; omega
      rw [if_pos hlt, hsub]
      have htake : (s ++ x :: u).take ((k + 1) * width) = s.take ((k + 1) * width) := by
        rw [List.take_append_of_le_length hle]
      have hall : ((s.take ((k + 1) * width)).drop (k * width)).all cc.isSpace = true := by
        rw [List.all_eq_true]
        intro c hc
        rw [hs c (List.mem_of_mem_take (List.mem_of_mem_drop hc))]
        exact hcc
      have hne : (s.take ((k + 1) * width)).drop (k * width) ≠ [] := by
        intro h0
        have := congrArg List.length h0
        simp at this
        omega
      rw [htake, hall]
      simp only [Bool.true_and, decide_eq_true_eq]
      rw [if_pos hne]
      have hdiv : (k + 1) * width / width = k + 1 := Nat.mul_div_cancel _ hw
      rw [hdiv]
      have := indents_loop hcc hw hs hx u fuel (k + 1) hle (by
        have : (fuel + 1) * width = fuel * width + width := by rw [Nat.add_mul, Nat.one_mul]
        omega)
      rw [show (k + 1 + 1) * width = (k + 1) * width + width by rw [Nat.add_mul (k + 1), Nat.one_mul]] at this
      exact this
    · have hres : k = s.length / width := by
        symm
        rw [Nat.div_eq_iff hw]
        rw [Nat.mul_comm]
        constructor
        · rw [Nat.mul_comm]; exact h1
        · have : width * k = k * width := Nat.mul_comm _ _
          omega
      by_cases hlt : (k + 1) * width < (s ++ x :: u).length
      · rw [if_pos hlt, hsub]
        have hall : (((s ++ x :: u).take ((k + 1) * width)).drop (k * width)).all cc.isSpace = false := by
          rw [List.all_eq_false]
          refine ⟨x, ?_, by rw [hx]; simp⟩
          rw [List.mem_iff_getElem?]
          refine ⟨s.length - k * width, ?_⟩
          rw [List.getElem?_drop, List.getElem?_take]
          rw [if_pos (by omega), show k * width + (s.length - k * width) = s.length by omega]
          simp
        rw [hall]
        simp only [Bool.false_and, Bool.false_eq_true, if_false]
        exact hres
      · rw [if_neg hlt]
        exact hres

theorem indents_eq {cc : CharClass} (hcc : cc.isSpace ' ' = true) {width : Nat} (hw : 0 < width) {s : Text}
    (hs : Spaces s) {x : Char} (hx : cc.isSpace x = false) (u : Text) :
    leadingIndents cc width (s ++ x :: u) = .ok (s.length / width) := by
  unfold leadingIndents
  rw [if_neg (by omega)]
  have := indents_loop hcc hw hs hx u (s ++ x :: u).length 0 (by omega) (by
    rw [Nat.zero_mul, Nat.zero_add]
    have : (s ++ x :: u).length * 1 ≤ (s ++ x :: u).length * width := Nat.mul_le_mul_left _ hw
    simp at this ⊢
    omega)
  rw [Nat.zero_add, Nat.one_mul] at this
  rw [this]

theorem indents_function {cc : CharClass} (hcc : DocstringChars cc) {width : Nat} (hw : 0 < width) {n : Nat} {t : Text}
    (h : FunctionText n t) : leadingIndents cc width t = .ok (n / width) := by
  obtain ⟨s, rest, h1, rfl, rfl⟩ := h
  rw [List.append_assoc]
  exact indents_eq hcc.1 hw h1 hcc.2.1 _

theorem indents_doc {cc : CharClass} (hcc : DocstringChars cc) {width : Nat} (hw : 0 < width) {n : Nat} {t : Text}
    (h : DocText n t) : leadingIndents cc width t = .ok (n / width) := by
  obtain ⟨s, q, rest, h1, rfl, h2, rfl⟩ := h
  rw [List.append_assoc]
  rcases h2 with rfl | rfl
  · exact indents_eq hcc.1 hw h1 hcc.2.2.1 _
  · exact indents_eq hcc.1 hw h1 hcc.2.2.2 _

theorem spaces_unique {s s' u u' : Text} (h1 : Spaces s) (h2 : Spaces s') (hu : u.head? ≠ some ' ')
    (hu' : u'.head? ≠ some ' ') (h : s ++ u = s' ++ u') : s = s' ∧ u = u' := by
  have e : u = u' := by rw [← afterSpaces_append h1 hu, h, afterSpaces_append h2 hu']
  subst e
  exact ⟨List.append_cancel_right h, rfl⟩

theorem functionText_unique {n m : Nat} {t : Text} (h1 : FunctionText n t) (h2 : FunctionText m t) : n = m := by
  obtain ⟨s, r, a, rfl, rfl⟩ := h1
  obtain ⟨s', r', a', rfl, e⟩ := h2
  rw [List.append_assoc, List.append_assoc] at e
  rw [(spaces_unique a a' (by simp) (by simp) e).1]

theorem docText_unique {n m : Nat} {t : Text} (h1 : DocText n t) (h2 : DocText m t) : n = m := by
  obtain ⟨s, q, r, a, rfl, b, rfl⟩ := h1
  obtain ⟨s', q', r', a', rfl, b', e⟩ := h2
  rw [List.append_assoc, List.append_assoc] at e
  rw [(spaces_unique a a' (by rcases b with rfl | rfl <;> simp) (by rcases b' with rfl | rfl <;> simp) e).1]

/-! ### The tree -/

/-- What is found at a node and its next sibling. -/
def DocstringHere (raw : List Text) (width : Nat) (a b : PNode) (p : Nat) : Prop :=
  ∃ n m, FunctionText n (a.text raw) ∧ DocText m (b.text raw) ∧ m / width = n / width + 1
    ∧ p = startOf raw b.lo + (m + 3)

section
variable {cc : CharClass} (hcc : DocstringChars cc) {width : Nat} (hw : 0 < width) {raw : List Text}
include hcc hw

theorem docstringAfter_iff (a : PNode) (o : Option PNode) : ∃ l, docstringAfter cc raw width a o = .ok l ∧
    ∀ p, p ∈ l ↔ ∃ b, o = some b ∧ DocstringHere raw width a b p := by
  cases o with
  | none => exact ⟨[], rfl, by simp⟩
  | some b =>
    unfold docstringAfter
    dsimp only
    by_cases hf : looksLikeFunction (a.text raw) = true
    · rw [if_pos hf]
      obtain ⟨n, hn⟩ := (looks_iff _).mp hf
      cases hd : docstringMatch (b.text raw) with
      | none =>
        refine ⟨[], rfl, fun p => ?_⟩
        simp only [List.not_mem_nil, false_iff]
        rintro ⟨b', hb', n', m', -, h2, -⟩
        cases hb'
        have := (docMatch_iff _ _).mpr ⟨m', h2, rfl⟩
        rw [hd] at this
        cases this
      | some e =>
        obtain ⟨m, hm, rfl⟩ := (docMatch_iff _ _).mp hd
        dsimp only
        rw [indents_doc hcc hw hm, indents_function hcc hw hn]
        dsimp only [bind, Except.bind]
        have huniq : ∀ p, (∃ b', some b = some b' ∧ DocstringHere raw width a b' p)
            ↔ m / width = n / width + 1 ∧ p = startOf raw b.lo + (m + 3) := by
          intro p
          constructor
          · rintro ⟨b', hb', n', m', h1, h2, h3, h4⟩
            cases hb'
            obtain rfl := functionText_unique hn h1
            obtain rfl := docText_unique hm h2
            exact ⟨h3, h4⟩
          · rintro ⟨h3, h4⟩
            exact ⟨b, rfl, n, m, hn, hm, h3, h4⟩
        by_cases he : m / width = n / width + 1
        · rw [if_pos he]
          refine ⟨_, rfl, fun p => ?_⟩
          rw [huniq]
          simp [he, startOf]
        · rw [if_neg he]
          refine ⟨_, rfl, fun p => ?_⟩
          rw [huniq]
          simp [he]
    · rw [if_neg hf]
      refine ⟨[], rfl, fun p => ?_⟩
      simp only [List.not_mem_nil, false_iff]
      rintro ⟨b', -, n', m', h1, -⟩
      exact hf ((looks_iff _).mpr ⟨n', h1⟩)

mutual
theorem docstrings_below : ∀ n : PNode, ∃ l, docstringsBelow cc raw width n = .ok l ∧
    ∀ p, p ∈ l ↔ ∃ a b, Adjacent n a b ∧ DocstringHere raw width a b p
  | .mk lo hi ann cs => by
    obtain ⟨l, h1, h2⟩ := docstrings_among cs
    refine ⟨l, ?_, fun p => ?_⟩
    · rw [docstringsBelow]
      exact h1
    · rw [h2 p]
      constructor
      · rintro ⟨a, b, ⟨l', r', h3⟩ | ⟨x, l', r', hx, h3⟩, h4⟩
        · exact ⟨a, b, ⟨_, l', r', .self, h3⟩, h4⟩
        · exact ⟨a, b, ⟨x, l', r', .child hx, h3⟩, h4⟩
      · rintro ⟨a, b, ⟨x, l', r', hx, h3⟩, h4⟩
        rcases inTree_mk.mp hx with rfl | hx
        · exact ⟨a, b, .inl ⟨l', r', h3⟩, h4⟩
        · exact ⟨a, b, .inr ⟨x, l', r', hx, h3⟩, h4⟩

theorem docstrings_among : ∀ cs : List PNode, ∃ l, docstringsAmong cc raw width cs = .ok l ∧
    ∀ p, p ∈ l ↔ ∃ a b, ((∃ l r, cs = l ++ a :: b :: r) ∨ ∃ x l r, InTrees x cs ∧ x.children = l ++ a :: b :: r)
      ∧ DocstringHere raw width a b p
  | [] => by
    refine ⟨[], by rw [docstringsAmong], fun p => ?_⟩
    simp only [List.not_mem_nil, false_iff]
    rintro ⟨a, b, ⟨l, r, h⟩ | ⟨x, l, r, hx, -⟩, -⟩
    · simp at h
    · cases hx
  | c :: cs => by
    obtain ⟨l1, h1, k1⟩ := docstringAfter_iff hcc hw (raw := raw) c cs.head?
    obtain ⟨l2, h2, k2⟩ := docstrings_below c
    obtain ⟨l3, h3, k3⟩ := docstrings_among cs
    refine ⟨l1 ++ l2 ++ l3, ?_, fun p => ?_⟩
    · rw [docstringsAmong, h1, h2, h3]
      rfl
    · rw [List.mem_append, List.mem_append, k1, k2, k3]
      constructor
      · rintro ((⟨b, hb, h⟩ | ⟨a, b, ⟨x, l, r, hx, e⟩, h⟩) | ⟨a, b, ⟨l, r, e⟩ | ⟨x, l, r, hx, e⟩, h⟩)
        · obtain ⟨r, rfl⟩ := List.head?_eq_some_iff.mp hb
          exact ⟨c, b, .inl ⟨[], r, rfl⟩, h⟩
        · exact ⟨a, b, .inr ⟨x, l, r, .here hx, e⟩, h⟩
        · exact ⟨a, b, .inl ⟨c :: l, r, by rw [e]; rfl⟩, h⟩
        · exact ⟨a, b, .inr ⟨x, l, r, .there hx, e⟩, h⟩
      · rintro ⟨a, b, ⟨l, r, e⟩ | ⟨x, l, r, hx, e⟩, h⟩
        · cases l with
          | nil =>
            rw [List.nil_append] at e
            obtain ⟨rfl, rfl⟩ := List.cons.inj e
            exact .inl (.inl ⟨b, rfl, h⟩)
          | cons d l =>
            rw [List.cons_append] at e
            obtain ⟨rfl, rfl⟩ := List.cons.inj e
            exact .inr ⟨a, b, .inl ⟨l, r, rfl⟩, h⟩
        · rcases inTrees_cons.mp hx with hx | hx
          · exact .inl (.inr ⟨a, b, ⟨x, l, r, hx, e⟩, h⟩)
          · exact .inr ⟨a, b, .inr ⟨x, l, r, hx, e⟩, h⟩
end

end

/-! ### Neighbouring siblings -/

theorem tile_adjacent : ∀ {cs : List PNode} {lo hi : Nat}, RangesTile lo hi cs → ∀ {l r a b},
    cs = l ++ a :: b :: r → RangeOk a ∧ RangeOk b ∧ a.hi = some b.lo
  | _, _, _, .nil _, l, r, a, b, e => by simp at e
  | _, _, _, .cons h1 h2, l, r, a, b, e => by
    cases l with
    | nil =>
      rw [List.nil_append] at e
      obtain ⟨rfl, e'⟩ := List.cons.inj e
      clear e
      cases h2 with
      | nil => cases e'
      | cons h3 h4 =>
        obtain ⟨rfl, -⟩ := List.cons.inj e'
        exact ⟨h1, h3, rfl⟩
    | cons d l =>
      rw [List.cons_append] at e
      exact tile_adjacent h2 (List.cons.inj e).2

theorem rangeOk_le : ∀ {n : PNode}, RangeOk n → ∃ hi, n.hi = some hi ∧ n.lo ≤ hi := by
  have tile : ∀ {cs : List PNode} {lo hi : Nat}, (∀ c ∈ cs, ∀ h, c.hi = some h → c.lo ≤ h) → RangesTile lo hi cs →
      lo ≤ hi := by
    intro cs
    induction cs with
    | nil => intro lo hi _ h; cases h; exact Nat.le_refl _
    | cons c cs ih =>
      intro lo hi hc h
      cases h with
      | @cons _ mid _ ann ds _ h1 h2 =>
        have := ih (fun d hd => hc d (by simp [hd])) h2
        have := hc _ (List.mem_cons_self) mid rfl
        simp only [PNode.lo] at this
        omega
  intro n h
  have main : ∀ (k : Nat) (n : PNode), sizeOf n ≤ k → RangeOk n → ∀ h, n.hi = some h → n.lo ≤ h := by
    intro k
    induction k with
    | zero =>
      intro n hk
      cases n
      simp at hk
    | succ k ih =>
      intro n hk hr h he
      cases hr with
      | leaf hle => cases he; exact hle
      | @inner lo hi ann cs hne ht =>
        cases he
        refine tile (fun c hc h' he' => ?_) ht
        have hsz : sizeOf c < sizeOf cs := List.sizeOf_lt_of_mem hc
        simp at hk
        refine ih c (by omega) ?_ h' he'
        clear tile ih hk hne hsz he'
        induction cs generalizing lo with
        | nil => cases hc
        | cons d ds ihd =>
          cases ht with
          | cons k1 k2 =>
            rcases List.mem_cons.mp hc with rfl | hc
            · exact k1
            · exact ihd k2 hc
  cases h with
  | leaf hle => exact ⟨_, rfl, hle⟩
  | @inner lo hi ann cs hne ht => exact ⟨_, rfl, main _ (.mk lo (some hi) ann cs) (Nat.le_refl _) (.inner hne ht) hi rfl⟩

mutual
theorem rangeOk_sub : ∀ (n : PNode), RangeOk n → ∀ x, InTree x n → RangeOk x
  | .mk lo hi ann cs, h, x, hx => by
    rcases inTree_mk.mp hx with rfl | hx'
    · exact h
    · cases h with
      | leaf => cases hx'
      | inner _ ht => exact tile_sub cs _ _ ht x hx'

theorem tile_sub : ∀ (cs : List PNode) (lo hi : Nat), RangesTile lo hi cs → ∀ x, InTrees x cs → RangeOk x
  | [], _, _, _, x, hx => by cases hx
  | c :: cs, lo, hi, h, x, hx => by
    cases h with
    | @cons _ mid _ ann ds _ h1 h2 =>
      rcases inTrees_cons.mp hx with hx | hx
      · exact rangeOk_sub _ h1 x hx
      · exact tile_sub cs _ _ h2 x hx
end

theorem text_split (raw : List Text) {n : PNode} {hi : Nat} (h : n.hi = some hi) (hle : n.lo ≤ hi) :
    (raw.take hi).flatten = (raw.take n.lo).flatten ++ n.text raw := by
  unfold PNode.text pySlice
  rw [h]
  dsimp only
  rw [← List.flatten_append]
  congr 1
  conv_lhs => rw [← List.take_append_drop n.lo (raw.take hi)]
  rw [List.take_take, Nat.min_eq_left hle]

/-- The texts of neighbouring siblings are neighbours in the code. -/
theorem adjacent_text {raw : List Text} {root a b : PNode} (hr : RangeOk root) (h : Adjacent root a b) :
    ∃ before after, raw.flatten = before ++ a.text raw ++ b.text raw ++ after
      ∧ startOf raw b.lo = (before ++ a.text raw).length := by
  obtain ⟨x, l, r, hx, e⟩ := h
  have hxr := rangeOk_sub root hr x hx
  have : RangeOk a ∧ RangeOk b ∧ a.hi = some b.lo := by
    cases hxr with
    | leaf => simp [PNode.children] at e
    | inner _ ht => exact tile_adjacent ht e
  obtain ⟨ha, hb, hab⟩ := this
  obtain ⟨ah, ha1, ha2⟩ := rangeOk_le ha
  obtain ⟨bh, hb1, hb2⟩ := rangeOk_le hb
  rw [hab] at ha1
  obtain rfl : b.lo = ah := Option.some.inj ha1
  refine ⟨(raw.take a.lo).flatten, (raw.drop bh).flatten, ?_, ?_⟩
  · rw [← text_split raw hab ha2, ← text_split raw hb1 hb2, ← List.flatten_append, List.take_append_drop]
  · rw [← text_split raw hab ha2]
    rfl

/-! ### Finding a text -/

theorem find_iff (sub : Text) (hs : sub ≠ []) : ∀ (t : Text),
    (∀ i, findText sub t = some i ↔ FirstIn sub t i)
    ∧ (findText sub t = none ↔ ∀ mid rest, t ≠ mid ++ sub ++ rest)
  | [] => by
    have hno : ∀ mid rest, ([] : Text) ≠ mid ++ sub ++ rest := by
      intro mid rest h
      have := congrArg List.length h
      have := List.length_pos_iff.mpr hs
      simp at *
      omega
    have hf : findText sub [] = none := by
      rw [findText, if_neg]
      simpa using hs
    refine ⟨fun i => ?_, ?_⟩
    · rw [hf]
      constructor
      · intro h; cases h
      · rintro ⟨⟨mid, rest, h, -⟩, -⟩
        exact absurd h (hno mid rest)
    · rw [hf]
      simpa using hno
  | c :: t => by
    obtain ⟨ih1, ih2⟩ := find_iff sub hs t
    rw [findText]
    by_cases hp : sub.isPrefixOf (c :: t) = true
    · rw [if_pos hp]
      obtain ⟨rest, hr⟩ := isPrefixOf_append.mp hp
      refine ⟨fun i => ?_, ?_⟩
      · constructor
        · intro h
          cases h
          exact ⟨⟨[], rest, by simpa using hr, rfl⟩, fun _ _ _ => Nat.zero_le _⟩
        · rintro ⟨-, h⟩
          have := h [] rest (by simpa using hr)
          rw [List.length_nil] at this
          rw [Nat.le_zero.mp this]
      · simp only [reduceCtorEq, false_iff]
        intro h
        exact h [] rest (by simpa using hr)
    · rw [if_neg hp]
      have hmid : ∀ mid rest, c :: t = mid ++ sub ++ rest → ∃ mid', mid = c :: mid' ∧ t = mid' ++ sub ++ rest := by
        intro mid rest h
        cases mid with
        | nil => exact absurd (isPrefixOf_append.mpr ⟨rest, by simpa using h⟩) hp
        | cons d mid =>
          simp only [List.cons_append, List.cons.injEq] at h
          obtain ⟨rfl, h⟩ := h
          exact ⟨mid, rfl, h⟩
      refine ⟨fun i => ?_, ?_⟩
      · constructor
        · intro h
          obtain ⟨i', h1, rfl⟩ := Option.map_eq_some_iff.mp h
          obtain ⟨⟨mid, rest, h2, h3⟩, h4⟩ := (ih1 i').mp h1
          refine ⟨⟨c :: mid, rest, by rw [h2]; rfl, by rw [List.length_cons, h3]⟩, fun mid' rest' h' => ?_⟩
          obtain ⟨m, rfl, h5⟩ := hmid mid' rest' h'
          have := h4 m rest' h5
          rw [List.length_cons]
          omega
        · rintro ⟨⟨mid, rest, h2, rfl⟩, h4⟩
          obtain ⟨m, rfl, h5⟩ := hmid mid rest h2
          rw [(ih1 m.length).mpr]
          · rfl
          · refine ⟨⟨m, rest, h5, rfl⟩, fun mid' rest' h' => ?_⟩
            have := h4 (c :: mid') rest' (by rw [h']; rfl)
            simp at this
            exact this
      · rw [Option.map_eq_none_iff, ih2]
        constructor
        · intro h mid rest h'
          obtain ⟨m, -, h5⟩ := hmid mid rest h'
          exact h m rest h5
        · intro h mid rest h'
          exact h (c :: mid) rest (by rw [h']; rfl)

end RUSure.Lemmas
