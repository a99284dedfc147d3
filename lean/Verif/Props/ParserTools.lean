import Verif.Lemmas.ParserTools

/-!
# C19 and C21: from source texts to node sequences, and the width of indents
-/

namespace RUSure.Props
open RUSure RUSure.Spec RUSure.Lemmas

variable {digit : Char → Bool}

/-! ### C19 -/

/-- **C19.** If a parse tree can be converted, then the text of the result is that of the tokens that
the tree covers; whatever the tokens, their types, and the node types to be treated as decoration or
to be split. All that is needed is that no range ends before it begins. -/
theorem C19_text {cc : CharClass} {tokens : List Text} {types : List TokenType} {deco sub : List NodeType}
    {n : PNode} {m : Node MatchName} (hr : ∀ x, InTree x n → ∀ h, x.hi = some h → x.lo ≤ h)
    (h : toSequenceNode cc tokens types deco sub n = .ok m) :
    text [m] = match n.hi with
      | none => (tokens.drop n.lo).flatten
      | some hi => ((tokens.take hi).drop n.lo).flatten := by
  rw [← C06_render_is_text, renderTextL_singleton, toSequence_text n m h hr]
  unfold PNode.text pySlice
  cases n.hi <;> rfl

/-- **C19.** A tree whose tokens are leaves is converted if the children of each of its nodes divide
the range of that node, and otherwise a `ValueError` is raised; as long as only types of leaves are
treated as decoration or split. -/
theorem C19_boundaries {cc : CharClass} {tokens : List Text} {types : List TokenType} {deco sub : List NodeType}
    {n : PNode} (hd : ∀ t ∈ deco, t ∈ [NodeType.nonContentLeaf, .whiteSpaceLeaf, .stringLiteral, .contentLeaf])
    (hs : ∀ t ∈ sub, t ∈ [NodeType.nonContentLeaf, .whiteSpaceLeaf, .stringLiteral, .contentLeaf])
    (hf : ∀ x, InTree x n → x.ann = .sibling → x.children = []) :
    ((∀ x, InTree x n → Divided x) → ∃ m, toSequenceNode cc tokens types deco sub n = .ok m)
      ∧ (¬ (∀ x, InTree x n → Divided x) → toSequenceNode cc tokens types deco sub n = .error .value) :=
  toSequence_ok hd hs n hf

-- A group whose children leave out a token.
example : toSequenceNode asciiClass [['a'], ['b'], ['c']] [.id, .id, .id] [.whiteSpaceLeaf] [.stringLiteral]
    (.mk 0 (some 3) .root [leafNode 0, leafNode 2]) = .error .value := by
  rfl

/-- **C19.** Raw texts are split, and nothing is lost. -/
theorem C19_raw (cc : CharClass) (flatten : Bool) (code : Text) :
    ∃ nodes, parseToNodes cc digit .rawSimpleTokens flatten code = .ok nodes
      ∧ piecesOf nodes = (subtokenize cc code).map .token ∧ text nodes = code := by
  refine ⟨_, rfl, pieces_subtokens cc code, ?_⟩
  rw [← pieces_text, pieces_subtokens, List.flatMap_map]
  exact List.flatMap_id'.trans (C14_lossless cc code)

theorem tokenPieces_text (cc : CharClass) (ty : TokenType) (t : Text) :
    (tokenPieces cc ty t).flatMap Piece.text = t := by
  unfold tokenPieces
  split
  · simp [Piece.text]
  · split
    · rw [List.flatMap_map]
      exact List.flatMap_id'.trans (C14_lossless cc t)
    · simp [Piece.text]

/-- The text of the parts of some tokens. -/
theorem flat_pieces (cc : CharClass) (typ : Text → TokenType) (toks : List Text) :
    (toks.flatMap fun t => tokenPieces cc (typ t) t).flatMap Piece.text = toks.flatten := by
  induction toks with
  | nil => rfl
  | cons t ts ih => rw [List.flatMap_cons, List.flatMap_append, ih, tokenPieces_text]; rfl

theorem parsed_result {r : ParseResult} {m : Node MatchName} {cc : CharClass} {flatten : Bool} {toks : List Text}
    {lang : SourceLanguage} {code : Text} {spaces : Nat} {typ : Text → TokenType}
    (hs : (if lang = .python then inferSpacesPerIndent cc digit code [1, 2, 3, 4] else .ok 1) = .ok spaces)
    (hp : parseAndMaybePreprocess cc digit lang code spaces = .ok r)
    (hm : toSequenceNode cc r.raw r.types [.whiteSpaceLeaf, .nonContentLeaf] [.stringLiteral] r.root = .ok m)
    (hpc : piecesOf [m] = toks.flatMap fun t => tokenPieces cc (typ t) t) (hc : toks.flatten = code) :
    ∃ nodes, parseToNodes cc digit (.parsed lang) flatten code = .ok nodes
      ∧ piecesOf nodes = (toks.flatMap fun t => tokenPieces cc (typ t) t) ∧ text nodes = code := by
  have key : ∀ nodes : List (Node MatchName), piecesOf nodes = piecesOf [m] → piecesOf nodes = (toks.flatMap fun t => tokenPieces cc (typ t) t)
      ∧ text nodes = code := by
    intro nodes h
    rw [← pieces_text, h, hpc]
    refine ⟨rfl, ?_⟩
    rw [flat_pieces, hc]
  refine ⟨if flatten then flattenGroups [m] else [m], ?_, key _ ?_⟩
  · unfold parseToNodes
    dsimp only
    split
    · rename_i h
      rw [if_pos h] at hs
      refine bind_of_ok hs ?_
      refine bind_of_ok hp ?_
      exact bind_of_ok hm rfl
    · rename_i h
      rw [if_neg h] at hs
      refine bind_of_ok hs ?_
      refine bind_of_ok hp ?_
      exact bind_of_ok hm rfl
  · split
    · exact pieces_flatten _
    · rfl

/-- **C19.** Code that is parsed in one go, whatever it is: parsing to nodes succeeds, the text of the
nodes is the code, and the tokens of the code become decorations if they are white space, and tokens
otherwise. -/
theorem C19_direct (hd : DigitSane digit) {cc : CharClass} (hb : BracketsVisible cc) (lang : Language)
    (flatten : Bool) (code : Text) :
    ∃ (nodes : List (Node MatchName)) (toks : List Text), parseToNodes cc digit (.parsed (.direct lang)) flatten code = .ok nodes
      ∧ text nodes = code ∧ toks.flatten = code ∧ [] ∉ toks
      ∧ piecesOf nodes = toks.flatMap fun t => tokenPieces cc (typeOf digit lang t) t := by
  obtain ⟨r, toks, h1, h2, h3, h4, h5, h6, h7, -⟩ := C58_direct hd lang cc code 1
  obtain ⟨pre, post, e1, e2, e3, -, -⟩ := h4.shape
  have hl : r.raw.length = r.tokens.length := by
    rw [h5, e1]
    simp [e2, e3]
  obtain ⟨m, hm, hp⟩ := convert_tree (cc := cc) (raw := r.raw) (types := r.types) (by rw [h6, hl]; simp) hl h7 (by
    intro k t x ty hk ht hx hty h0
    obtain ⟨c, hc, rfl⟩ := bracket_char ht
    have hx' : x = [c] := by
      rw [e1] at hk
      rw [h5] at hx
      rcases Nat.lt_or_ge k r.nPre with h | h
      · rw [List.getElem?_append_left (by simp; omega), List.getElem?_append_left (by simpa using h),
          List.getElem?_replicate, if_pos h] at hx
        exact absurd (Option.some.inj hx).symm h0
      · rcases Nat.lt_or_ge k (r.nPre + toks.length) with h' | h'
        · rw [List.getElem?_append_left (by simp; omega), List.getElem?_append_right (by simpa using h)] at hx
          rw [List.getElem?_append_left (by simp; omega), List.getElem?_append_right (by omega), e2] at hk
          rw [List.length_replicate, hk] at hx
          exact (Option.some.inj hx).symm
        · rw [List.getElem?_append_right (by simp; omega), List.getElem?_replicate] at hx
          split at hx
          · exact absurd (Option.some.inj hx).symm h0
          · cases hx
    subst hx'
    rw [h6, List.getElem?_map, hk] at hty
    cases hty
    exact ⟨by simp [hb c hc], typeOf_bracket hc lang⟩)
  have hpp : piecesOf [m] = toks.flatMap fun t => tokenPieces cc (typeOf digit lang t) t := by
    rw [hp, h5, h6, e1]
    exact zip_parts (tokenPieces cc) (typeOf digit lang) _ _ pre toks post e2 e3 h3
  obtain ⟨nodes, k1, k2, k3⟩ := parsed_result (flatten := flatten) (by rw [if_neg (by simp)]) h1 hm hpp h2
  exact ⟨nodes, toks, k1, k3, h2, h3, k2⟩

/-! ### C21 -/

/-- **C21.** The inferred number of spaces per indent is the last of the candidates that divide the
widths of all runs of spaces that directly follow an indent; it is one if there are no such runs, or if
no candidate divides all. (Here the code is read with one space per indent, so that any increase of the
indentation is an indent.) -/
theorem C21_inferred (hd : DigitSane digit) (cc : CharClass) {code : Text} (hc : code ≠ []) {cands : List Nat}
    (h0 : 0 ∉ cands) : ∃ r, parseAndMaybePreprocess cc digit .python code 1 = .ok r
      ∧ inferSpacesPerIndent cc digit code cands = .ok (if indentWidths (markedTokens r) = [] then 1
        else ((cands.filter fun c => ∀ w ∈ indentWidths (markedTokens r), c ∣ w).getLast?).getD 1) := by
  obtain ⟨r, h1, -, h2, h3, -, h4, h5, -⟩ := python_run hd cc hc Nat.one_pos
  refine ⟨r, h1, ?_⟩
  unfold inferSpacesPerIndent
  rw [if_neg hc]
  refine bind_of_ok h1 ?_
  dsimp only
  rw [h3, indentLengths_eq hd (markedTokens r) r.raw (by rw [← h2]; exact h4) h5.2]
  split
  · rfl
  · rw [lastDivisor_eq h0]
    congr 4
    funext c
    rw [Bool.eq_iff_iff]
    simp [Nat.dvd_iff_mod_eq_zero]

/-- **C21.** The runs of spaces are those of the code: they consist of spaces, and no space follows. -/
theorem C21_runs (hd : DigitSane digit) {cc : CharClass} {code : Text} (hc : code ≠ []) {r : ParseResult}
    (h : parseAndMaybePreprocess cc digit .python code 1 = .ok r) {pre post : List MarkedToken} {t : Text}
    (ht : markedTokens r = pre ++ .text t :: post) (hs : t.head? = some ' ') :
    (∀ c ∈ t, c = ' ') ∧ (post.flatMap MarkedToken.string).head? ≠ some ' ' := by
  obtain ⟨r', h1, ⟨toks, -, -, h2, all, h3, h4, -⟩, -⟩ := python_run hd cc hc Nat.one_pos
  rw [h1] at h
  cases h
  obtain ⟨A, B, e1, -, -, hA, hB⟩ := h3.shape
  have hpost : ∀ l : List MarkedToken, l.flatMap MarkedToken.string
      = (plainTexts l).flatten := by
    intro l
    induction l with
    | nil => rfl
    | cons x l ih =>
      cases x with
      | text t => rw [List.flatMap_cons, plain_text, List.flatten_cons, ih]; rfl
      | indent => rw [List.flatMap_cons, ih]; rfl
      | dedent => rw [List.flatMap_cons, ih]; rfl
  have hall : all = plainTexts pre ++ t :: plainTexts post := by
    rw [← plain_of_filter h4, ht]
    simp [plainTexts]
  have hnb : ∀ c, t ≠ [c] ∨ c = ' ' := by
    intro c
    by_cases hc : t = [c]
    · rw [hc] at hs
      exact .inr (by simpa using hs)
    · exact .inl hc
  have hnA : t ∉ A := by
    intro hm
    obtain ⟨c, hc, e⟩ := bracket_char (.inl (hA t hm))
    rcases hnb c with h | rfl
    · exact h e
    · simp at hc
  have hBc : ∀ u ∈ B, ∃ c, c ≠ ' ' ∧ u = [c] := by
    intro u hu
    rcases hB u hu with h | rfl
    · obtain ⟨c, hc, e⟩ := bracket_char (.inr h)
      refine ⟨c, ?_, e⟩
      rintro rfl
      simp at hc
    · exact ⟨_, by decide, rfl⟩
  have hnB : t ∉ B := by
    intro hm
    obtain ⟨c, hc, e⟩ := hBc t hm
    rcases hnb c with h | rfl
    · exact h e
    · exact hc rfl
  rw [e1] at hall
  rw [hpost]
  generalize plainTexts post = Q at hall
  generalize plainTexts pre = P at hall
  obtain ⟨l, q, hl, hq⟩ : ∃ l q, toks = l ++ t :: q ∧ Q = q ++ B := by
    rcases List.append_eq_append_iff.mp hall with ⟨x, e, e'⟩ | ⟨x, e, e'⟩
    · exfalso
      apply hnB
      rw [e']
      simp
    · cases x with
      | nil =>
        exfalso
        apply hnB
        rw [List.nil_append] at e'
        rw [← e']
        simp
      | cons y x =>
        rw [List.cons_append, List.cons.injEq] at e'
        obtain ⟨rfl, e'⟩ := e'
        rcases List.append_eq_append_iff.mp e with ⟨y, f, f'⟩ | ⟨y, f, f'⟩
        · exact ⟨y, x, f', e'⟩
        · cases y with
          | nil => exact ⟨[], x, by simpa using f'.symm, e'⟩
          | cons z y =>
            exfalso
            apply hnA
            rw [List.cons_append, List.cons.injEq] at f'
            rw [f, f'.1]
            simp
  obtain ⟨h5, h6⟩ := h2 l t q hl hs
  refine ⟨fun c hc => by simpa using List.all_eq_true.mp h5 c hc, ?_⟩
  rw [hq, List.flatten_append]
  cases hf : q.flatten with
  | cons c cs =>
    rw [hf] at h6
    exact h6
  | nil =>
    rw [List.nil_append]
    cases B with
    | nil => simp
    | cons u B =>
      obtain ⟨c, hc, rfl⟩ := hBc u (by simp)
      simpa using hc

/-- **C21.** With the default candidates, the inferred number is at most four, it divides the widths of
all runs, and it is the largest such number if there are any runs. -/
theorem C21_default (hd : DigitSane digit) (cc : CharClass) {code : Text} (hc : code ≠ []) :
    ∃ r n, parseAndMaybePreprocess cc digit .python code 1 = .ok r
      ∧ inferSpacesPerIndent cc digit code [1, 2, 3, 4] = .ok n ∧ 1 ≤ n ∧ n ≤ 4
      ∧ (∀ w ∈ indentWidths (markedTokens r), n ∣ w)
      ∧ (indentWidths (markedTokens r) ≠ [] →
        ∀ k, k ≤ 4 → (∀ w ∈ indentWidths (markedTokens r), k ∣ w) → k ≤ n) := by
  obtain ⟨r, h1, h2⟩ := C21_inferred hd cc hc (cands := [1, 2, 3, 4]) (by simp)
  refine ⟨r, _, h1, h2, ?_⟩
  have hw : ∀ w ∈ indentWidths (markedTokens r), w ≠ 0 := by
    generalize markedTokens r = ts
    induction ts with
    | nil => simp [indentWidths]
    | cons a ts ih =>
      cases ts with
      | nil => simp [indentWidths]
      | cons b ts =>
        intro w hw
        rw [indentWidths, List.mem_append] at hw
        rcases hw with hw | hw
        · split at hw
          · rename_i h
            rw [List.mem_singleton] at hw
            rw [hw]
            intro h0
            rw [List.length_eq_zero_iff] at h0
            rw [h0] at h
            simp at h
          · cases hw
        · exact ih w hw
  generalize indentWidths (markedTokens r) = ws at hw
  split
  · rename_i h
    subst h
    exact ⟨by decide, by decide, by simp, fun h => absurd rfl h⟩
  · rename_i hne
    have h1 : ∀ w ∈ ws, 1 ∣ w := fun w _ => Nat.one_dvd w
    have hz : ∀ k, (∀ w ∈ ws, k ∣ w) → k ≠ 0 := by
      rintro k hk rfl
      cases ws with
      | nil => exact hne rfl
      | cons w ws => exact hw w (by simp) (Nat.eq_zero_of_zero_dvd (hk w (by simp)))
    simp only [List.filter_cons, List.filter_nil, decide_eq_true_eq, eq_true h1, if_true]
    by_cases h2 : ∀ w ∈ ws, 2 ∣ w <;> by_cases h3 : ∀ w ∈ ws, 3 ∣ w <;> by_cases h4 : ∀ w ∈ ws, 4 ∣ w
    all_goals
      first | simp only [if_pos h2] | simp only [if_neg h2]
      first | simp only [if_pos h3] | simp only [if_neg h3]
      first | simp only [if_pos h4] | simp only [if_neg h4]
      simp only [List.getLast?_cons_cons, List.getLast?_singleton, Option.getD_some]
      refine ⟨by decide, by decide, by first | exact h1 | exact h2 | exact h3 | exact h4, fun _ k hk hdv => ?_⟩
      have := hz k hdv
      obtain rfl | rfl | rfl | rfl : k = 1 ∨ k = 2 ∨ k = 3 ∨ k = 4 := by omega
      all_goals first | exact absurd hdv h2 | exact absurd hdv h3 | exact absurd hdv h4 | decide

/-- **C21.** For empty code the number is one. -/
theorem C21_empty (cc : CharClass) (cands : List Nat) : inferSpacesPerIndent cc digit [] cands = .ok 1 := rfl

/-- **C21** (disagreement). A candidate of zero makes the code raise, but only if there is a run. -/
theorem C21_zero (hd : DigitSane digit) (cc : CharClass) {code : Text} (hc : code ≠ []) {cands : List Nat}
    (h0 : 0 ∈ cands) : ∃ r, parseAndMaybePreprocess cc digit .python code 1 = .ok r
      ∧ inferSpacesPerIndent cc digit code cands
        = if indentWidths (markedTokens r) = [] then .ok 1 else .error .zeroDivision := by
  obtain ⟨r, h1, -, h2, h3, -, h4, h5, -⟩ := python_run hd cc hc Nat.one_pos
  refine ⟨r, h1, ?_⟩
  unfold inferSpacesPerIndent
  rw [if_neg hc]
  refine bind_of_ok h1 ?_
  dsimp only
  rw [h3, indentLengths_eq hd (markedTokens r) r.raw (by rw [← h2]; exact h4) h5.2]
  split
  · rfl
  · rw [lastDivisor_zero 1 h0]

-- Two levels of two spaces each.
example : inferSpacesPerIndent asciiClass asciiDigit
    ['a', ':', '\n', ' ', ' ', 'b', ':', '\n', ' ', ' ', ' ', ' ', 'c'] [1, 2, 3, 4] = .ok 2 := by
  decide +kernel

/-- **C21** (disagreement). Only the first line of each deeper block counts as evidence: the line with
three spaces below, to which the code goes back from four, is not considered, and the inferred number
does not divide its indentation. -/
theorem C21_dedent_ignored : inferSpacesPerIndent asciiClass asciiDigit
    ['a', '\n', ' ', ' ', ' ', ' ', 'b', '\n', ' ', ' ', ' ', 'c'] [1, 2, 3, 4] = .ok 4 := by
  decide +kernel

/-! ### C19 for Python -/

/-- **C19.** Python code that is not empty: parsing to nodes succeeds, the text of the nodes is the
code, and the tokens of the code become decorations if they are white space, subtokens if they are
string literals, and tokens otherwise. -/
theorem C19_python (hd : DigitSane digit) {cc : CharClass} (hb : BracketsVisible cc) (flatten : Bool) {code : Text}
    (hc : code ≠ []) :
    ∃ (nodes : List (Node MatchName)) (toks : List Text), parseToNodes cc digit (.parsed .python) flatten code = .ok nodes
      ∧ text nodes = code ∧ toks.flatten = code ∧ [] ∉ toks
      ∧ piecesOf nodes = toks.flatMap fun t => tokenPieces cc (typeOf digit .pythonPreprocessor t) t := by
  obtain ⟨-, n, -, hi, hn, -⟩ := C21_default hd cc hc
  obtain ⟨r, h1, -, h2, h3, h4, h5, -, -, h6, -⟩ := python_run hd cc hc hn
  have hl : r.raw.length = (markedTokens r).length := by
    rw [h5.length_eq, h2, List.length_map]
  obtain ⟨m, hm, hp⟩ := convert_tree (cc := cc) (raw := r.raw) (types := r.types) (by rw [h3, hl]; simp) hl h6 (by
    intro k t x ty hk ht hx hty h0
    have hR := forall₂_get h5 k x t.string hx (by rw [h2, List.getElem?_map, hk]; rfl)
    rcases hR with rfl | ⟨hR, -⟩
    · obtain ⟨c, hc, rfl⟩ : ∃ c ∈ ['(', ')', '[', ']', '{', '}'], t = .text [c] := by
        simp only [markedPairs, List.map_cons, List.map_nil, List.mem_cons, List.not_mem_nil, or_false] at ht
        rcases ht with (rfl | rfl | rfl | rfl) | (rfl | rfl | rfl | rfl)
        all_goals first | exact absurd rfl h0 | exact ⟨_, by simp, rfl⟩
      rw [h3, List.getElem?_map, hk] at hty
      cases hty
      exact ⟨by simp [MarkedToken.string, hb c hc], typeOf_bracket (digit := digit) hc .pythonPreprocessor⟩
    · exact absurd hR h0)
  have hpp : piecesOf [m] = (r.raw.filter (· ≠ [])).flatMap fun t =>
      tokenPieces cc (typeOf digit .pythonPreprocessor t) t := by
    rw [hp, h3]
    exact marked_parts (fun t ty => tokenPieces cc ty t) (markedTokens r) r.raw (by rw [← h2]; exact h5)
  have hfl := (flatten_filter r.raw).trans h4
  obtain ⟨nodes, k1, k2, k3⟩ := parsed_result (flatten := flatten) (by rw [if_pos rfl, hi]) h1 hm hpp hfl
  exact ⟨nodes, _, k1, k3, hfl, by simp, k2⟩

/-- **C19** (disagreement). Empty Python code raises. -/
theorem C19_python_empty (cc : CharClass) (flatten : Bool) :
    parseToNodes cc digit (.parsed .python) flatten [] = .error .index := rfl

/-- The characters of the examples can tell brackets from white space. -/
theorem ascii_brackets : BracketsVisible asciiClass := by
  unfold BracketsVisible
  decide

-- A Python program: white space is decoration, the string literal is split, and an unbalanced bracket
-- does not change the text.
example : (parseToNodes asciiClass asciiDigit (.parsed .python) false
    ['f', '(', '\n', ' ', ' ', '\'', 'a', ' ', 'b', '\'']).toOption.map piecesOf
    = some [.token ['f'], .token ['('], .white ['\n'], .white [' ', ' '], .token ['\''], .token ['a'],
      .token [' '], .token ['b'], .token ['\'']] := by
  decide +kernel

end RUSure.Props
