import Verif.Lemmas.PythonRun
import Verif.Lemmas.StackFlat
import Verif.Lemmas.LexSpaces

/-!
# C58: pseudo parsing, end to end
-/

namespace RUSure.Props
open RUSure RUSure.Spec RUSure.Lemmas

mutual
/-- Equality of trees can be decided (for the examples). -/
def nodeDecEq : (a b : PNode) → Decidable (a = b)
  | .mk l h a cs, .mk l' h' a' cs' =>
    match nodesDecEq cs cs' with
    | isTrue e =>
      if e' : l = l' ∧ h = h' ∧ a = a' then isTrue (by obtain ⟨rfl, rfl, rfl⟩ := e'; rw [e])
      else isFalse fun k => by cases k; exact e' ⟨rfl, rfl, rfl⟩
    | isFalse e => isFalse fun k => by cases k; exact e rfl

/-- Equality of lists of trees can be decided. -/
def nodesDecEq : (a b : List PNode) → Decidable (a = b)
  | [], [] => isTrue rfl
  | [], _ :: _ => isFalse nofun
  | _ :: _, [] => isFalse nofun
  | a :: as, b :: bs =>
    match nodeDecEq a b, nodesDecEq as bs with
    | isTrue e, isTrue e' => isTrue (by rw [e, e'])
    | isFalse e, _ => isFalse fun k => by cases k; exact e rfl
    | _, isFalse e => isFalse fun k => by cases k; exact e rfl
end

instance : DecidableEq PNode := nodeDecEq
deriving instance DecidableEq for ParseResult

instance {ε α : Type} [DecidableEq ε] [DecidableEq α] : DecidableEq (Except ε α)
  | .ok a, .ok b => if h : a = b then isTrue (by rw [h]) else isFalse fun k => h (Except.ok.inj k)
  | .error a, .error b => if h : a = b then isTrue (by rw [h]) else isFalse fun k => h (Except.error.inj k)
  | .ok _, .error _ => isFalse nofun
  | .error _, .ok _ => isFalse nofun

variable {digit : Char → Bool}

section
variable {T : Type} [DecidableEq T] {pairs un : List (T × T)} {tokens splitters : List T} {sub : Option (T × T)}
  {u v : PNode}

theorem matched_flat (hT : Table pairs) (hb : Balanced pairs none tokens)
    (hu : bracketMatch pairs true tokens = .ok u) (h : splitParse u tokens splitters un none = .ok v) :
    ∀ x, InTree x v → FlatTok x := by
  obtain ⟨ns, h1, hf⟩ := C16_forest hT hb
  rw [h1] at hu
  cases hu
  have hm := matched_of_balanced hT hb h1
  have h0 : ∀ x, InTree x (.mk 0 (some tokens.length) .root ns) → FlatTok x := by
    intro x hx
    rcases inTree_mk.mp hx with rfl | hx
    · exact ⟨fun ha => by simp [PNode.ann] at ha, fun ha => by simp [PNode.ann] at ha⟩
    · exact forest_flat hf x hx
  unfold splitParse at h
  split at h
  · cases h
    exact h0
  · obtain ⟨w, h2, h⟩ := except_bind_ok h
    cases h
    exact splitWith_flat tokens splitters un tokens.length _ _ h2 hm.lookupOk h0

theorem treeOf_split (hT : Table pairs) (hb : Balanced pairs none tokens)
    (hu : bracketMatch pairs true tokens = .ok u) (h : splitParse u tokens splitters un sub = .ok v)
    (hfl : ∀ x, InTree x v → FlatTok x) : TreeOf pairs tokens v := by
  obtain ⟨ns, h1, hf⟩ := C16_forest hT hb
  obtain ⟨u', h2, h3, h4, h5, h6, h7, h8⟩ := C16_tree hT hb
  rw [h1] at hu h2
  cases hu
  cases h2
  obtain ⟨k1, k2, k3, -, -, -⟩ := C17_splitting_keeps (matched_of_balanced hT hb h1) h
  refine ⟨⟨ns, hf, ?_⟩, k3, ?_, hfl⟩
  · rw [k2]
    obtain ⟨-, hin⟩ := forest_elements (tokens := tokens) hT hf [] [] (by simp) rfl
    refine unsplit_plain _ fun x hx => ?_
    cases hx with
    | self => simp [PNode.ann]
    | child hx => exact (hin x hx).1
  · rw [← h6]
    unfold tokenLeaves
    rw [k1]

theorem grouped_split (hT : Table pairs) (hb : Balanced pairs none tokens)
    (hu : bracketMatch pairs true tokens = .ok u) (hun : ∀ p ∈ un, ∀ q ∈ un, p.1 = q.1 → p = q)
    (h : splitParse u tokens splitters un none = .ok v) (hs : splitters ≠ []) :
    Grouped tokens splitters un v := by
  obtain ⟨ns, h1, hf⟩ := C16_forest hT hb
  rw [h1] at hu
  cases hu
  have hm := matched_of_balanced hT hb h1
  obtain ⟨-, hin⟩ := forest_elements (tokens := tokens) hT hf [] [] (by simp) rfl
  refine ⟨C17_groups hm (fun x hx => (hin x hx).1) hs h, C17_all_split hm hs h,
    C17_unsplittable hm (fun x hx => ?_) hun h⟩
  cases hx with
  | self => simp [PNode.ann]
  | child hx => exact (hin x hx).1

end

theorem completed_all (digit : Char → Bool) (lang : Language) (code : Text) :
    Completed (tokensOf digit lang code) (allTokens digit lang code) (addedBefore digit lang code).length
      (addedAfter digit lang code).length := by
  have hob := C15_only_brackets bracketPairs (tokensOf digit lang code)
  refine ⟨⟨_, _, rfl, rfl, rfl, hob.1, fun t ht => ?_⟩, allTokens_balanced lang code, ?_⟩
  · unfold addedAfter at ht
    dsimp only at ht
    split at ht
    · rw [List.mem_append, List.mem_singleton] at ht
      exact ht.imp (hob.2 t) id
    · exact .inl (hob.2 t ht)
  · rw [← C15_empty bracketPairs_table]
    unfold addedBefore addedAfter
    dsimp only
    rw [Prod.ext_iff, List.length_eq_zero_iff, List.length_eq_zero_iff]
    refine and_congr_right fun _ => ?_
    dsimp only
    split
    · rename_i h
      exact ⟨fun h0 => by simp at h0, fun h0 => absurd h0 h.1⟩
    · rfl

/-- **C58.** Whatever the code, parsing in one go succeeds. The code is the concatenation of non-empty
tokens; openers are added in front and closers at the end such that brackets are balanced, and only if
they are not; each token comes with its type, and with its text in the code, which is empty for added
tokens; and the tree is that of the brackets, with groups that end at the splitters of the language. -/
theorem C58_direct (hd : DigitSane digit) (lang : Language) (cc : CharClass) (code : Text) (spaces : Nat) :
    ∃ r toks, parseAndMaybePreprocess cc digit (.direct lang) code spaces = .ok r
      ∧ toks.flatten = code ∧ [] ∉ toks
      ∧ Completed toks r.tokens r.nPre r.nPost
      ∧ r.raw = List.replicate r.nPre [] ++ toks ++ List.replicate r.nPost []
      ∧ r.types = r.tokens.map (typeOf digit lang)
      ∧ TreeOf bracketPairs r.tokens r.root
      ∧ (lang ≠ .pythonPreprocessor →
        Grouped r.tokens (splittersOf digit lang toks) lang.params.unsplittablePairs r.root) := by
  have hw0 : ∀ t ∈ presetTexts lang, t ∈ learn [] (presetTexts lang) :=
    fun t ht => (learn_mem _ _ _).mpr (.inr ht)
  have he0 : [] ∉ learn [] (presetTexts lang) := by
    rw [learn_mem]
    cases lang <;> decide
  obtain ⟨ws, root0, root, hpre, hnd, hne, hmem, hb, hsp, hpp⟩ := pseudoParse_eq hd lang
    (learn_nodup (presetTexts lang) [] List.nodup_nil) he0 hw0 code
  have hf := lexLoop_flatten (spec_total digit lang) _ none code (Nat.le_refl _)
  have hbal := allTokens_balanced (digit := digit) lang code
  refine ⟨_, tokensOf digit lang code, bind_of_ok (preset_eq hd lang) (bind_of_ok hpp rfl), hf.1, ?_,
    completed_all digit lang code, rfl, rfl, treeOf_split bracketPairs_table hbal hb hsp
      (matched_flat bracketPairs_table hbal hb hsp), fun hl => ?_⟩
  · intro h
    obtain ⟨x, hx, h0⟩ := List.mem_map.mp h
    exact hf.2 x hx h0
  · refine grouped_split bracketPairs_table hbal hb ?_ hsp ?_
    · cases lang <;> decide
    · unfold splittersOf
      cases lang
      case pythonPreprocessor => exact absurd rfl hl
      all_goals exact List.append_ne_nil_of_left_ne_nil (by decide) _

theorem type_not_marker (t : Text) : typeOf digit .pythonPreprocessor t ≠ .pythonIndent
    ∧ typeOf digit .pythonPreprocessor t ≠ .pythonDedent := by
  cases t with
  | nil => simp [typeOf]
  | cons c cs =>
    simp only [typeOf, basicType]
    split_ifs <;> simp

theorem markedTokens_eq (root : PNode) (out : List MarkedToken) (raw : List Text) (a b : Nat) :
    markedTokens ⟨root, out.map MarkedToken.string, out.map (MarkedToken.type digit), raw, a, b⟩ = out := by
  unfold markedTokens
  dsimp only
  induction out with
  | nil => rfl
  | cons t ts ih =>
    rw [List.map_cons, List.map_cons, List.zipWith_cons_cons, ih]
    cases t with
    | text t =>
      have := type_not_marker (digit := digit) t
      simp [MarkedToken.type, MarkedToken.string, this.1, this.2]
    | indent => rfl
    | dedent => rfl

/-- Code with a newline at its end. -/
def endLine (code : Text) : Text := if code.getLast? = some '\n' then code else code ++ ['\n']

/-- The facts about Python code that the theorems below state one by one. -/
theorem python_run (hd : DigitSane digit) (cc : CharClass) {code : Text} (hc : code ≠ []) {spaces : Nat}
    (hs : 0 < spaces) : ∃ r, parseAndMaybePreprocess cc digit .python code spaces = .ok r
      ∧ (∃ toks, toks.flatten = endLine code ∧ [] ∉ toks
        ∧ (∀ l t r, toks = l ++ t :: r → t.head? = some ' ' →
          t.all (· == ' ') = true ∧ r.flatten.head? ≠ some ' ')
        ∧ ∃ all, Completed toks all r.nPre r.nPost
          ∧ (markedTokens r).filter (fun t => t ≠ .indent ∧ t ≠ .dedent) = all.map .text
          ∧ ∃ bodies, all.map MarkedToken.text = joinLines (.text ['\n']) bodies
            ∧ (∀ b ∈ bodies, LineBody (textPairs bracketPairs) (.text ['\n']) b)
            ∧ ∀ before line after, bodies = before ++ line :: after →
              ∃ pre post, markedTokens r = pre ++ line ++ post
                ∧ pre.filter (fun t => t ≠ .indent ∧ t ≠ .dedent) = joinLines (.text ['\n']) before
                ∧ (pre = [] ∨ pre.getLast? = some (.text ['\n']) ∨ pre.getLast? = some .indent)
                ∧ ∀ d, indentation cc spaces ((line ++ [MarkedToken.text ['\n']]).flatMap MarkedToken.string) = some d →
                  pre.count .indent = pre.count .dedent + d)
      ∧ r.tokens = (markedTokens r).map MarkedToken.string
      ∧ r.types = (markedTokens r).map (MarkedToken.type digit)
      ∧ r.raw.flatten = code ∧ List.Forall₂ RawText r.raw r.tokens
      ∧ ((∀ pre post, markedTokens r = pre ++ .indent :: post →
          pre = [] ∨ pre.getLast? = some .indent ∨ pre.getLast? = some (.text ['\n']))
        ∧ ∀ pre post, markedTokens r = pre ++ .dedent :: post →
          post.head? = some .dedent ∨ post.head? = some (.text ['\n']))
      ∧ Balanced markedPairs none (markedTokens r)
      ∧ TreeOf markedPairs (markedTokens r) r.root
      ∧ ∃ v, TreeOf markedPairs (markedTokens r) v
        ∧ Grouped (markedTokens r) [.text ['\n']] (textPairs Language.pythonPreprocessor.params.unsplittablePairs) v
        ∧ Nested (markedTokens r) (.indent, .dedent) v r.root := by
  obtain ⟨root0, out, u, v, root, h1, hde, h2, h3, h4, h5, h6, h7, h8⟩ := parsePython_eq hd cc hc hs
  have hf := lexLoop_flatten (spec_total digit .pythonPreprocessor) _ none (withNewline code) (Nat.le_refl _)
  have hstr : ((allTokens digit .pythonPreprocessor (withNewline code)).map MarkedToken.text).map MarkedToken.string
      = allTokens digit .pythonPreprocessor (withNewline code) := by
    rw [List.map_map]
    exact List.map_id _
  have ho : desugar cc root0 (((allTokens digit .pythonPreprocessor (withNewline code)).map
      MarkedToken.text).map MarkedToken.string) ((allTokens digit .pythonPreprocessor (withNewline code)).map .text)
      .indent .dedent (.text ['\n']) spaces = .ok out := by
    rw [hstr]
    exact h2
  obtain ⟨hT, hb⟩ := C18_balanced hde hs ho
  have her := C18_erase hde hs ho
  have hraw := rawTexts_spec hd code
  have hsp := spread_spec out (rawTexts digit code) (by rw [plain_of_filter her]; exact hraw.2)
  refine ⟨_, h8, ?_⟩
  rw [markedTokens_eq]
  refine ⟨⟨tokensOf digit .pythonPreprocessor (withNewline code), hf.1, ?_,
    fun l t r => tokens_space hd _, _, completed_all digit _ _, her,
    C18_depth hde hs ho⟩, rfl, rfl, hsp.1.trans hraw.1, hsp.2,
    ⟨(C18_neighbours hde hs ho).1, (C18_neighbours hde hs ho).2.1⟩, hb, treeOf_split hT hb h3 h5
      (nested_flat h7 (matched_flat hT hb h3 h4)),
    v, treeOf_split hT hb h3 h4 (matched_flat hT hb h3 h4), grouped_split hT hb h3 (by decide) h4 (by simp), h7⟩
  intro h
  obtain ⟨x, hx, h0⟩ := List.mem_map.mp h
  exact hf.2 x hx h0

/-- **C58.** Python code that is not empty can always be parsed. Without the markers, the tokens are
those of the code with a newline at its end, with openers in front and closers at the end if brackets
are not balanced; the texts of the tokens in the code concatenate to the code, and each is that of its
token, or empty for an added bracket or newline; markers have no text. -/
theorem C58_python (hd : DigitSane digit) (cc : CharClass) {code : Text} (hc : code ≠ []) {spaces : Nat}
    (hs : 0 < spaces) : ∃ r toks all, parseAndMaybePreprocess cc digit .python code spaces = .ok r
      ∧ toks.flatten = endLine code ∧ [] ∉ toks ∧ Completed toks all r.nPre r.nPost
      ∧ (markedTokens r).filter (fun t => t ≠ .indent ∧ t ≠ .dedent) = all.map .text
      ∧ r.tokens = (markedTokens r).map MarkedToken.string
      ∧ r.types = (markedTokens r).map (MarkedToken.type digit)
      ∧ r.raw.flatten = code ∧ List.Forall₂ RawText r.raw r.tokens := by
  obtain ⟨r, h1, ⟨toks, h2, h3, -, all, h4, h5, -⟩, h6, h7, h8, h9, -⟩ := python_run hd cc hc hs
  exact ⟨r, toks, all, h1, h2, h3, h4, h5, h6, h7, h8, h9⟩

/-- The unsplittable pairs of Python name the square brackets twice. -/
theorem brackets_twice {tokens : List MarkedToken} {x : PNode} :
    HasBrackets (textPairs Language.pythonPreprocessor.params.unsplittablePairs) tokens x
      ↔ HasBrackets [(.text ['('], .text [')']), (.text ['['], .text [']'])] tokens x := by
  unfold HasBrackets
  refine and_congr_right fun _ => ?_
  simp [textPairs, Language.params, both]

/-- **C58.** The tree of Python code: indents and dedents are one more kind of brackets, and without
the groups the tree is that of all brackets. Groups are first made at newlines; then a group with an
indented block is put together with the group before it. -/
theorem C58_python_tree (hd : DigitSane digit) {cc : CharClass} {code : Text} (hc : code ≠ []) {spaces : Nat}
    (hs : 0 < spaces) {r : ParseResult} (h : parseAndMaybePreprocess cc digit .python code spaces = .ok r) :
    Balanced markedPairs none (markedTokens r) ∧ TreeOf markedPairs (markedTokens r) r.root
      ∧ ∃ lines, TreeOf markedPairs (markedTokens r) lines
        ∧ Grouped (markedTokens r) [.text ['\n']] [(.text ['('], .text [')']), (.text ['['], .text [']'])] lines
        ∧ Nested (markedTokens r) (.indent, .dedent) lines r.root := by
  obtain ⟨r', h1, -, -, -, -, -, -, h2, h3, v, h4, h5, h6⟩ := python_run hd cc hc hs
  rw [h1] at h
  cases h
  refine ⟨h2, h3, v, h4, ⟨h5.groups, fun x hx => h5.complete x ?_, fun x hx hb => h5.whole x hx (brackets_twice.mpr hb)⟩, h6⟩
  clear h4 h5 h6
  induction hx with
  | self => exact .self
  | child h1 h2 h3 _ ih => exact .child h1 (fun hb => h2 (brackets_twice.mp hb)) h3 ih

/-- **C58.** The markers follow the indentation: wherever a logical line begins that is not blank, as
many indents are open as its indentation says. -/
theorem C58_python_lines (hd : DigitSane digit) {cc : CharClass} {code : Text} (hc : code ≠ []) {spaces : Nat}
    (hs : 0 < spaces) {r : ParseResult} (h : parseAndMaybePreprocess cc digit .python code spaces = .ok r) :
    ∃ bodies, (markedTokens r).filter (fun t => t ≠ .indent ∧ t ≠ .dedent) = joinLines (.text ['\n']) bodies
      ∧ (∀ b ∈ bodies, LineBody [(.text ['('], .text [')']), (.text ['['], .text [']']), (.text ['{'], .text ['}'])]
          (.text ['\n']) b)
      ∧ ∀ before line after, bodies = before ++ line :: after →
        ∃ pre post, markedTokens r = pre ++ line ++ post
          ∧ pre.filter (fun t => t ≠ .indent ∧ t ≠ .dedent) = joinLines (.text ['\n']) before
          ∧ (pre = [] ∨ pre.getLast? = some (.text ['\n']) ∨ pre.getLast? = some .indent)
          ∧ ∀ d, indentation cc spaces ((line ++ [MarkedToken.text ['\n']]).flatMap MarkedToken.string) = some d →
            pre.count .indent = pre.count .dedent + d := by
  obtain ⟨r', h1, ⟨-, -, -, -, all, -, h2, bodies, h3, h4, h5⟩, -⟩ := python_run hd cc hc hs
  rw [h1] at h
  cases h
  exact ⟨bodies, h2.trans h3, h4, h5⟩

/-- **C58.** Indents are at the beginning of lines, and dedents directly before newlines. -/
theorem C58_python_markers (hd : DigitSane digit) {cc : CharClass} {code : Text} (hc : code ≠ []) {spaces : Nat}
    (hs : 0 < spaces) {r : ParseResult} (h : parseAndMaybePreprocess cc digit .python code spaces = .ok r) :
    (∀ pre post, markedTokens r = pre ++ .indent :: post →
        pre = [] ∨ pre.getLast? = some .indent ∨ pre.getLast? = some (.text ['\n']))
      ∧ ∀ pre post, markedTokens r = pre ++ .dedent :: post →
        post.head? = some .dedent ∨ post.head? = some (.text ['\n']) := by
  obtain ⟨r', h1, -, -, -, -, -, h2, -⟩ := python_run hd cc hc hs
  rw [h1] at h
  cases h
  exact h2

/-- **C58** (disagreement). Empty Python code cannot be parsed: reading its last character raises. -/
theorem C58_python_empty (cc : CharClass) (digit : Char → Bool) (spaces : Nat) :
    parseAndMaybePreprocess cc digit .python [] spaces = .error .index := rfl

/-- **C58** (disagreement). With zero spaces per indent, parsing Python code raises. -/
theorem C58_python_zero :
    parseAndMaybePreprocess asciiClass asciiDigit .python ['a'] 0 = .error .zeroDivision := by
  decide +kernel

-- An indented block, a missing closer and a missing newline.
example : parseAndMaybePreprocess asciiClass asciiDigit .python
      ['i', 'f', ' ', 'a', ':', '\n', ' ', 'b', '('] 1
    = .ok ⟨.mk 0 (some 13) .root [.mk 0 (some 13) .split [
          splitNode [leafNode 0, leafNode 1, leafNode 2, leafNode 3, leafNode 4],
          splitNode [pairedNode 5 11 [leafNode 6, leafNode 7, pairedNode 8 10 [leafNode 9]], leafNode 12]]],
        [['i', 'f'], [' '], ['a'], [':'], ['\n'], [], [' '], ['b'], ['('], ['\n'], [')'], [], ['\n']],
        [.id, .whiteSpace, .id, .punc, .newline, .pythonIndent, .whiteSpace, .id, .brace, .newline, .brace,
          .pythonDedent, .newline],
        [['i', 'f'], [' '], ['a'], [':'], ['\n'], [], [' '], ['b'], ['('], [], [], [], []], 0, 2⟩ := by
  decide +kernel

-- A missing opener.
example : parseAndMaybePreprocess asciiClass asciiDigit (.direct .cpp) ['a', ';', 'b', ')'] 1
    = .ok ⟨.mk 0 (some 5) .root [pairedNode 0 4 [splitNode [leafNode 1, leafNode 2], splitNode [leafNode 3]]],
        [['('], ['a'], [';'], ['b'], [')']], [.brace, .id, .punc, .id, .brace],
        [[], ['a'], [';'], ['b'], [')']], 1, 0⟩ := by
  decide +kernel

/-- **C58** (disagreement). The unsplittable pairs of Python name the square brackets twice and leave
out the braces: newlines split what is in braces, but not what is in other brackets. -/
theorem C58_braces_split :
    (parseAndMaybePreprocess asciiClass asciiDigit .python ['{', 'a', '\n', 'b', '}'] 1).map ParseResult.root
      = .ok (.mk 0 (some 6) .root [splitNode [pairedNode 0 4 [splitNode [leafNode 1, leafNode 2],
          splitNode [leafNode 3]], leafNode 5]])
    ∧ (parseAndMaybePreprocess asciiClass asciiDigit .python ['[', 'a', '\n', 'b', ']'] 1).map ParseResult.root
      = .ok (.mk 0 (some 6) .root [splitNode [pairedNode 0 4 [leafNode 1, leafNode 2, leafNode 3], leafNode 5]]) := by
  decide +kernel

end RUSure.Props
