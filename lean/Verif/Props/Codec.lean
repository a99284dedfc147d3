import Verif.Lemmas.Codec
import Verif.Props.Subtokenizer

/-!
# C20: the lexers and the token codec
-/

namespace RUSure.Props
open RUSure RUSure.Spec RUSure.Lemmas

section
variable {digit : Char → Bool}

/-- **C20.** Any texts, encoded one after the other with the same codec, in any of the languages:
encoding never fails, and with the codec at the end each encoding is decoded to non-empty tokens whose
concatenation is the text, and to the types that were returned with it. The type of a token depends
on its text only. -/
theorem C20_roundtrip (hd : DigitSane digit) (lang : Language) (codes : List Text) :
    ∃ c outs, encodeTexts (lang.spec digit) Codec.empty codes = .ok (c, outs)
      ∧ List.Forall₂ (fun code out => ∃ tokens, c.decodeToken out.1 = .ok tokens ∧ tokens.flatten = code
          ∧ [] ∉ tokens ∧ c.decodeType out.1 = .ok out.2 ∧ out.2 = tokens.map (typeOf digit lang))
        codes outs := by
  refine ⟨_, _, encodeTexts_eq hd lang codes [], ?_⟩
  rw [List.forall₂_map_right_iff, List.forall₂_same]
  intro code hc
  have hmem : ∀ t ∈ (lex (lang.spec digit) code).map Prod.snd,
      t ∈ learn [] (codes.flatMap fun code => (lex (lang.spec digit) code).map Prod.snd) := by
    intro t ht
    rw [learn_mem, List.mem_flatMap]
    exact .inr ⟨code, hc, ht⟩
  have hfl := lexLoop_flatten (spec_total digit lang) _ none code (Nat.le_refl _)
  refine ⟨_, decodeToken_eq hmem, hfl.1, ?_, decodeType_eq hmem, rfl⟩
  intro he
  obtain ⟨x, hx, h0⟩ := List.mem_map.mp he
  exact hfl.2 x hx h0

/-- **C20.** The tokens that a codec has encoded and the numbers from 1 to the size of the codec
correspond to each other one to one. -/
theorem C20_injective (hd : DigitSane digit) {lang : Language} {c : Codec}
    (h : Codec.Reached (lang.spec digit) c) :
    (∀ i, (c.indexToToken.lookup i).isSome ↔ 1 ≤ i ∧ i ≤ c.tokenToIndex.length)
      ∧ ∀ i t, c.indexToToken.lookup i = some t ↔ c.tokenToIndex.lookup t = some i := by
  obtain ⟨ws, rfl, hn, -⟩ := reached_eq hd h
  have key : ∀ i t, (codecOf (typeOf digit lang) ws).indexToToken.lookup i = some t
      ↔ 1 ≤ i ∧ ws[i - 1]? = some t := by
    intro i t
    constructor
    · intro hl
      obtain ⟨q, hq, he⟩ := List.mem_map.mp (lookup_mem_codec hl)
      obtain ⟨j, hj, rfl⟩ := List.mem_iff_getElem.mp hq
      rw [List.getElem_zipIdx] at he
      simp only [Prod.swap, Prod.mk.injEq] at he
      rw [List.length_zipIdx] at hj
      obtain ⟨rfl, rfl⟩ := he
      exact ⟨by omega, by rw [Nat.add_sub_cancel_left, List.getElem?_eq_getElem hj]⟩
    · rintro ⟨h1, h2⟩
      have := lookup_index id ws 1 (i - 1) t h2
      rw [Nat.sub_add_cancel h1] at this
      exact this
  have hlen : (codecOf (typeOf digit lang) ws).tokenToIndex.length = ws.length := by simp [codecOf]
  constructor
  · intro i
    rw [hlen, Option.isSome_iff_exists]
    constructor
    · rintro ⟨t, ht⟩
      obtain ⟨h1, h2⟩ := (key i t).mp ht
      have := (List.getElem?_eq_some_iff.mp h2).1
      omega
    · rintro ⟨h1, h2⟩
      exact ⟨ws[i - 1], (key i _).mpr ⟨h1, List.getElem?_eq_getElem (by omega)⟩⟩
  · intro i t
    rw [key]
    constructor
    · rintro ⟨h1, h2⟩
      obtain ⟨hlt, rfl⟩ := List.getElem?_eq_some_iff.mp h2
      have hl := lookup_zipIdx ws 1 ws[i - 1] (List.getElem_mem hlt)
      rw [hn.idxOf_getElem, Nat.sub_add_cancel h1] at hl
      exact hl
    · intro hl
      by_cases ht : t ∈ ws
      · have := lookup_zipIdx ws 1 t ht
        rw [show (codecOf (typeOf digit lang) ws).tokenToIndex.lookup t = _ from this] at hl
        cases hl
        exact ⟨by omega, by rw [Nat.add_sub_cancel]; exact List.getElem?_idxOf ht⟩
      · rw [show (codecOf (typeOf digit lang) ws).tokenToIndex.lookup t = _ from
          lookup_zipIdx_none ws 1 t ht] at hl
        cases hl

/-- **C20.** Encoding one more text changes nothing about what the codec already knows. -/
theorem C20_extends (hd : DigitSane digit) {lang : Language} {c : Codec}
    (h : Codec.Reached (lang.spec digit) c) (code : Text) :
    ∃ c' is tys, c.encode (lang.spec digit) code = .ok (c', is, tys)
      ∧ (∀ t i, c.tokenToIndex.lookup t = some i → c'.tokenToIndex.lookup t = some i)
      ∧ (∀ i t, c.indexToToken.lookup i = some t → c'.indexToToken.lookup i = some t)
      ∧ (∀ i ty, c.indexToType.lookup i = some ty → c'.indexToType.lookup i = some ty) := by
  obtain ⟨ws, rfl, hn, -⟩ := reached_eq hd h
  refine ⟨_, _, _, encode_eq hd lang ws code, ?_⟩
  obtain ⟨x, hx⟩ := learn_prefix ((lex (lang.spec digit) code).map Prod.snd) ws
  rw [← hx]
  unfold codecOf
  simp only [List.zipIdx_append, List.map_append]
  exact ⟨fun t i ht => lookup_append_some ht, fun i t ht => lookup_append_some ht,
    fun i ty ht => lookup_append_some ht⟩

/-- **C20.** Tokens that are added one after the other get the numbers 1, 2, … if they are distinct,
and are decoded to themselves and their types; otherwise the assertion fails. -/
theorem C20_additions (ts : List (Text × TokenType)) :
    ((ts.map Prod.fst).Nodup → ∃ c, addTokens Codec.empty ts = .ok (c, List.range' 1 ts.length)
      ∧ c.decodeToken (List.range' 1 ts.length) = .ok (ts.map Prod.fst)
      ∧ c.decodeType (List.range' 1 ts.length) = .ok (ts.map Prod.snd))
    ∧ (¬ (ts.map Prod.fst).Nodup → addTokens Codec.empty ts = .error .assertion) := by
  classical
  let typ : Text → TokenType := fun t => (ts.lookup t).getD .other
  have hty : (ts.map Prod.fst).Nodup → ∀ t ∈ ts, t.2 = typ t.1 := by
    intro hn t ht
    have := lookup_of_nodup hn ht
    simp only [typ, this, Option.getD_some]
  constructor
  · intro hn
    have h := addTokens_eq (typ := typ) ts [] (hty hn) (by simpa using hn)
    rw [codecOf_nil] at h
    simp only [List.nil_append, List.length_nil, Nat.zero_add] at h
    refine ⟨_, h, ?_⟩
    have hr : List.range' 1 ts.length = (ts.map Prod.fst).map (indexIn (ts.map Prod.fst)) := by
      refine List.ext_getElem (by simp) fun i h1 h2 => ?_
      have hi : i < (ts.map Prod.fst).length := by simpa using h2
      rw [List.getElem_range', List.getElem_map, indexIn, hn.idxOf_getElem]
      omega
    rw [hr]
    refine ⟨decodeToken_eq fun _ h => h, ?_⟩
    rw [decodeType_eq fun _ h => h]
    congr 1
    rw [List.map_map]
    exact (List.map_congr_left fun t ht => hty hn t ht).symm
  · intro hn
    exact addTokens_dup ts _ (.inl hn)

/-- **C20 (finding).** In the C-like languages no token is ever typed as a string: the back reference
of the regular expression for strings is off by one group or more, and quoted strings have been
matched as comments before. -/
theorem C20_c_strings (hd : DigitSane digit) {lang : Language}
    (hl : lang = .cpp ∨ lang = .java ∨ lang = .javascript) (code : Text) :
    ∀ x ∈ lex (lang.spec digit) code, x.1 ≠ .string
      ∧ (2 ≤ x.2.length → x.2.head? = some '"' ∨ x.2.head? = some '\'' → x.1 = .commentSlashStar) := by
  intro x hx
  rw [lex_types hd lang code x hx]
  obtain ⟨ty, t⟩ := x
  have hb : ∀ c, basicType digit c ≠ .string := by
    intro c
    unfold basicType
    repeat' split
    all_goals simp
  cases t with
  | nil => simp [typeOf]
  | cons c cs =>
    constructor
    · rcases hl with rfl | rfl | rfl <;> simp only [typeOf] <;> repeat' split
      all_goals first | exact hb c | simp
    · intro h2 hq
      have hcs : cs ≠ [] := by
        rintro rfl
        simp at h2
      have hc : c = '"' ∨ c = '\'' := by simpa using hq
      have hns : ¬ (c = '/' ∧ cs.head? = some '/') := by
        rintro ⟨rfl, -⟩
        simp at hc
      rcases hl with rfl | rfl | rfl <;>
        (simp only [typeOf]; rw [if_neg hns, if_pos ⟨hcs, .inr hc⟩])

/-- **C20 (finding).** The two markers for indents and dedents share the text `''`. They get distinct
numbers, but the next new token gets the number of the second one, and the marker is then decoded to
that token. -/
theorem C20_markers_collide (hd : DigitSane digit) {lang : Language} {c : Codec}
    (h : Codec.Reached (lang.spec digit) c) :
    ∃ c1 c2, c.addToken [] .pythonIndent true = .ok (c1, c.tokenToIndex.length + 1)
      ∧ c1.addToken [] .pythonDedent true = .ok (c2, c.tokenToIndex.length + 2)
      ∧ c2.decodeType [c.tokenToIndex.length + 1, c.tokenToIndex.length + 2]
        = .ok [.pythonIndent, .pythonDedent]
      ∧ c2.decodeToken [c.tokenToIndex.length + 1, c.tokenToIndex.length + 2] = .ok [[], []]
      ∧ ∀ t ty, t ≠ [] → c.tokenToIndex.lookup t = none →
        ∃ c3, c2.addToken t ty false = .ok (c3, c.tokenToIndex.length + 2)
          ∧ c3.decodeToken [c.tokenToIndex.length + 2] = .ok [t] := by
  obtain ⟨ws, rfl, hn, he⟩ := reached_eq hd h
  exact markers_collide he

end

/-- The decimal digits of ASCII. -/
def asciiDigit (c : Char) : Bool := '0' ≤ c && c ≤ '9'

theorem asciiDigit_sane : DigitSane asciiDigit := fun _ _ => rfl

/-- `x = "a" # b` in Python. -/
example : lex (Language.pythonPreprocessor.spec asciiDigit)
      ['x', ' ', '=', ' ', '"', 'a', '"', ' ', '#', ' ', 'b', '\n']
    = [(.id, ['x']), (.whiteSpace, [' ']), (.punc, ['=']), (.whiteSpace, [' ']),
      (.string, ['"', 'a', '"']), (.whiteSpace, [' ']), (.commentHash, ['#', ' ', 'b']),
      (.newline, ['\n'])] := by decide +kernel

/-- `x("a");` in Java: the string is typed as a comment. -/
example : lex (Language.java.spec asciiDigit) ['x', '(', '"', 'a', '"', ')', ';']
    = [(.id, ['x']), (.brace, ['(']), (.commentSlashStar, ['"', 'a', '"']), (.brace, [')']),
      (.punc, [';'])] := by decide +kernel

/-- Two texts are encoded; the second one shares a token with the first one. -/
example : encodeTexts (Language.simple.spec asciiDigit) Codec.empty [['a', '(', 'a'], ['(', 'b']]
    = .ok (⟨[(['a'], 1), (['('], 2), (['b'], 3)], [(1, ['a']), (2, ['(']), (3, ['b'])],
        [(1, .id), (2, .brace), (3, .id)]⟩,
      [([1, 2, 1], [.id, .brace, .id]), ([2, 3], [.brace, .id])]) := by decide +kernel

example : addTokens Codec.empty [(['a'], .id), (['a'], .id)] = .error .assertion := by decide +kernel

end RUSure.Props
