import Verif.Lemmas.LexStable
import Verif.Lemmas.StackMap
import Verif.Lemmas.StackPlaces
import Verif.Props.Desugar
import Verif.Props.Codec
import Verif.Spec.PseudoParser
import Mathlib.Data.Countable.Basic
import Mathlib.Logic.Encodable.Basic
import Mathlib.Data.Countable.Defs
import Mathlib.Logic.Equiv.List

/-!
# Proofs about the pseudo parser
-/

namespace RUSure.Lemmas
open RUSure RUSure.Spec RUSure.Props

/-! ### Numbers for tokens -/

instance : Countable Char := by
  refine ⟨Char.toNat, fun a b h => ?_⟩
  exact Char.toNat_inj.mp h

theorem exists_text_number : ∃ e : Text → Nat, Function.Injective e := by
  have : Countable (List Char) := inferInstance
  exact exists_injective_nat (List Char)

/-- The indices of a codec, and of the markers that are added to it, as an injective function. -/
theorem exists_numbers (ws : List Text) : ∃ f : MarkedToken → Nat, Function.Injective f
    ∧ (∀ t ∈ ws, f (.text t) = indexIn ws t) ∧ f .indent = ws.length + 1 ∧ f .dedent = ws.length + 2 := by
  obtain ⟨e, he⟩ := exists_text_number
  refine ⟨fun t => match t with
    | .text t => if t ∈ ws then indexIn ws t else ws.length + 3 + e t
    | .indent => ws.length + 1
    | .dedent => ws.length + 2, ?_, fun t ht => if_pos ht, rfl, rfl⟩
  have hlt : ∀ t ∈ ws, indexIn ws t < ws.length + 1 := by
    intro t ht
    have := List.idxOf_lt_length_iff.mpr ht
    unfold indexIn
    omega
  have hinj : ∀ a ∈ ws, ∀ b ∈ ws, indexIn ws a = indexIn ws b → a = b := by
    intro a ha b hb h
    unfold indexIn at h
    have h' : ws.idxOf a = ws.idxOf b := by omega
    have h1 := List.getElem?_idxOf ha
    have h2 := List.getElem?_idxOf hb
    rw [h', h2] at h1
    exact (Option.some.inj h1).symm
  intro a b h
  cases a with
  | text a =>
    cases b with
    | text b =>
      dsimp only at h
      by_cases ha : a ∈ ws <;> by_cases hb : b ∈ ws
      · rw [if_pos ha, if_pos hb] at h
        rw [hinj a ha b hb h]
      · rw [if_pos ha, if_neg hb] at h
        have := hlt a ha
        omega
      · rw [if_neg ha, if_pos hb] at h
        have := hlt b hb
        omega
      · rw [if_neg ha, if_neg hb] at h
        rw [he (Nat.add_left_cancel h)]
    | _ =>
      dsimp only at h
      by_cases ha : a ∈ ws
      · rw [if_pos ha] at h
        have := hlt a ha
        omega
      · rw [if_neg ha] at h
        omega
  | _ =>
    cases b with
    | text b =>
      dsimp only at h
      by_cases ha : b ∈ ws
      · rw [if_pos ha] at h
        have := hlt b ha
        omega
      · rw [if_neg ha] at h
        omega
    | _ => first | rfl | (dsimp only at h; omega)

theorem text_injective : Function.Injective MarkedToken.text := fun _ _ h => MarkedToken.text.inj h

/-! ### The constructor -/

section
variable {digit : Char → Bool} (hd : DigitSane digit) (lang : Language)
include hd

omit hd in
theorem lex_single (c : Char) : (lex (lang.spec digit) [c]).map Prod.snd = [[c]] := by
  obtain ⟨h1, h2⟩ := lexLoop_flatten (spec_total digit lang) 1 none [c] (by simp)
  change ((lex (lang.spec digit) [c]).map Prod.snd).flatten = _ at h1
  have h2 : ∀ t ∈ (lex (lang.spec digit) [c]).map Prod.snd, t ≠ [] := by
    intro t ht
    obtain ⟨x, hx, rfl⟩ := List.mem_map.mp ht
    exact h2 x hx
  match hl : (lex (lang.spec digit) [c]).map Prod.snd with
  | [] => rw [hl] at h1; cases h1
  | [x] => rw [hl] at h1; simpa using h1
  | x :: y :: l =>
    rw [hl] at h1 h2
    have hx := h2 x (by simp)
    have hy := h2 y (by simp)
    have := congrArg List.length h1
    simp only [List.flatten_cons, List.length_append, List.length_cons, List.length_nil] at this
    have hx' := List.length_pos_of_ne_nil hx
    have hy' := List.length_pos_of_ne_nil hy
    omega

theorem encodeSingle_eq (ws : List Text) (c : Char) :
    (codecOf (typeOf digit lang) ws).encodeSingle (lang.spec digit) [c]
      = .ok (codecOf (typeOf digit lang) (learn ws [[c]]), indexIn (learn ws [[c]]) [c]) := by
  unfold Codec.encodeSingle
  rw [encode_eq hd, lex_single]
  rfl

theorem encodeSingles_eq : ∀ (ss : List Text) (ws : List Text), (∀ s ∈ ss, ∃ c, s = [c]) →
    (codecOf (typeOf digit lang) ws).encodeSingles (lang.spec digit) ss
      = .ok (codecOf (typeOf digit lang) (learn ws ss), ss.map (indexIn (learn ws ss)))
  | [], ws, _ => rfl
  | s :: ss, ws, h => by
    rw [List.forall_mem_cons] at h
    obtain ⟨⟨c, rfl⟩, h⟩ := h
    have hl : learn ws ([c] :: ss) = learn (learn ws [[c]]) ss := rfl
    rw [Codec.encodeSingles, encodeSingle_eq hd]
    simp only [bind, Except.bind]
    rw [encodeSingles_eq ss _ h, hl]
    simp only [pure, Except.pure, List.map_cons]
    congr 3
    rw [indexIn_prefix (learn_prefix ss _) ((learn_mem _ _ _).mpr (.inr (by simp)))]

/-- The texts of pairs. -/
def pairTexts (ps : List (Text × Text)) : List Text := ps.flatMap fun p => [p.1, p.2]

theorem encodePairs_eq : ∀ (ps : List (Text × Text)) (ws : List Text),
    (∀ p ∈ ps, (∃ c, p.1 = [c]) ∧ ∃ c, p.2 = [c]) →
    (codecOf (typeOf digit lang) ws).encodePairs (lang.spec digit) ps
      = .ok (codecOf (typeOf digit lang) (learn ws (pairTexts ps)),
        ps.map (both (indexIn (learn ws (pairTexts ps)))))
  | [], ws, _ => rfl
  | (a, b) :: ps, ws, h => by
    rw [List.forall_mem_cons] at h
    obtain ⟨⟨⟨c, hc⟩, d, hd'⟩, h⟩ := h
    dsimp only at hc hd'
    subst hc hd'
    have hl : learn ws (pairTexts (([c], [d]) :: ps)) = learn (learn (learn ws [[c]]) [[d]]) (pairTexts ps) := rfl
    rw [Codec.encodePairs, encodeSingle_eq hd]
    simp only [bind, Except.bind]
    rw [encodeSingle_eq hd]
    simp only
    rw [encodePairs_eq ps _ h, hl]
    simp only [pure, Except.pure, List.map_cons]
    congr 3
    unfold both
    have h1 : [c] ∈ learn ws [[c]] := (learn_mem _ _ _).mpr (.inr (by simp))
    have h2 : [d] ∈ learn (learn ws [[c]]) [[d]] := (learn_mem _ _ _).mpr (.inr (by simp))
    have h3 := learn_prefix [[d]] (learn ws [[c]])
    rw [indexIn_prefix (learn_prefix _ _) h2, indexIn_prefix (learn_prefix _ _) (h3.subset h1),
      indexIn_prefix h3 h1]

/-- All texts a parser of the language starts with. -/
def presetTexts (lang : Language) : List Text :=
  pairTexts lang.params.matchPairs ++ pairTexts lang.params.unsplittablePairs ++ lang.params.splitTokens

/-- The parser of a language whose codec knows some texts. -/
def parserOf (digit : Char → Bool) (lang : Language) (ws : List Text) : PseudoParser :=
  ⟨lang.spec digit, codecOf (typeOf digit lang) ws, lang.params.matchPairs.map (both (indexIn ws)),
    lang.params.unsplittablePairs.map (both (indexIn ws)), lang.params.splitTokens.map (indexIn ws),
    lang.params.splitTypes, lang.params.newlineTerminate⟩

omit hd in
theorem both_congr {ws ws' : List Text} (h : ws <+: ws') {ps : List (Text × Text)}
    (hp : ∀ t ∈ pairTexts ps, t ∈ ws) : ps.map (both (indexIn ws')) = ps.map (both (indexIn ws)) := by
  refine List.map_congr_left fun p hp' => ?_
  have hm : ∀ t ∈ [p.1, p.2], t ∈ ws := fun t ht => hp t (List.mem_flatMap.mpr ⟨p, hp', ht⟩)
  unfold both
  rw [indexIn_prefix h (hm p.1 (by simp)), indexIn_prefix h (hm p.2 (by simp))]

theorem preset_eq : PseudoParser.preset digit lang
    = .ok (parserOf digit lang (learn [] (presetTexts lang))) := by
  have h1 : ∀ p ∈ lang.params.matchPairs, (∃ c, p.1 = [c]) ∧ ∃ c, p.2 = [c] := by
    cases lang <;> simp [Language.params]
  have h2 : ∀ p ∈ lang.params.unsplittablePairs, (∃ c, p.1 = [c]) ∧ ∃ c, p.2 = [c] := by
    cases lang <;> simp [Language.params]
  have h3 : ∀ s ∈ lang.params.splitTokens, ∃ c, s = [c] := by
    cases lang <;> simp [Language.params]
  unfold PseudoParser.preset
  dsimp only
  rw [← codecOf_nil (typeOf digit lang), encodePairs_eq hd _ _ _ h1]
  simp only [bind, Except.bind]
  rw [encodePairs_eq hd _ _ _ h2]
  simp only
  rw [encodeSingles_eq hd _ _ _ h3]
  have hl : learn [] (presetTexts lang) = learn (learn (learn [] (pairTexts lang.params.matchPairs))
      (pairTexts lang.params.unsplittablePairs)) lang.params.splitTokens := by
    rw [presetTexts, learn_append, learn_append]
  unfold parserOf
  rw [hl]
  simp only [pure, Except.pure]
  have hp1 := learn_prefix (pairTexts lang.params.unsplittablePairs) (learn [] (pairTexts lang.params.matchPairs))
  have hp2 := learn_prefix lang.params.splitTokens (learn (learn [] (pairTexts lang.params.matchPairs))
      (pairTexts lang.params.unsplittablePairs))
  rw [both_congr hp2 fun t ht => (learn_mem _ _ _).mpr (.inr ht),
    both_congr (hp1.trans hp2) fun t ht => (learn_mem _ _ _).mpr (.inr ht)]

/-! ### One pass -/

omit hd in
theorem balanced_append_plain {T : Type} {pairs : List (T × T)} {ctx : Option T} {ts : List T}
    (h : Balanced pairs ctx ts) {t : T} (ht : PlainTok pairs t) : Balanced pairs ctx (ts ++ [t]) := by
  induction h with
  | nil => exact .plain ht (.nil _)
  | plain h1 _ ih => exact .plain h1 ih
  | stray h1 h2 _ ih => exact .stray h1 h2 ih
  | @bracket ctx o c inner ts h1 h2 _ _ ih =>
    have := Balanced.bracket h1 h2 ih
    rw [List.cons_append, List.append_assoc, List.cons_append]
    exact this

omit hd in
theorem bracketPairs_table : Table bracketPairs where
  closers := by decide
  disjoint := by decide

omit hd in
theorem bracketPairs_newline : PlainTok bracketPairs ['\n'] := by constructor <;> decide

omit hd in
theorem matchPairs_eq (lang : Language) : lang.params.matchPairs = bracketPairs := by cases lang <;> rfl

/-- The tokens of a text. -/
def tokensOf (digit : Char → Bool) (lang : Language) (code : Text) : List Text :=
  (lex (lang.spec digit) code).map Prod.snd

/-- The tokens that are added in front. -/
def addedBefore (digit : Char → Bool) (lang : Language) (code : Text) : List Text :=
  (correction bracketPairs (tokensOf digit lang code)).1

/-- The tokens that are added at the end. -/
def addedAfter (digit : Char → Bool) (lang : Language) (code : Text) : List Text :=
  let suffix := (correction bracketPairs (tokensOf digit lang code)).2
  if suffix ≠ [] ∧ lang.params.newlineTerminate = true then suffix ++ [['\n']] else suffix

/-- All tokens. -/
def allTokens (digit : Char → Bool) (lang : Language) (code : Text) : List Text :=
  addedBefore digit lang code ++ tokensOf digit lang code ++ addedAfter digit lang code

omit hd in
theorem allTokens_balanced (code : Text) : Balanced bracketPairs none (allTokens digit lang code) := by
  have := C15_balanced bracketPairs_table (tokensOf digit lang code)
  unfold allTokens addedAfter
  dsimp only
  split
  · rw [← List.append_assoc]
    exact balanced_append_plain this bracketPairs_newline
  · exact this

omit hd in
theorem suffixOf_none {p : PseudoParser} {c : Codec} {s : List Nat} (h : ¬ (s ≠ [] ∧ p.newlineTerminate = true)) :
    p.suffixOf c s = .ok (c, s) := if_neg h

omit hd in
theorem suffixOf_newline {p : PseudoParser} {c c' : Codec} {s : List Nat} {i : Nat} {is : List Nat}
    {tys : List TokenType} (h : s ≠ [] ∧ p.newlineTerminate = true)
    (he : c.encode p.spec ['\n'] = .ok (c', i :: is, tys)) : p.suffixOf c s = .ok (c', s ++ [i]) := by
  unfold PseudoParser.suffixOf
  rw [if_pos h, he]
  rfl

theorem pseudoParse_eq {ws : List Text} (hn : ws.Nodup) (he : [] ∉ ws) (hw : ∀ t ∈ presetTexts lang, t ∈ ws)
    (code : Text) : ∃ ws' root0 root, ws <+: ws' ∧ ws'.Nodup ∧ [] ∉ ws'
      ∧ (∀ t ∈ allTokens digit lang code, t ∈ ws')
      ∧ bracketMatch bracketPairs true (allTokens digit lang code) = .ok root0
      ∧ splitParse root0 (allTokens digit lang code) (splittersOf digit lang (tokensOf digit lang code))
          lang.params.unsplittablePairs none = .ok root
      ∧ (parserOf digit lang ws).pseudoParse code = .ok (codecOf (typeOf digit lang) ws',
        ⟨root, allTokens digit lang code, (allTokens digit lang code).map (typeOf digit lang),
          List.replicate (addedBefore digit lang code).length [] ++ tokensOf digit lang code
            ++ List.replicate (addedAfter digit lang code).length [],
          (addedBefore digit lang code).length, (addedAfter digit lang code).length⟩) := by
  have hlexne : [] ∉ tokensOf digit lang code := by
    intro h
    obtain ⟨x, hx, h0⟩ := List.mem_map.mp h
    exact (lexLoop_flatten (spec_total digit lang) _ none code (Nat.le_refl _)).2 x hx h0
  have hfst : ∀ t ∈ bracketPairs.map Prod.fst, t ∈ ws := by
    intro t ht
    refine hw t (List.mem_append_left _ (List.mem_append_left _ ?_))
    rw [matchPairs_eq]
    revert t
    decide
  have hsnd : ∀ t ∈ bracketPairs.map Prod.snd, t ∈ ws := by
    intro t ht
    refine hw t (List.mem_append_left _ (List.mem_append_left _ ?_))
    rw [matchPairs_eq]
    revert t
    decide
  -- the texts that are known at the end
  obtain ⟨ws', hws', hsuf⟩ : ∃ ws', ws' = (if (correction bracketPairs (tokensOf digit lang code)).2 ≠ []
      ∧ lang.params.newlineTerminate = true then learn (learn ws (tokensOf digit lang code)) [['\n']]
      else learn ws (tokensOf digit lang code)) ∧ True := ⟨_, rfl, trivial⟩
  have hp1 : ws <+: learn ws (tokensOf digit lang code) := learn_prefix _ _
  have hp2 : learn ws (tokensOf digit lang code) <+: ws' := by
    rw [hws']
    split
    · exact learn_prefix _ _
    · exact List.prefix_rfl
  have hn' : ws'.Nodup := by
    rw [hws']
    split
    · exact learn_nodup _ _ (learn_nodup _ _ hn)
    · exact learn_nodup _ _ hn
  have he1 : [] ∉ learn ws (tokensOf digit lang code) := by
    rw [learn_mem]
    rintro (h | h)
    · exact he h
    · exact hlexne h
  have he' : [] ∉ ws' := by
    rw [hws']
    split
    · rw [learn_mem]
      rintro (h | h)
      · exact he1 h
      · simp at h
    · exact he1
  have hmt : ∀ t ∈ tokensOf digit lang code, t ∈ ws' :=
    fun t ht => hp2.subset ((learn_mem _ _ _).mpr (.inr ht))
  have hob := C15_only_brackets bracketPairs (tokensOf digit lang code)
  have hall : ∀ t ∈ allTokens digit lang code, t ∈ ws' := by
    intro t ht
    unfold allTokens at ht
    rw [List.mem_append, List.mem_append] at ht
    rcases ht with (ht | ht) | ht
    · exact (hp1.trans hp2).subset (hfst t (hob.1 t ht))
    · exact hmt t ht
    · unfold addedAfter at ht
      dsimp only at ht
      split at ht
      · rename_i hc
        rw [List.mem_append] at ht
        rcases ht with ht | ht
        · exact (hp1.trans hp2).subset (hsnd t (hob.2 t ht))
        · rw [hws', if_pos hc]
          exact (learn_mem _ _ _).mpr (.inr ht)
      · exact (hp1.trans hp2).subset (hsnd t (hob.2 t ht))
  -- numbers
  obtain ⟨g, hg, hgw, -⟩ := exists_numbers ws'
  obtain ⟨f, hf⟩ : ∃ f : Text → Nat, f = fun t => g (.text t) := ⟨_, rfl⟩
  have hfi : Function.Injective f := by
    rw [hf]
    exact hg.comp text_injective
  have hfw : ∀ t ∈ ws', indexIn ws' t = f t := by
    intro t ht
    rw [hf]
    exact (hgw t ht).symm
  have hmap : ∀ ts : List Text, (∀ t ∈ ts, t ∈ ws') → ts.map (indexIn ws') = ts.map f :=
    fun ts h => List.map_congr_left fun t ht => hfw t (h t ht)
  have hmapb : ∀ ps : List (Text × Text), (∀ t ∈ pairTexts ps, t ∈ ws) →
      ps.map (both (indexIn ws)) = ps.map (both f) := by
    intro ps h
    rw [← both_congr (hp1.trans hp2) h]
    refine List.map_congr_left fun p hp => ?_
    have hm : ∀ t ∈ [p.1, p.2], t ∈ ws' :=
      fun t ht => (hp1.trans hp2).subset (h t (List.mem_flatMap.mpr ⟨p, hp, ht⟩))
    unfold both
    rw [hfw _ (hm p.1 (by simp)), hfw _ (hm p.2 (by simp))]
  have henc : (tokensOf digit lang code).map (indexIn (learn ws (tokensOf digit lang code)))
      = (tokensOf digit lang code).map f := by
    rw [← hmap _ hmt]
    refine List.map_congr_left fun t ht => ?_
    rw [indexIn_prefix hp2 ((learn_mem _ _ _).mpr (.inr ht))]
  have hpairs : (parserOf digit lang ws).matchPairs = bracketPairs.map (both f) := by
    rw [← matchPairs_eq lang]
    exact hmapb _ fun t ht => hw t (List.mem_append_left _ (List.mem_append_left _ ht))
  have hun : (parserOf digit lang ws).unsplittablePairs = lang.params.unsplittablePairs.map (both f) :=
    hmapb _ fun t ht => hw t (List.mem_append_left _ (List.mem_append_right _ ht))
  have hsp : (parserOf digit lang ws).splitters = lang.params.splitTokens.map f := by
    refine List.map_congr_left fun t ht => ?_
    have ht' := hw t (List.mem_append_right _ ht)
    rw [← hfw t ((hp1.trans hp2).subset ht'), indexIn_prefix (hp1.trans hp2) ht']
  -- the trees
  obtain ⟨root0, hb, hb1, hb2, hb3, hb4, hb5, hb6⟩ := C16_tree bracketPairs_table (allTokens_balanced (digit := digit) lang code)
  have hm := matched_of_balanced bracketPairs_table (allTokens_balanced (digit := digit) lang code) hb
  obtain ⟨root, hr⟩ := C17_succeeds (splitters := splittersOf digit lang (tokensOf digit lang code))
    (un := lang.params.unsplittablePairs) hm
  have hv := C17_valid hm hb1 hb2 hr
  refine ⟨ws', root0, root, hp1.trans hp2, hn', he', hall, hb, hr, ?_⟩
  -- the run
  have hcor := correction_map hfi bracketPairs (tokensOf digit lang code)
  have hsuffix : (parserOf digit lang ws).suffixOf
      (codecOf (typeOf digit lang) (learn ws (tokensOf digit lang code)))
      ((correction bracketPairs (tokensOf digit lang code)).2.map f)
      = .ok (codecOf (typeOf digit lang) ws', (addedAfter digit lang code).map f) := by
    unfold addedAfter
    dsimp only
    by_cases hc : (correction bracketPairs (tokensOf digit lang code)).2 ≠ []
        ∧ lang.params.newlineTerminate = true
    · have hc' : (correction bracketPairs (tokensOf digit lang code)).2.map f ≠ []
          ∧ (parserOf digit lang ws).newlineTerminate = true := by simpa [parserOf] using hc
      rw [if_pos hc] at hws' ⊢
      have he := encode_eq hd lang (learn ws (tokensOf digit lang code)) ['\n']
      rw [lex_single, ← hws'] at he
      rw [suffixOf_newline hc' he, List.map_append, hfw]
      · rfl
      · rw [hws', learn_mem]
        exact .inr (by simp)
    · have hc' : ¬ ((correction bracketPairs (tokensOf digit lang code)).2.map f ≠ []
          ∧ (parserOf digit lang ws).newlineTerminate = true) := by simpa [parserOf] using hc
      rw [if_neg hc] at hws' ⊢
      rw [suffixOf_none hc', hws']
  have hcorrected : (addedBefore digit lang code).map f ++ (tokensOf digit lang code).map f
      ++ (addedAfter digit lang code).map f = (allTokens digit lang code).map f := by
    rw [allTokens, List.map_append, List.map_append]
  have hlen : ((allTokens digit lang code).map f).length = (allTokens digit lang code).length := List.length_map _
  have htypes : ((((tokensOf digit lang code).map f).zip ((tokensOf digit lang code).map (typeOf digit lang))).filter
      fun x => lang.params.splitTypes.contains x.2).map Prod.fst
      = ((tokensOf digit lang code).filter
        fun t => lang.params.splitTypes.contains (typeOf digit lang t)).map f := by
    induction tokensOf digit lang code with
    | nil => rfl
    | cons t ts ih =>
      rw [List.map_cons, List.map_cons, List.zip_cons_cons, List.filter_cons, List.filter_cons]
      dsimp only
      split
      · rw [List.map_cons, ih, List.map_cons]
      · exact ih
  unfold PseudoParser.pseudoParse
  rw [hpairs, hun, hsp]
  rw [show (parserOf digit lang ws).codec.encode (parserOf digit lang ws).spec code = _ from
    encode_eq hd lang ws code]
  simp only [bind, Except.bind]
  rw [show (lex (lang.spec digit) code).map Prod.snd = tokensOf digit lang code from rfl, henc, hcor]
  simp only
  rw [hsuffix]
  simp only
  rw [show (correction bracketPairs (tokensOf digit lang code)).1 = addedBefore digit lang code from rfl,
    hcorrected, ← hmap _ hall, decodeToken_eq hall]
  simp only
  rw [← hmap _ hmt, decodeToken_eq hmt, decodeType_eq hall]
  simp only
  rw [hmap _ hall, hmap _ hmt, bracketMatch_map hfi, hb]
  simp only [hlen, hb5, assertThat, if_true]
  rw [show (parserOf digit lang ws).splitTypes = lang.params.splitTypes from rfl, htypes, ← List.map_append]
  have hsm := splitParse_map hfi root0 (allTokens digit lang code)
    (splittersOf digit lang (tokensOf digit lang code)) lang.params.unsplittablePairs none
  rw [hr, splittersOf, Option.map_none] at hsm
  rw [hsm]
  simp only [hv, if_true, List.length_map, pure, Except.pure]

end

end RUSure.Lemmas
