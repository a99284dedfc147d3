import Verif.Lemmas.PythonParser

/-!
# Proofs about parsing Python code
-/

namespace RUSure.Lemmas
open RUSure RUSure.Spec RUSure.Props

section
variable {T : Type} [DecidableEq T] {pairs un : List (T × T)} {indent dedent newline : T} {text : T → Text}
  {encoded : List T} {root0 : PNode} {cc : CharClass} {spaces : Nat}

theorem marker_places (h : Desugarable pairs indent dedent newline text encoded root0) (hs : 0 < spaces)
    {out : List T}
    (ho : desugar cc root0 (encoded.map text) encoded indent dedent newline spaces = .ok out) :
    MarkerPlaces indent dedent newline out := by
  obtain ⟨h1, h2, h3⟩ := C18_neighbours h hs ho
  have cut : ∀ (j : Nat) (t : T), out[j]? = some t → out = out.take j ++ t :: out.drop (j + 1) := by
    intro j t hj
    obtain ⟨hl, rfl⟩ := List.getElem?_eq_some_iff.mp hj
    rw [List.getElem_cons_drop, List.take_append_drop]
  have hnd : newline ≠ dedent := by
    rintro rfl
    exact h.dedent_new.1 (List.mem_of_mem_getLast? (by rw [h.last]; rfl))
  refine ⟨fun j hj => ?_, fun j hj => ?_, fun j hj hj' => ?_⟩
  · have hlen : (out.take (j + 1)).getLast? = out[j]? := by
      have hl := (List.getElem?_eq_some_iff.mp hj).1
      rw [List.getLast?_eq_getElem?, List.length_take, Nat.min_eq_left (by omega), Nat.add_sub_cancel,
        List.getElem?_take_of_lt (by omega)]
    have := h1 _ _ (cut _ _ hj)
    rw [hlen] at this
    rcases this with h0 | h0
    · have hl := (List.getElem?_eq_some_iff.mp hj).1
      have := congrArg List.length h0
      rw [List.length_take, List.length_nil] at this
      omega
    · exact h0
  · have := h2 _ _ (cut _ _ hj)
    rwa [List.head?_drop] at this
  · have e := cut _ _ hj
    have e2 : out.drop (j + 1) = newline :: out.drop (j + 2) := by
      obtain ⟨hl, e3⟩ := List.getElem?_eq_some_iff.mp hj'
      rw [← e3, List.getElem_cons_drop]
    rw [e2] at e
    have := h3 _ _ e
    rwa [List.head?_drop] at this

/-- Marked tokens can be parsed and their blocks moved. -/
theorem desugared_parses (h : Desugarable pairs indent dedent newline text encoded root0) (hs : 0 < spaces) :
    ∃ out u v root, desugar cc root0 (encoded.map text) encoded indent dedent newline spaces = .ok out
      ∧ bracketMatch (pairs ++ [(indent, dedent)]) true out = .ok u
      ∧ splitParse u out [newline] un none = .ok v
      ∧ splitParse u out [newline] un (some (indent, dedent)) = .ok root
      ∧ (∀ x, InTree x v → WellGrouped out [newline] x.children)
      ∧ Nested out (indent, dedent) v root := by
  obtain ⟨bodies, -, -, ho⟩ := C18_lines (cc := cc) h hs
  obtain ⟨hT, hb⟩ := C18_balanced h hs ho
  have hp := marker_places h hs ho
  generalize markLines indent dedent newline 0 (withIndentation cc spaces newline text bodies) = out at ho hb hp
  obtain ⟨ns, hu, hf⟩ := C16_forest hT hb
  have hm := matched_of_balanced hT hb hu
  obtain ⟨hel, hin⟩ := forest_elements (tokens := out) hT hf [] [] (by simp) rfl
  have hbelow : ∀ x, InTree x (.mk 0 (some out.length) .root ns) → ElementsBelow (pairs ++ [(indent, dedent)]) out x := by
    intro x hx
    cases hx with
    | self => exact ⟨by simp [PNode.ann], fun _ => hel⟩
    | child hx => exact hin x hx
  obtain ⟨v, hv⟩ := C17_succeeds (splitters := [newline]) (un := un) hm
  have hg := C17_groups hm (fun x hx => (hin x hx).1) (by simp) hv
  have hv' : PNode.splitWith out [newline] un (.mk 0 (some out.length) .root ns) = .ok v := by
    have h1 := hv
    unfold splitParse at h1
    rw [if_neg (by simp)] at h1
    obtain ⟨r, h2, h1⟩ := except_bind_ok h1
    cases h1
    exact h2
  have hse := splitWith_elements out [newline] un out.length _ _ hv' hm.lookupOk hbelow
  obtain ⟨-, -, hr, -, -, -⟩ := C17_splitting_keeps hm hv
  have hnm : newline ∈ encoded := List.mem_of_mem_getLast? (by rw [h.last]; rfl)
  have hn : PlainTok (pairs ++ [(indent, dedent)]) newline := by
    constructor
    · simp only [List.map_append, List.mem_append, not_or, List.map_cons, List.map_nil, List.mem_singleton]
      exact ⟨h.plain.1, fun e => h.indent_new.1 (e ▸ hnm)⟩
    · simp only [List.map_append, List.mem_append, not_or, List.map_cons, List.map_nil, List.mem_singleton]
      exact ⟨h.plain.2, fun e => h.dedent_new.1 (e ▸ hnm)⟩
  have hc : ∀ x, InTree x v → Chainless out (indent, dedent) x.children := by
    intro x hx
    have hxr := range_inTree _ hr x hx
    have kids : ∀ c ∈ x.children, InTree c v := inTree_children v (P := fun y => InTree y v) (fun y hy => hy) x hx
    obtain ⟨lo, hi, ann, cs⟩ := x
    cases hxr with
    | leaf _ => exact ⟨by simp [PNode.children], by simp [PNode.children]⟩
    | inner _ ht => exact chainless_places hT hn hp ht (hg _ hx) fun c hc ha => hse c (kids c hc) ha
  obtain ⟨root, h1, h2⟩ := C17_nests hm (by simp) hv hc
  exact ⟨out, _, v, root, ho, hu, hv, h1, hg, h2⟩

end

/-! ### The branch for Python -/

/-- The brackets as marked tokens. -/
def textPairs (ps : List (Text × Text)) : List (MarkedToken × MarkedToken) := ps.map (both .text)

theorem markedPairs_eq : markedPairs = textPairs bracketPairs ++ [(.indent, .dedent)] := rfl

theorem textPairs_fst (ps : List (Text × Text)) : (textPairs ps).map Prod.fst = (ps.map Prod.fst).map .text := by
  unfold textPairs
  rw [List.map_map, List.map_map]
  rfl

theorem textPairs_snd (ps : List (Text × Text)) : (textPairs ps).map Prod.snd = (ps.map Prod.snd).map .text := by
  unfold textPairs
  rw [List.map_map, List.map_map]
  rfl

theorem balanced_text {ctx : Option Text} {ts : List Text} (h : Balanced bracketPairs ctx ts) :
    Balanced (textPairs bracketPairs) (ctx.map .text) (ts.map .text) := by
  have hinj : ∀ (t : Text) (l : List Text), MarkedToken.text t ∈ l.map MarkedToken.text → t ∈ l := by
    intro t l h
    obtain ⟨x, hx, h⟩ := List.mem_map.mp h
    cases h
    exact hx
  have hplain : ∀ {t : Text}, PlainTok bracketPairs t → PlainTok (textPairs bracketPairs) (.text t) := by
    intro t ht
    constructor
    · rw [textPairs_fst]
      exact fun h => ht.1 (hinj _ _ h)
    · rw [textPairs_snd]
      exact fun h => ht.2 (hinj _ _ h)
  induction h with
  | nil => exact .nil _
  | plain h1 _ ih => exact .plain (hplain h1) ih
  | stray h1 h2 _ ih =>
    exact .stray (List.mem_map.mpr ⟨_, h1, rfl⟩) (fun h => h2 (by cases h; rfl)) ih
  | @bracket ctx o c inner ts h1 _ _ ih1 ih2 =>
    rw [List.map_cons, List.map_append, List.map_cons]
    exact .bracket (List.mem_map.mpr ⟨_, h1, rfl⟩) ih1 ih2

theorem bind_of_ok {ε α β : Type} {x : Except ε α} {a : α} {f : α → Except ε β} {y : Except ε β}
    (h : x = .ok a) (hy : f a = y) : (x >>= f) = y := by
  subst h
  exact hy

theorem assertThat_ok {b : Bool} (h : b = true) : assertThat b = .ok () := by
  subst h
  rfl

section
variable {digit : Char → Bool} (hd : DigitSane digit)
include hd

theorem python_desugarable {code : Text} (h : code.getLast? = some '\n') {root0 : PNode}
    (hr : bracketMatch bracketPairs true (allTokens digit .pythonPreprocessor code) = .ok root0) :
    Desugarable (textPairs bracketPairs) .indent .dedent (.text ['\n']) MarkedToken.string
      ((allTokens digit .pythonPreprocessor code).map .text) root0 where
  table := by constructor <;> decide
  balanced := balanced_text (allTokens_balanced .pythonPreprocessor code)
  parsed := by
    unfold textPairs
    rw [bracketMatch_map text_injective]
    exact hr
  last := by
    rw [List.getLast?_map, all_last hd h]
    rfl
  plain := by constructor <;> decide
  newline_text := by simp [MarkedToken.string]
  markers := by simp
  indent_new := ⟨by simp, by decide, by decide⟩
  dedent_new := ⟨by simp, by decide, by decide⟩

theorem parsePython_eq (cc : CharClass) {code : Text} (hc : code ≠ []) {spaces : Nat} (hs : 0 < spaces) :
    ∃ root0 out u v root,
      bracketMatch bracketPairs true (allTokens digit .pythonPreprocessor (withNewline code)) = .ok root0
      ∧ Desugarable (textPairs bracketPairs) .indent .dedent (.text ['\n']) MarkedToken.string
          ((allTokens digit .pythonPreprocessor (withNewline code)).map .text) root0
      ∧ desugar cc root0 (allTokens digit .pythonPreprocessor (withNewline code))
          ((allTokens digit .pythonPreprocessor (withNewline code)).map .text) .indent .dedent
          (.text ['\n']) spaces = .ok out
      ∧ bracketMatch markedPairs true out = .ok u
      ∧ splitParse u out [.text ['\n']] (textPairs Language.pythonPreprocessor.params.unsplittablePairs) none = .ok v
      ∧ splitParse u out [.text ['\n']] (textPairs Language.pythonPreprocessor.params.unsplittablePairs)
          (some (.indent, .dedent)) = .ok root
      ∧ (∀ x, InTree x v → WellGrouped out [.text ['\n']] x.children)
      ∧ Nested out (.indent, .dedent) v root
      ∧ parsePython cc digit code spaces = .ok ⟨root, out.map MarkedToken.string, out.map (MarkedToken.type digit),
          spreadTexts out (rawTexts digit code),
          (addedBefore digit .pythonPreprocessor (withNewline code)).length,
          (addedAfter digit .pythonPreprocessor (withNewline code)).length⟩ := by
  have hw0 : ∀ t ∈ presetTexts .pythonPreprocessor, t ∈ learn [] (presetTexts .pythonPreprocessor) :=
    fun t ht => (learn_mem _ _ _).mpr (.inr ht)
  have he0 : [] ∉ learn [] (presetTexts .pythonPreprocessor) := by
    rw [learn_mem]
    decide
  obtain ⟨ws, root0, root1, hpre, hnd, hne, hmem, hb, hsp, hpp⟩ := pseudoParse_eq hd .pythonPreprocessor
    (learn_nodup (presetTexts .pythonPreprocessor) [] List.nodup_nil) he0 hw0 (withNewline code)
  obtain rfl : root0 = root1 := by
    unfold splitParse at hsp
    rw [if_pos (by simp [splittersOf, Language.params])] at hsp
    exact Except.ok.inj hsp
  have hde := python_desugarable hd (withNewline_last code) hb
  obtain ⟨out, u, v, root, ho, hu, hv, hroot, hg, hnest⟩ := desugared_parses (cc := cc)
    (un := textPairs Language.pythonPreprocessor.params.unsplittablePairs) hde hs
  have hstr : ((allTokens digit .pythonPreprocessor (withNewline code)).map MarkedToken.text).map MarkedToken.string
      = allTokens digit .pythonPreprocessor (withNewline code) := by
    rw [List.map_map]
    exact List.map_id _
  have her := C18_erase hde hs ho
  have ho0 := ho
  rw [hstr] at ho
  refine ⟨root0, out, u, v, root, hb, hde, ho, hu, hv, hroot, hg, hnest, ?_⟩
  -- numbers of the tokens
  obtain ⟨g, hgi, hgw, hgi1, hgi2⟩ := exists_numbers ws
  have hnl : ['\n'] ∈ ws := hmem _ (List.mem_of_mem_getLast? (by rw [all_last hd (withNewline_last code)]; rfl))
  obtain ⟨c1, hm1, hm2⟩ := codec_marked (typ := typeOf digit .pythonPreprocessor) hne
  have hplain := plain_of_filter her
  have houtw : ∀ t, .text t ∈ out → t ∈ ws := by
    intro t ht
    refine hmem t ?_
    rw [← hplain]
    exact List.mem_filterMap.mpr ⟨_, ht, rfl⟩
  obtain ⟨hdt, hdy⟩ := decode_marked (typ := typeOf digit .pythonPreprocessor) hgw hgi1 hgi2 houtw
  have hinw : ∀ t, .text t ∈ (allTokens digit .pythonPreprocessor (withNewline code)).map MarkedToken.text → t ∈ ws := by
    intro t ht
    obtain ⟨x, hx, h⟩ := List.mem_map.mp ht
    cases h
    exact hmem _ hx
  have henc : (allTokens digit .pythonPreprocessor (withNewline code)).map (indexIn ws)
      = ((allTokens digit .pythonPreprocessor (withNewline code)).map MarkedToken.text).map g := by
    rw [List.map_map]
    exact List.map_congr_left fun t ht => (hgw t (hmem t ht)).symm
  have hdes : desugar cc root0 (allTokens digit .pythonPreprocessor (withNewline code))
      ((allTokens digit .pythonPreprocessor (withNewline code)).map (indexIn ws)) (ws.length + 1)
      (ws.length + 2) (indexIn ws ['\n']) spaces = .ok (out.map g) := by
    rw [henc, ← hgi1, ← hgi2, ← hgw _ hnl, desugar_map hgi, ho]
    rfl
  have hpairs : ∀ ps : List (Text × Text), (∀ t ∈ pairTexts ps, t ∈ learn [] (presetTexts .pythonPreprocessor)) →
      ps.map (both (indexIn (learn [] (presetTexts .pythonPreprocessor)))) = (textPairs ps).map (both g) := by
    intro ps h
    rw [← both_congr hpre h, textPairs, List.map_map]
    refine List.map_congr_left fun p hp => ?_
    have hm : ∀ t ∈ [p.1, p.2], t ∈ ws := fun t ht =>
      hpre.subset (h t (List.mem_flatMap.mpr ⟨p, hp, ht⟩))
    simp only [both, Function.comp]
    rw [hgw _ (hm p.1 (by simp)), hgw _ (hm p.2 (by simp))]
  have hmp := hpairs Language.pythonPreprocessor.params.matchPairs fun t ht =>
    hw0 t (List.mem_append_left _ (List.mem_append_left _ ht))
  have hup := hpairs Language.pythonPreprocessor.params.unsplittablePairs fun t ht =>
    hw0 t (List.mem_append_left _ (List.mem_append_right _ ht))
  have hbm : bracketMatch (Language.pythonPreprocessor.params.matchPairs.map
      (both (indexIn (learn [] (presetTexts .pythonPreprocessor)))) ++ [(ws.length + 1, ws.length + 2)]) true
      (out.map g) = .ok u := by
    rw [hmp, ← hgi1, ← hgi2]
    have : (textPairs Language.pythonPreprocessor.params.matchPairs).map (both g) ++ [(g .indent, g .dedent)]
        = markedPairs.map (both g) := rfl
    rw [this, bracketMatch_map hgi]
    exact hu
  have hsp2 : splitParse u (out.map g) [indexIn ws ['\n']] (Language.pythonPreprocessor.params.unsplittablePairs.map
      (both (indexIn (learn [] (presetTexts .pythonPreprocessor))))) (some (ws.length + 1, ws.length + 2))
      = .ok root := by
    rw [hup, ← hgi1, ← hgi2, ← hgw _ hnl]
    have := splitParse_map hgi u out [.text ['\n']]
      (textPairs Language.pythonPreprocessor.params.unsplittablePairs) (some (.indent, .dedent))
    exact this.trans hroot
  -- the checks
  have hbal := allTokens_balanced (digit := digit) .pythonPreprocessor (withNewline code)
  have hv0 : validParseRanges root0 (allTokens digit .pythonPreprocessor (withNewline code)).length = true := by
    obtain ⟨r, h1, -, -, -, -, h2, -⟩ := C16_tree bracketPairs_table hbal
    rw [hb] at h1
    cases h1
    exact h2
  obtain ⟨hT, hbal2⟩ := C18_balanced hde hs ho0
  have hvu : u.lo = 0 ∧ u.hi = some out.length ∧ validParseRanges u out.length = true := by
    obtain ⟨r, h1, h3, h4, -, -, h2, -⟩ := C16_tree hT hbal2
    rw [hu] at h1
    cases h1
    exact ⟨h3, h4, h2⟩
  have hvr : validParseRanges root out.length = true :=
    C17_valid (matched_of_balanced hT hbal2 hu) hvu.1 hvu.2.1 hroot
  have hraw := rawTexts_spec hd code
  have hrl : (rawTexts digit code).length = (plainTexts out).length := by
    rw [hplain]
    exact hraw.2.length_eq
  have hsr := spread_eq hgi out (rawTexts digit code) hrl
  have hcount : (rawTexts digit code).length
      + ((out.map g).filter fun t => [ws.length + 1, ws.length + 2].contains t).length = out.length := by
    rw [hrl, ← hgi1, ← hgi2]
    clear * - hgi
    induction out with
    | nil => rfl
    | cons t ts ih =>
      cases t with
      | text t =>
        have hc : [g .indent, g .dedent].contains (g (.text t)) = false := by
          simp [hgi.eq_iff]
        rw [List.map_cons, List.filter_cons_of_neg (by rw [hc]; simp), plain_text, List.length_cons,
          List.length_cons, ← ih]
        omega
      | indent =>
        have hp : plainTexts (.indent :: ts) = plainTexts ts := rfl
        rw [List.map_cons, List.filter_cons_of_pos (by simp), List.length_cons, List.length_cons, ← ih, hp]
        omega
      | dedent =>
        have hp : plainTexts (.dedent :: ts) = plainTexts ts := rfl
        rw [List.map_cons, List.filter_cons_of_pos (by simp), List.length_cons, List.length_cons, ← ih, hp]
        omega
  have hrd : rawDesugared (rawTexts digit code) (out.map g) [ws.length + 1, ws.length + 2]
      = .ok (spreadTexts out (rawTexts digit code)) := by
    unfold rawDesugared
    dsimp only
    refine bind_of_ok (assertThat_ok (by rw [hcount, List.length_map, beq_self_eq_true])) ?_
    rw [← hgi1, ← hgi2]
    refine bind_of_ok hsr ?_
    rw [hgi1, hgi2]
    exact bind_of_ok (assertThat_ok (by rw [hcount, spread_length, beq_self_eq_true])) rfl
  have hlast : ∃ c, code.getLast? = some c := ⟨_, List.getLast?_eq_some_getLast hc⟩
  obtain ⟨c, hlast⟩ := hlast
  have hcode : (if (c != '\n') = true then code ++ ['\n'] else code) = withNewline code := by
    unfold withNewline
    rw [hlast]
    by_cases h : c = '\n' <;> simp [h]
  have happ : (c != '\n') = (code.getLast? != some '\n') := by
    rw [hlast]
    rfl
  unfold parsePython
  rw [hlast]
  refine bind_of_ok (a := c) rfl ?_
  dsimp only
  rw [hcode, happ]
  refine bind_of_ok (preset_eq hd .pythonPreprocessor) ?_
  refine bind_of_ok hpp ?_
  dsimp only
  refine bind_of_ok (dropNewline_eq hd code) ?_
  refine bind_of_ok (assertThat_ok (by rw [beq_iff_eq]; exact hraw.2.length_eq.symm)) ?_
  refine bind_of_ok (assertThat_ok hv0) ?_
  have hlnl : tokensOf digit .pythonPreprocessor ['\n'] = [['\n']] := by
    unfold tokensOf
    rw [lex_single]
  have henl := encode_eq hd .pythonPreprocessor ws ['\n']
  rw [show (lex (Language.pythonPreprocessor.spec digit) ['\n']).map Prod.snd = [['\n']] from hlnl,
    learn_known _ _ (by simpa using hnl)] at henl
  refine bind_of_ok henl ?_
  refine bind_of_ok (a := indexIn ws ['\n']) rfl ?_
  refine bind_of_ok hm1 ?_
  refine bind_of_ok hm2 ?_
  have hag := all_again hd (withNewline_last code)
  refine bind_of_ok (encode_known hd .pythonPreprocessor (by rw [hag]; exact hmem)) ?_
  dsimp only
  rw [hag]
  refine bind_of_ok hdes ?_
  refine bind_of_ok hdt ?_
  have htypes := hdy.trans (congrArg Except.ok (List.map_congr_left (g := MarkedToken.type digit) fun t _ => by
    cases t <;> rfl))
  refine bind_of_ok htypes ?_
  refine bind_of_ok hrd ?_
  refine bind_of_ok hbm ?_
  refine bind_of_ok (assertThat_ok (by rw [List.length_map]; exact hvu.2.2)) ?_
  refine bind_of_ok hsp2 ?_
  refine bind_of_ok (assertThat_ok (by rw [List.length_map]; exact hvr)) ?_
  rfl

end

end RUSure.Lemmas
