import Verif.Lemmas.PseudoParser

/-!
# Proofs about the pseudo parser: Python
-/

namespace RUSure.Lemmas
open RUSure RUSure.Spec RUSure.Props

/-! ### The last token -/

theorem matchSpec_safe : ∀ {spec : LexSpec} {k : Nat} {p : Option Char} {text : Text} {res : TokenType × Text},
    SafeSpec k spec → matchSpec k spec p text = some res → ∃ w, text = w ++ res.2 ∧ SafeText w
  | [], _, _, _, _, _, h => by rw [matchSpec] at h; cases h
  | (ty, r) :: spec, k, p, text, res, hs, h => by
    rcases matchSpec_cases h with ⟨t, ht, hl, rfl⟩ | ⟨h, -⟩
    · obtain ⟨w, h1, h2⟩ := hs.2.1 p text t ht
      exact ⟨w, h1.rest, h2⟩
    · exact matchSpec_safe hs.2.2 h

theorem lexLoop_safe {spec : LexSpec} (hs : SafeSpec 0 spec) : ∀ (n : Nat) (p : Option Char) (text : Text),
    ∀ x ∈ lexLoop spec n p text, SafeText x.2
  | _, _, [], x, h => by simp [lexLoop] at h
  | 0, _, _ :: _, x, h => by simp [lexLoop] at h
  | n + 1, p, c :: cs, x, h => by
    rw [lexLoop] at h
    split at h
    · exact lexLoop_safe hs n _ _ x h
    · rename_i ty rest hm
      obtain ⟨w, h1, h2⟩ := matchSpec_safe hs hm
      dsimp only at h1 h
      rw [List.mem_cons] at h
      rcases h with rfl | h
      · have : (c :: cs).take ((c :: cs).length - rest.length) = w := by
          rw [h1, List.length_append, Nat.add_sub_cancel]
          exact List.take_left
        rw [this]
        exact h2
      · exact lexLoop_safe hs n _ _ x h

section
variable {digit : Char → Bool} (hd : DigitSane digit)
include hd

theorem tokens_last {code : Text} (h : code.getLast? = some '\n') :
    (tokensOf digit .pythonPreprocessor code).getLast? = some ['\n'] := by
  have hf := lexLoop_flatten (spec_total digit .pythonPreprocessor) _ none code (Nat.le_refl _)
  have hf1 : (tokensOf digit .pythonPreprocessor code).flatten = code := hf.1
  have hne : ∀ t ∈ tokensOf digit .pythonPreprocessor code, t ≠ [] ∧ SafeText t := by
    intro t ht
    obtain ⟨x, hx, rfl⟩ := List.mem_map.mp ht
    exact ⟨hf.2 x hx, lexLoop_safe (safe_python hd) _ _ _ x hx⟩
  have hnil : tokensOf digit .pythonPreprocessor code ≠ [] := by
    intro h0
    rw [h0] at hf1
    rw [← hf1] at h
    cases h
  obtain ⟨l, t, hl⟩ : ∃ l t, tokensOf digit .pythonPreprocessor code = l ++ [t] :=
    ⟨_, _, (List.dropLast_append_getLast hnil).symm⟩
  rw [hl] at hf1 hne ⊢
  obtain ⟨h1, h2⟩ := hne t (by simp)
  rw [List.flatten_append, List.flatten_singleton] at hf1
  rw [← hf1, List.getLast?_append_of_ne_nil _ h1] at h
  rw [List.getLast?_append_of_ne_nil _ (by simp), List.getLast?_singleton, Option.some.injEq]
  rcases h2 with h2 | h2 | ⟨q, hq, h2⟩
  · exact absurd (List.mem_of_getLast? h) h2
  · match t, h1, h2, h with
    | [c], _, _, h => simpa using h
    | _ :: _ :: _, _, h2, _ => simp at h2
  · rw [h2] at h
    rcases hq with rfl | rfl <;> simp at h

theorem all_last {code : Text} (h : code.getLast? = some '\n') :
    (allTokens digit .pythonPreprocessor code).getLast? = some ['\n'] := by
  unfold allTokens addedAfter
  dsimp only
  split
  · rw [← List.append_assoc, List.getLast?_append_of_ne_nil _ (by simp)]
    rfl
  · rename_i hc
    have h0 : (correction bracketPairs (tokensOf digit .pythonPreprocessor code)).2 = [] := by
      by_contra hne
      exact hc ⟨hne, rfl⟩
    have ht := tokens_last hd h
    rw [h0, List.append_nil, List.getLast?_append_of_ne_nil _ (by intro h1; rw [h1] at ht; cases ht)]
    exact ht

/-! ### The second encoding -/

theorem tokens_brackets : ∀ (ts : List Text) (z : Text),
    (∀ t ∈ ts, ∃ c ∈ ['(', ')', '[', ']', '{', '}', '\n'], t = [c]) →
    tokensOf digit .pythonPreprocessor (ts.flatten ++ z) = ts ++ tokensOf digit .pythonPreprocessor z
  | [], _, _ => rfl
  | t :: ts, z, h => by
    rw [List.forall_mem_cons] at h
    obtain ⟨⟨c, hc, rfl⟩, h⟩ := h
    obtain ⟨ty, he⟩ := lex_bracket hd hc (ts.flatten ++ z)
    have ih := tokens_brackets ts z h
    unfold tokensOf at ih ⊢
    rw [List.flatten_cons, List.cons_append, List.nil_append, List.cons_append, he, List.map_cons, ih]
    rfl

theorem all_again {code : Text} (h : code.getLast? = some '\n') :
    tokensOf digit .pythonPreprocessor (allTokens digit .pythonPreprocessor code).flatten
      = allTokens digit .pythonPreprocessor code := by
  have hob := C15_only_brackets bracketPairs (tokensOf digit .pythonPreprocessor code)
  have h1 : ∀ t ∈ addedBefore digit .pythonPreprocessor code,
      ∃ c ∈ ['(', ')', '[', ']', '{', '}', '\n'], t = [c] := by
    intro t ht
    have := hob.1 t ht
    simp only [bracketPairs, List.map_cons, List.map_nil, List.mem_cons, List.not_mem_nil, or_false] at this
    rcases this with rfl | rfl | rfl <;> exact ⟨_, by simp, rfl⟩
  have h2 : ∀ t ∈ addedAfter digit .pythonPreprocessor code,
      ∃ c ∈ ['(', ')', '[', ']', '{', '}', '\n'], t = [c] := by
    intro t ht
    have hc : ∀ t ∈ (correction bracketPairs (tokensOf digit .pythonPreprocessor code)).2,
        ∃ c ∈ ['(', ')', '[', ']', '{', '}', '\n'], t = [c] := by
      intro t ht
      have := hob.2 t ht
      simp only [bracketPairs, List.map_cons, List.map_nil, List.mem_cons, List.not_mem_nil, or_false] at this
      rcases this with rfl | rfl | rfl <;> exact ⟨_, by simp, rfl⟩
    unfold addedAfter at ht
    dsimp only at ht
    split at ht
    · rw [List.mem_append, List.mem_singleton] at ht
      rcases ht with ht | rfl
      · exact hc t ht
      · exact ⟨'\n', by simp, rfl⟩
    · exact hc t ht
  have h3 := tokens_brackets hd (addedAfter digit .pythonPreprocessor code) [] h2
  rw [List.append_nil] at h3
  have hz : '"' ∉ (addedAfter digit .pythonPreprocessor code).flatten
      ∧ '\'' ∉ (addedAfter digit .pythonPreprocessor code).flatten := by
    constructor <;>
    · intro hq
      obtain ⟨t, ht, hq⟩ := List.mem_flatten.mp hq
      obtain ⟨c, hc, rfl⟩ := h2 t ht
      rw [List.mem_singleton] at hq
      subst hq
      simp at hc
  have hx := lex_extend hd hz _ code (Nat.le_refl _) (.inr h) none
  have hf : (tokensOf digit .pythonPreprocessor code).flatten = code :=
    (lexLoop_flatten (spec_total digit .pythonPreprocessor) _ none code (Nat.le_refl _)).1
  have hx' : tokensOf digit .pythonPreprocessor (code ++ (addedAfter digit .pythonPreprocessor code).flatten)
      = tokensOf digit .pythonPreprocessor code
        ++ tokensOf digit .pythonPreprocessor (addedAfter digit .pythonPreprocessor code).flatten := by
    unfold tokensOf lex
    rw [hx, List.map_append]
  unfold allTokens
  rw [List.flatten_append, List.flatten_append, List.append_assoc, tokens_brackets hd _ _ h1, hf, hx', h3,
    List.append_assoc]
  congr 2
  exact List.append_nil _

end

/-! ### A codec with markers -/

/-- The codec of some texts with the two markers. -/
def codecMarked (typ : Text → TokenType) (ws : List Text) : Codec :=
  ⟨ws.zipIdx 1 ++ [([], ws.length + 2)],
    (ws.zipIdx 1).map Prod.swap ++ [(ws.length + 1, []), (ws.length + 2, [])],
    ((ws.zipIdx 1).map fun p => (p.2, typ p.1)) ++ [(ws.length + 1, .pythonIndent), (ws.length + 2, .pythonDedent)]⟩

theorem dictSet_append_mem {K V : Type} [DecidableEq K] (k : K) (v v' : V) : ∀ d : List (K × V),
    (∀ p ∈ d, p.1 ≠ k) → dictSet k v (d ++ [(k, v')]) = d ++ [(k, v)]
  | [], _ => by simp [dictSet]
  | (a, b) :: d, h => by
    rw [List.forall_mem_cons] at h
    rw [List.cons_append, dictSet, if_neg h.1, dictSet_append_mem k v v' d h.2]
    rfl

theorem codec_marked {typ : Text → TokenType} {ws : List Text} (he : [] ∉ ws) :
    ∃ c1, (codecOf typ ws).addToken [] .pythonIndent true = .ok (c1, ws.length + 1)
      ∧ c1.addToken [] .pythonDedent true = .ok (codecMarked typ ws, ws.length + 2) := by
  have h1 : ∀ p ∈ ws.zipIdx 1, p.1 ≠ [] := by
    intro p hp h0
    exact he (h0 ▸ (zipIdx_snd hp).2.2)
  have h2 : ∀ k, ws.length + 1 ≤ k → ∀ p ∈ (ws.zipIdx 1).map Prod.swap, p.1 ≠ k := by
    intro k hk p hp
    obtain ⟨q, hq, rfl⟩ := List.mem_map.mp hp
    have := (zipIdx_snd hq).1
    simp only [Prod.fst_swap]
    omega
  have h3 : ∀ k, ws.length + 1 ≤ k → ∀ p ∈ (ws.zipIdx 1).map (fun p => (p.2, typ p.1)), p.1 ≠ k := by
    intro k hk p hp
    obtain ⟨q, hq, rfl⟩ := List.mem_map.mp hp
    have := (zipIdx_snd hq).1
    dsimp only
    omega
  refine ⟨⟨ws.zipIdx 1 ++ [([], ws.length + 1)], (ws.zipIdx 1).map Prod.swap ++ [(ws.length + 1, [])],
    ((ws.zipIdx 1).map fun p => (p.2, typ p.1)) ++ [(ws.length + 1, .pythonIndent)]⟩, ?_, ?_⟩
  · rw [Codec.addToken, if_neg (by simp)]
    simp only [codecOf, List.length_zipIdx]
    rw [dictSet_new _ _ _ h1, dictSet_new _ _ _ (h2 _ (Nat.le_refl _)), dictSet_new _ _ _ (h3 _ (Nat.le_refl _))]
  · rw [Codec.addToken, if_neg (by simp)]
    simp only [List.length_append, List.length_zipIdx, List.length_singleton, Nat.add_assoc, Nat.reduceAdd]
    rw [dictSet_append_mem _ _ _ _ h1, dictSet_new, dictSet_new]
    · unfold codecMarked
      simp
    · intro p hp
      rw [List.mem_append, List.mem_singleton] at hp
      rcases hp with hp | rfl
      · exact h3 _ (by omega) p hp
      · dsimp only
        omega
    · intro p hp
      rw [List.mem_append, List.mem_singleton] at hp
      rcases hp with hp | rfl
      · exact h2 _ (by omega) p hp
      · dsimp only
        omega

theorem encodeAll_known {c : Codec} {idx : Text → Nat} : ∀ (ms : List (TokenType × Text)),
    (∀ m ∈ ms, c.tokenToIndex.lookup m.2 = some (idx m.2) ∧ c.indexToType.lookup (idx m.2) = some m.1) →
    c.encodeAll ms = .ok (c, (ms.map Prod.snd).map idx)
  | [], _ => rfl
  | (ty, t) :: ms, h => by
    rw [List.forall_mem_cons] at h
    obtain ⟨⟨h1, h2⟩, h⟩ := h
    dsimp only at h1 h2
    have : c.encodeOne ty t = .ok (c, idx t) := by
      unfold Codec.encodeOne
      simp [h1, h2]
    rw [Codec.encodeAll, this]
    simp only
    rw [encodeAll_known ms h]
    rfl

theorem encode_known {digit : Char → Bool} (hd : DigitSane digit) (lang : Language) {ws : List Text}
    {code : Text} (h : ∀ t ∈ tokensOf digit lang code, t ∈ ws) :
    (codecMarked (typeOf digit lang) ws).encode (lang.spec digit) code
      = .ok (codecMarked (typeOf digit lang) ws, (tokensOf digit lang code).map (indexIn ws),
        (lex (lang.spec digit) code).map Prod.fst) := by
  have := encodeAll_known (c := codecMarked (typeOf digit lang) ws) (idx := indexIn ws)
    (lex (lang.spec digit) code) ?_
  · rw [Codec.encode, this]
    rfl
  · intro m hm
    have hw := h m.2 (List.mem_map.mpr ⟨m, hm, rfl⟩)
    constructor
    · exact lookup_append_some (lookup_zipIdx ws 1 m.2 hw)
    · rw [lex_types hd lang code m hm]
      exact lookup_append_some (lookup_index _ ws 1 _ _ (List.getElem?_idxOf hw))

theorem lookupAll_marked {V : Type} {d : List (Nat × V)} {f : MarkedToken → Nat} {g : MarkedToken → V} :
    ∀ ts : List MarkedToken, (∀ t ∈ ts, d.lookup (f t) = some (g t)) → lookupAll d (ts.map f) = .ok (ts.map g)
  | [], _ => rfl
  | t :: ts, h => by
    rw [List.forall_mem_cons] at h
    rw [List.map_cons, lookupAll, h.1, lookupAll_marked ts h.2]
    rfl

theorem lookup_append_none {K V : Type} [BEq K] {k : K} {d e : List (K × V)}
    (h : d.lookup k = none) : (d ++ e).lookup k = e.lookup k := by
  rw [List.lookup_append, h]
  rfl

theorem lookup_none_of {V : Type} {k : Nat} {d : List (Nat × V)} (h : ∀ p ∈ d, p.1 ≠ k) : d.lookup k = none := by
  rw [List.lookup_eq_none_iff]
  intro p hp
  rw [bne_iff_ne]
  exact fun e => h p hp e.symm

theorem decode_marked {typ : Text → TokenType} {ws : List Text} {g : MarkedToken → Nat}
    (hgw : ∀ t ∈ ws, g (.text t) = indexIn ws t) (hi : g .indent = ws.length + 1)
    (hd' : g .dedent = ws.length + 2) {out : List MarkedToken} (h : ∀ t, .text t ∈ out → t ∈ ws) :
    (codecMarked typ ws).decodeToken (out.map g) = .ok (out.map MarkedToken.string)
      ∧ (codecMarked typ ws).decodeType (out.map g) = .ok (out.map fun t => match t with
        | .text t => typ t
        | .indent => .pythonIndent
        | .dedent => .pythonDedent) := by
  have hbeq : (ws.length + 1 == ws.length) = false := by
    rw [beq_eq_false_iff_ne]
    omega
  have h2 : ∀ k, ws.length + 1 ≤ k → ∀ p ∈ (ws.zipIdx 1).map Prod.swap, p.1 ≠ k := by
    intro k hk p hp
    obtain ⟨q, hq, rfl⟩ := List.mem_map.mp hp
    have := (zipIdx_snd hq).1
    simp only [Prod.fst_swap]
    omega
  have h3 : ∀ k, ws.length + 1 ≤ k → ∀ p ∈ (ws.zipIdx 1).map (fun p => (p.2, typ p.1)), p.1 ≠ k := by
    intro k hk p hp
    obtain ⟨q, hq, rfl⟩ := List.mem_map.mp hp
    have := (zipIdx_snd hq).1
    dsimp only
    omega
  constructor
  · refine lookupAll_marked _ fun t ht => ?_
    cases t with
    | text t =>
      rw [hgw t (h t ht)]
      exact lookup_append_some (lookup_index id ws 1 _ _ (List.getElem?_idxOf (h t ht)))
    | indent =>
      rw [hi]
      unfold codecMarked
      rw [lookup_append_none (lookup_none_of (h2 _ (Nat.le_refl _)))]
      simp [MarkedToken.string]
    | dedent =>
      rw [hd']
      unfold codecMarked
      rw [lookup_append_none (lookup_none_of (h2 _ (by omega)))]
      simp [List.lookup_cons, MarkedToken.string, hbeq]
  · refine lookupAll_marked _ fun t ht => ?_
    cases t with
    | text t =>
      rw [hgw t (h t ht)]
      exact lookup_append_some (lookup_index typ ws 1 _ _ (List.getElem?_idxOf (h t ht)))
    | indent =>
      rw [hi]
      unfold codecMarked
      rw [lookup_append_none (lookup_none_of (h3 _ (Nat.le_refl _)))]
      simp
    | dedent =>
      rw [hd']
      unfold codecMarked
      rw [lookup_append_none (lookup_none_of (h3 _ (by omega)))]
      simp [List.lookup_cons, hbeq]

/-! ### Raw tokens -/

/-- Raw texts with nothing at the markers. -/
def spreadTexts : List MarkedToken → List Text → List Text
  | [], _ => []
  | .text _ :: ts, r :: rs => r :: spreadTexts ts rs
  | .text _ :: ts, [] => [] :: spreadTexts ts []
  | _ :: ts, rs => [] :: spreadTexts ts rs

/-- The tokens without the markers. -/
def plainTexts (out : List MarkedToken) : List Text :=
  out.filterMap fun t => match t with
    | .text t => some t
    | _ => none

theorem plain_text (t : Text) (ts : List MarkedToken) : plainTexts (.text t :: ts) = t :: plainTexts ts := rfl

theorem spread_eq {g : MarkedToken → Nat} (hg : Function.Injective g) : ∀ (out : List MarkedToken) (raw : List Text),
    raw.length = (plainTexts out).length →
    spreadRaw [g .indent, g .dedent] (out.map g) raw = .ok (spreadTexts out raw)
  | [], _, _ => rfl
  | t :: ts, raw, h => by
    rw [List.map_cons, spreadRaw.eq_def]
    dsimp only
    cases t with
    | text t =>
      have hc : [g .indent, g .dedent].contains (g (.text t)) = false := by
        simp [hg.eq_iff]
      rw [hc, if_neg (by simp)]
      cases raw with
      | nil => simp [plainTexts] at h
      | cons r rs =>
        simp only
        rw [spread_eq hg ts rs (by simpa [plainTexts] using h)]
        rfl
    | indent =>
      rw [if_pos (by simp), spread_eq hg ts raw (by simpa [plainTexts] using h)]
      cases raw <;> rfl
    | dedent =>
      rw [if_pos (by simp), spread_eq hg ts raw (by simpa [plainTexts] using h)]
      cases raw <;> rfl

theorem spread_length : ∀ (out : List MarkedToken) (raw : List Text), (spreadTexts out raw).length = out.length
  | [], _ => rfl
  | .text _ :: ts, r :: rs => by rw [spreadTexts, List.length_cons, spread_length ts rs, List.length_cons]
  | .text _ :: ts, [] => by rw [spreadTexts, List.length_cons, spread_length ts [], List.length_cons]
  | .indent :: ts, rs => by cases rs <;> rw [spreadTexts, List.length_cons, spread_length ts, List.length_cons] <;> simp
  | .dedent :: ts, rs => by cases rs <;> rw [spreadTexts, List.length_cons, spread_length ts, List.length_cons] <;> simp

theorem spread_marker {m : MarkedToken} (hm : ∀ t, m ≠ .text t) (ts : List MarkedToken) (rs : List Text) :
    spreadTexts (m :: ts) rs = [] :: spreadTexts ts rs := by
  cases m with
  | text t => exact absurd rfl (hm t)
  | indent => cases rs <;> rfl
  | dedent => cases rs <;> rfl

/-- What is spread. -/
theorem spread_spec : ∀ (out : List MarkedToken) (raw : List Text),
    List.Forall₂ RawText raw (plainTexts out) →
    (spreadTexts out raw).flatten = raw.flatten
      ∧ List.Forall₂ RawText (spreadTexts out raw) (out.map MarkedToken.string)
  | [], raw, h => by
    cases h
    exact ⟨rfl, .nil⟩
  | .text t :: ts, raw, h => by
    rw [plain_text] at h
    obtain ⟨r, rs, h1, h2, rfl⟩ := List.forall₂_cons_right_iff.mp h
    obtain ⟨h3, h4⟩ := spread_spec ts rs h2
    rw [spreadTexts, List.flatten_cons, h3, List.flatten_cons]
    exact ⟨rfl, .cons h1 h4⟩
  | .indent :: ts, raw, h => by
    obtain ⟨h3, h4⟩ := spread_spec ts raw h
    rw [spread_marker (by simp), List.flatten_cons, h3]
    exact ⟨rfl, .cons (.inl rfl) h4⟩
  | .dedent :: ts, raw, h => by
    obtain ⟨h3, h4⟩ := spread_spec ts raw h
    rw [spread_marker (by simp), List.flatten_cons, h3]
    exact ⟨rfl, .cons (.inl rfl) h4⟩

theorem plain_of_filter {out : List MarkedToken} {all : List Text}
    (h : out.filter (fun t => t ≠ .indent ∧ t ≠ .dedent) = all.map .text) : plainTexts out = all := by
  have h1 : ∀ out : List MarkedToken, plainTexts out
      = plainTexts (out.filter fun t => t ≠ .indent ∧ t ≠ .dedent) := by
    intro out
    induction out with
    | nil => rfl
    | cons t ts ih =>
      cases t with
      | text t =>
        rw [List.filter_cons_of_pos (by simp)]
        simp only [plainTexts, List.filterMap_cons] at ih ⊢
        rw [ih]
      | indent =>
        rw [List.filter_cons_of_neg (by simp)]
        exact ih
      | dedent =>
        rw [List.filter_cons_of_neg (by simp)]
        exact ih
  rw [h1, h]
  clear h h1
  induction all with
  | nil => rfl
  | cons t ts ih =>
    rw [List.map_cons, plain_text, ih]

/-! ### The whole run -/

/-- The code with a newline at its end. -/
def withNewline (code : Text) : Text := if code.getLast? = some '\n' then code else code ++ ['\n']

theorem withNewline_last (code : Text) : (withNewline code).getLast? = some '\n' := by
  unfold withNewline
  split
  · assumption
  · rw [List.getLast?_append_of_ne_nil _ (by simp)]
    rfl

/-- The raw texts of the first pass: nothing for added tokens, nor for an added newline. -/
def rawTexts (digit : Char → Bool) (code : Text) : List Text :=
  List.replicate (addedBefore digit .pythonPreprocessor (withNewline code)).length []
    ++ (if code.getLast? = some '\n' then tokensOf digit .pythonPreprocessor code
      else (tokensOf digit .pythonPreprocessor (withNewline code)).dropLast ++ [[]])
    ++ List.replicate (addedAfter digit .pythonPreprocessor (withNewline code)).length []

theorem forall₂_refl_raw : ∀ l : List Text, List.Forall₂ RawText l l
  | [] => .nil
  | _ :: l => .cons (.inl rfl) (forall₂_refl_raw l)

theorem forall₂_empty_raw : ∀ l : List Text,
    (∀ t ∈ l, t ∈ bracketPairs.map Prod.fst ∨ t ∈ bracketPairs.map Prod.snd ∨ t = ['\n']) →
    List.Forall₂ RawText (List.replicate l.length []) l
  | [], _ => .nil
  | t :: l, h => .cons (.inr ⟨rfl, h t (by simp)⟩) (forall₂_empty_raw l fun t ht => h t (by simp [ht]))

theorem forall₂_append_raw {R : Text → Text → Prop} {a b c d : List Text} (h1 : List.Forall₂ R a b)
    (h2 : List.Forall₂ R c d) : List.Forall₂ R (a ++ c) (b ++ d) := by
  induction h1 with
  | nil => exact h2
  | cons h _ ih => exact .cons h ih

section
variable {digit : Char → Bool} (hd : DigitSane digit)
include hd

theorem rawTexts_spec (code : Text) :
    (rawTexts digit code).flatten = code
      ∧ List.Forall₂ RawText (rawTexts digit code)
        (allTokens digit .pythonPreprocessor (withNewline code)) := by
  have hf : ∀ code, (tokensOf digit .pythonPreprocessor code).flatten = code := fun code =>
    (lexLoop_flatten (spec_total digit .pythonPreprocessor) _ none code (Nat.le_refl _)).1
  have hrep : ∀ n, (List.replicate n ([] : Text)).flatten = [] := by
    intro n
    simp
  have hl := tokens_last hd (withNewline_last code)
  constructor
  · unfold rawTexts
    rw [List.flatten_append, List.flatten_append, hrep, hrep, List.nil_append, List.append_nil]
    split
    · exact hf code
    · rename_i hc
      have h1 := hf (withNewline code)
      obtain ⟨l, hl'⟩ : ∃ l, tokensOf digit .pythonPreprocessor (withNewline code) = l ++ [['\n']] := by
        have hne : tokensOf digit .pythonPreprocessor (withNewline code) ≠ [] := by
          intro h0
          rw [h0] at hl
          cases hl
        rw [List.getLast?_eq_some_getLast hne] at hl
        have h2 := List.dropLast_append_getLast hne
        rw [Option.some.inj hl] at h2
        exact ⟨_, h2.symm⟩
      rw [hl'] at h1 ⊢
      rw [List.dropLast_concat, List.flatten_append]
      rw [List.flatten_append, withNewline, if_neg hc] at h1
      simp only [List.flatten_cons, List.flatten_nil, List.append_nil] at h1 ⊢
      exact List.append_cancel_right h1
  · unfold rawTexts allTokens
    have hob := C15_only_brackets bracketPairs (tokensOf digit .pythonPreprocessor (withNewline code))
    refine forall₂_append_raw (forall₂_append_raw (forall₂_empty_raw _ fun t ht => .inl (hob.1 t ht)) ?_)
      (forall₂_empty_raw _ fun t ht => .inr ?_)
    swap
    · unfold addedAfter at ht
      dsimp only at ht
      split at ht
      · rw [List.mem_append, List.mem_singleton] at ht
        exact ht.imp (hob.2 t) id
      · exact .inl (hob.2 t ht)
    split
    · rename_i hc
      rw [withNewline, if_pos hc]
      exact forall₂_refl_raw _
    · have hne : tokensOf digit .pythonPreprocessor (withNewline code) ≠ [] := by
        intro h0
        rw [h0] at hl
        cases hl
      have hlast := hl
      rw [List.getLast?_eq_some_getLast hne, Option.some.injEq] at hlast
      conv => arg 3; rw [← List.dropLast_append_getLast hne]
      exact forall₂_append_raw (forall₂_refl_raw _) (.cons (.inr ⟨rfl, .inr (.inr hlast)⟩) .nil)

theorem dropNewline_eq (code : Text) :
    dropNewline (code.getLast? != some '\n')
      (List.replicate (addedBefore digit .pythonPreprocessor (withNewline code)).length []
        ++ tokensOf digit .pythonPreprocessor (withNewline code)
        ++ List.replicate (addedAfter digit .pythonPreprocessor (withNewline code)).length [])
      (addedAfter digit .pythonPreprocessor (withNewline code)).length = .ok (rawTexts digit code) := by
  unfold dropNewline rawTexts
  by_cases hc : code.getLast? = some '\n'
  · rw [if_neg (by simpa using hc), if_pos hc, withNewline, if_pos hc]
  · rw [if_pos (by simpa using hc), if_neg hc]
    have hl := tokens_last hd (withNewline_last code)
    have hne : tokensOf digit .pythonPreprocessor (withNewline code) ≠ [] := by
      intro h0
      rw [h0] at hl
      cases hl
    have hlast : (tokensOf digit .pythonPreprocessor (withNewline code)).getLast hne = ['\n'] := by
      rw [List.getLast?_eq_some_getLast hne] at hl
      exact Option.some.inj hl
    have hsplit := List.dropLast_append_getLast hne
    rw [hlast] at hsplit
    generalize tokensOf digit .pythonPreprocessor (withNewline code) = toks at hsplit
    rw [← hsplit]
    generalize (addedBefore digit .pythonPreprocessor (withNewline code)).length = m
    generalize (addedAfter digit .pythonPreprocessor (withNewline code)).length = n
    have hlen : (List.replicate m ([] : Text) ++ (toks.dropLast ++ [['\n']]) ++ List.replicate n []).length
        = m + toks.dropLast.length + 1 + n := by simp; omega
    rw [hlen, if_neg (by omega), show m + toks.dropLast.length + 1 + n - (n + 1) = m + toks.dropLast.length by omega]
    have hshape : List.replicate m ([] : Text) ++ (toks.dropLast ++ [['\n']]) ++ List.replicate n []
        = (List.replicate m [] ++ toks.dropLast) ++ ['\n'] :: List.replicate n [] := by simp
    have hk : (List.replicate m ([] : Text) ++ toks.dropLast).length = m + toks.dropLast.length := by simp
    rw [hshape, ← hk, if_pos (by simp)]
    rw [List.set_append_right _ _ (Nat.le_refl _), Nat.sub_self, List.set_cons_zero, List.dropLast_concat]
    simp

end

end RUSure.Lemmas
