import Verif.Model.Codec
import Verif.Lemmas.Lexer
import Mathlib.Data.List.Nodup

/-!
# The codec
-/

namespace RUSure.Lemmas
open RUSure RUSure.Spec

/-- The codec that knows the texts `ws`, in this order. -/
def codecOf (typ : Text → TokenType) (ws : List Text) : Codec :=
  ⟨ws.zipIdx 1, (ws.zipIdx 1).map Prod.swap, (ws.zipIdx 1).map fun p => (p.2, typ p.1)⟩

/-- The known texts after some tokens are encoded. -/
def learn (ws : List Text) : List Text → List Text
  | [] => ws
  | t :: ts => learn (if t ∈ ws then ws else ws ++ [t]) ts

/-- The index of a text. -/
def indexIn (ws : List Text) (t : Text) : Nat := ws.idxOf t + 1

theorem learn_prefix : ∀ (ts ws : List Text), ws <+: learn ws ts
  | [], ws => List.prefix_rfl
  | t :: ts, ws => by
    rw [learn]
    refine List.IsPrefix.trans ?_ (learn_prefix ts _)
    split
    · exact List.prefix_rfl
    · exact List.prefix_append _ _

theorem learn_nodup : ∀ (ts ws : List Text), ws.Nodup → (learn ws ts).Nodup
  | [], ws, h => h
  | t :: ts, ws, h => by
    rw [learn]
    refine learn_nodup ts _ ?_
    split
    · exact h
    · rename_i hn
      rw [List.nodup_append]
      exact ⟨h, by simp, by rintro a ha b hb rfl; rw [List.mem_singleton] at hb; exact hn (hb ▸ ha)⟩

theorem learn_mem : ∀ (ts ws : List Text) (t : Text), t ∈ learn ws ts ↔ t ∈ ws ∨ t ∈ ts
  | [], ws, t => by simp [learn]
  | x :: ts, ws, t => by
    rw [learn, learn_mem ts]
    split
    · rename_i hx
      rw [List.mem_cons]
      constructor
      · rintro (h | h)
        · exact .inl h
        · exact .inr (.inr h)
      · rintro (h | rfl | h)
        · exact .inl h
        · exact .inl hx
        · exact .inr h
    · simp only [List.mem_append, List.mem_cons, List.not_mem_nil, or_false, or_assoc]

theorem learn_known : ∀ (ts ws : List Text), (∀ t ∈ ts, t ∈ ws) → learn ws ts = ws
  | [], _, _ => rfl
  | t :: ts, ws, h => by
    rw [List.forall_mem_cons] at h
    rw [learn, if_pos h.1, learn_known ts ws h.2]

theorem learn_append : ∀ (as ws bs : List Text), learn ws (as ++ bs) = learn (learn ws as) bs
  | [], _, _ => rfl
  | a :: as, ws, bs => by rw [List.cons_append, learn, learn, learn_append as]

theorem indexIn_prefix {ws ws' : List Text} (h : ws <+: ws') {t : Text} (ht : t ∈ ws) :
    indexIn ws' t = indexIn ws t := by
  obtain ⟨x, rfl⟩ := h
  rw [indexIn, indexIn, List.idxOf_append_of_mem ht]

theorem lookup_zipIdx : ∀ (ws : List Text) (k : Nat) (t : Text), t ∈ ws →
    (ws.zipIdx k).lookup t = some (ws.idxOf t + k)
  | [], _, _, h => by cases h
  | w :: ws, k, t, h => by
    rw [List.zipIdx_cons, List.lookup_cons]
    by_cases he : t = w
    · subst he
      simp
    · rw [show (t == w) = false from beq_eq_false_iff_ne.mpr he]
      rw [List.mem_cons] at h
      have h := h.resolve_left he
      dsimp only
      rw [lookup_zipIdx ws (k + 1) t h, List.idxOf_cons_ne _ (fun e => he e.symm)]
      congr 1
      omega

theorem lookup_zipIdx_none (ws : List Text) (k : Nat) (t : Text) (h : t ∉ ws) :
    (ws.zipIdx k).lookup t = none := by
  rw [List.lookup_eq_none_iff]
  rintro ⟨a, b⟩ hp
  have : a ∈ ws := by
    obtain ⟨i, hi, he⟩ := List.mem_iff_getElem.mp hp
    rw [List.getElem_zipIdx] at he
    cases he
    exact List.getElem_mem _
  rw [bne_iff_ne]
  rintro rfl
  exact h this

theorem lookup_index {V : Type} (f : Text → V) : ∀ (ws : List Text) (k i : Nat) (w : Text),
    ws[i]? = some w → ((ws.zipIdx k).map fun p => (p.2, f p.1)).lookup (i + k) = some (f w)
  | [], _, _, _, h => by simp at h
  | x :: ws, k, 0, w, h => by
    simp only [List.getElem?_cons_zero, Option.some.injEq] at h
    subst h
    simp
  | x :: ws, k, i + 1, w, h => by
    rw [List.getElem?_cons_succ] at h
    rw [List.zipIdx_cons, List.map_cons, List.lookup_cons]
    have : (i + 1 + k == k) = false := beq_eq_false_iff_ne.mpr (by omega)
    simp only [this]
    rw [show i + 1 + k = i + (k + 1) by omega]
    exact lookup_index f ws (k + 1) i w h

theorem dictSet_new {K V : Type} [DecidableEq K] (k : K) (v : V) : ∀ d : List (K × V),
    (∀ p ∈ d, p.1 ≠ k) → dictSet k v d = d ++ [(k, v)]
  | [], _ => rfl
  | (k', v') :: d, h => by
    rw [List.forall_mem_cons] at h
    rw [dictSet, if_neg h.1, dictSet_new k v d h.2]
    rfl

theorem zipIdx_snd {ws : List Text} {k : Nat} {p : Text × Nat} (h : p ∈ ws.zipIdx k) :
    p.2 < k + ws.length ∧ k ≤ p.2 ∧ p.1 ∈ ws := by
  obtain ⟨i, hi, rfl⟩ := List.mem_iff_getElem.mp h
  rw [List.getElem_zipIdx]
  rw [List.length_zipIdx] at hi
  exact ⟨by simp; omega, by simp, List.getElem_mem _⟩

theorem codecOf_add {typ : Text → TokenType} {ws : List Text} {t : Text} (h : t ∉ ws) :
    (codecOf typ ws).addToken t (typ t) false = .ok (codecOf typ (ws ++ [t]), ws.length + 1) := by
  have hl : ((codecOf typ ws).tokenToIndex.lookup t).isSome = false := by
    rw [codecOf, lookup_zipIdx_none ws 1 t h]
    rfl
  rw [Codec.addToken, if_neg (by simp [hl])]
  have hz : (ws ++ [t]).zipIdx 1 = ws.zipIdx 1 ++ [(t, ws.length + 1)] := by
    rw [List.zipIdx_append, Nat.add_comm]
    rfl
  congr 2
  · unfold codecOf
    simp only [List.length_zipIdx, hz, List.map_append, List.map_cons, List.map_nil, Prod.swap]
    rw [dictSet_new, dictSet_new, dictSet_new]
    · rintro p hp
      obtain ⟨q, hq, rfl⟩ := List.mem_map.mp hp
      have := (zipIdx_snd hq).1
      dsimp only
      omega
    · rintro p hp
      obtain ⟨q, hq, rfl⟩ := List.mem_map.mp hp
      have := (zipIdx_snd hq).1
      dsimp only [Prod.swap]
      omega
    · rintro p hp rfl
      exact h (zipIdx_snd hp).2.2

theorem encodeOne_eq {typ : Text → TokenType} {ws : List Text} {t : Text} :
    (codecOf typ ws).encodeOne (typ t) t
      = .ok (codecOf typ (if t ∈ ws then ws else ws ++ [t]), indexIn (if t ∈ ws then ws else ws ++ [t]) t) := by
  have hadd : (if ((codecOf typ ws).tokenToIndex.lookup t).isSome then .ok (codecOf typ ws)
      else ((codecOf typ ws).addToken t (typ t) false).map Prod.fst)
      = Except.ok (ε := ParseFail) (codecOf typ (if t ∈ ws then ws else ws ++ [t])) := by
    by_cases h : t ∈ ws
    · have hl : ((codecOf typ ws).tokenToIndex.lookup t).isSome = true := by
        rw [codecOf, lookup_zipIdx ws 1 t h]; rfl
      rw [if_pos hl, if_pos h]
    · have hl : ((codecOf typ ws).tokenToIndex.lookup t).isSome = false := by
        rw [codecOf, lookup_zipIdx_none ws 1 t h]; rfl
      rw [if_neg (by simp [hl]), if_neg h, codecOf_add h]
      rfl
  have hm : t ∈ (if t ∈ ws then ws else ws ++ [t]) := by
    split
    · assumption
    · simp
  unfold Codec.encodeOne
  simp only [hadd]
  generalize (if t ∈ ws then ws else ws ++ [t]) = ws' at hm ⊢
  have h1 : (codecOf typ ws').tokenToIndex.lookup t = some (indexIn ws' t) := lookup_zipIdx ws' 1 t hm
  have h2 : (codecOf typ ws').indexToType.lookup (indexIn ws' t) = some (typ t) :=
    lookup_index typ ws' 1 (ws'.idxOf t) t (List.getElem?_idxOf hm)
  simp [h1, h2]

theorem encodeAll_eq {typ : Text → TokenType} : ∀ (ms : List (TokenType × Text)) (ws : List Text),
    (∀ m ∈ ms, m.1 = typ m.2) →
    (codecOf typ ws).encodeAll ms = .ok (codecOf typ (learn ws (ms.map Prod.snd)),
      (ms.map Prod.snd).map (indexIn (learn ws (ms.map Prod.snd))))
  | [], ws, _ => rfl
  | (ty, t) :: ms, ws, h => by
    rw [List.forall_mem_cons] at h
    obtain ⟨h1, h2⟩ := h
    dsimp only at h1
    subst h1
    rw [Codec.encodeAll, encodeOne_eq]
    dsimp only
    rw [encodeAll_eq ms _ h2]
    simp only [List.map_cons, learn]
    congr 3
    refine (indexIn_prefix (learn_prefix _ _) ?_).symm
    split
    · assumption
    · simp

theorem lookupAll_map {V : Type} {d : List (Nat × V)} {f : Text → Nat} {g : Text → V} :
    ∀ ts : List Text, (∀ t ∈ ts, d.lookup (f t) = some (g t)) → lookupAll d (ts.map f) = .ok (ts.map g)
  | [], _ => rfl
  | t :: ts, h => by
    rw [List.forall_mem_cons] at h
    rw [List.map_cons, lookupAll, h.1, lookupAll_map ts h.2]
    rfl

theorem decodeToken_eq {typ : Text → TokenType} {ws ts : List Text} (h : ∀ t ∈ ts, t ∈ ws) :
    (codecOf typ ws).decodeToken (ts.map (indexIn ws)) = .ok ts := by
  have := lookupAll_map (d := (codecOf typ ws).indexToToken) (f := indexIn ws) (g := id) ts (fun t ht =>
    lookup_index id ws 1 (ws.idxOf t) t (List.getElem?_idxOf (h t ht)))
  rwa [List.map_id] at this

theorem decodeType_eq {typ : Text → TokenType} {ws ts : List Text} (h : ∀ t ∈ ts, t ∈ ws) :
    (codecOf typ ws).decodeType (ts.map (indexIn ws)) = .ok (ts.map typ) :=
  lookupAll_map (d := (codecOf typ ws).indexToType) (f := indexIn ws) (g := typ) ts (fun t ht =>
    lookup_index typ ws 1 (ws.idxOf t) t (List.getElem?_idxOf (h t ht)))

theorem lex_types {digit : Char → Bool} (hd : DigitSane digit) (lang : Language) (code : Text) :
    ∀ x ∈ lex (lang.spec digit) code, x.1 = typeOf digit lang x.2 :=
  lexLoop_types hd lang _ _ _ (Nat.le_refl _)

theorem encode_eq {digit : Char → Bool} (hd : DigitSane digit) (lang : Language) (ws : List Text)
    (code : Text) :
    (codecOf (typeOf digit lang) ws).encode (lang.spec digit) code
      = .ok (codecOf (typeOf digit lang) (learn ws ((lex (lang.spec digit) code).map Prod.snd)),
        ((lex (lang.spec digit) code).map Prod.snd).map
          (indexIn (learn ws ((lex (lang.spec digit) code).map Prod.snd))),
        ((lex (lang.spec digit) code).map Prod.snd).map (typeOf digit lang)) := by
  rw [Codec.encode, encodeAll_eq _ _ (lex_types hd lang code)]
  dsimp only
  congr 3
  rw [List.map_map]
  exact List.map_congr_left (lex_types hd lang code)

theorem encodeTexts_eq {digit : Char → Bool} (hd : DigitSane digit) (lang : Language) :
    ∀ (codes : List Text) (ws : List Text),
      encodeTexts (lang.spec digit) (codecOf (typeOf digit lang) ws) codes
        = .ok (codecOf (typeOf digit lang)
            (learn ws (codes.flatMap fun code => (lex (lang.spec digit) code).map Prod.snd)),
          codes.map fun code =>
            (((lex (lang.spec digit) code).map Prod.snd).map (indexIn
              (learn ws (codes.flatMap fun code => (lex (lang.spec digit) code).map Prod.snd))),
            ((lex (lang.spec digit) code).map Prod.snd).map (typeOf digit lang)))
  | [], ws => rfl
  | code :: codes, ws => by
    rw [encodeTexts, encode_eq hd]
    dsimp only
    rw [encodeTexts_eq hd lang codes]
    simp only [List.map_cons, List.flatMap_cons, learn_append]
    congr 4
    refine List.map_congr_left fun t ht => (indexIn_prefix (learn_prefix _ _) ?_).symm
    rw [learn_mem]
    exact .inr ht

theorem codecOf_nil (typ : Text → TokenType) : codecOf typ [] = Codec.empty := rfl

/-- The codecs that are reached. -/
theorem reached_eq {digit : Char → Bool} (hd : DigitSane digit) {lang : Language} {c : Codec}
    (h : Codec.Reached (lang.spec digit) c) :
    ∃ ws, c = codecOf (typeOf digit lang) ws ∧ ws.Nodup ∧ [] ∉ ws := by
  obtain ⟨codes, outs, h⟩ := h
  rw [← codecOf_nil (typeOf digit lang), encodeTexts_eq hd] at h
  refine ⟨_, (Prod.ext_iff.mp (Except.ok.inj h)).1.symm, learn_nodup _ _ List.nodup_nil, ?_⟩
  rw [learn_mem, List.mem_flatMap]
  rintro (h | ⟨code, -, h⟩)
  · cases h
  · obtain ⟨x, hx, he⟩ := List.mem_map.mp h
    exact (lexLoop_flatten (spec_total digit lang) _ none code (Nat.le_refl _)).2 x hx he

theorem addTokens_eq {typ : Text → TokenType} : ∀ (ts : List (Text × TokenType)) (ws : List Text),
    (∀ t ∈ ts, t.2 = typ t.1) → (ws ++ ts.map Prod.fst).Nodup →
    addTokens (codecOf typ ws) ts
      = .ok (codecOf typ (ws ++ ts.map Prod.fst), List.range' (ws.length + 1) ts.length)
  | [], ws, _, _ => by simp [addTokens]
  | (t, ty) :: ts, ws, h, hn => by
    rw [List.forall_mem_cons] at h
    obtain ⟨h1, h2⟩ := h
    dsimp only at h1
    subst h1
    have ht : t ∉ ws := by
      intro hm
      rw [List.nodup_append] at hn
      exact hn.2.2 t hm t (by simp) rfl
    have he : ws ++ ((t, typ t) :: ts).map Prod.fst = (ws ++ [t]) ++ ts.map Prod.fst := by simp
    rw [addTokens, codecOf_add ht]
    dsimp only
    rw [he] at hn ⊢
    rw [addTokens_eq ts (ws ++ [t]) h2 hn]
    simp [List.range'_succ]

theorem lookup_mem_codec {K V : Type} [BEq K] [LawfulBEq K] {k : K} {v : V} : ∀ {d : List (K × V)},
    d.lookup k = some v → (k, v) ∈ d
  | [], h => by simp at h
  | (a, b) :: d, h => by
    rw [List.lookup_cons] at h
    split at h
    · rename_i he
      have := eq_of_beq he
      cases h
      subst this
      exact List.mem_cons_self
    · exact List.mem_cons_of_mem _ (lookup_mem_codec h)

theorem lookup_append_some {K V : Type} [BEq K] {k : K} {v : V} {d e : List (K × V)}
    (h : d.lookup k = some v) : (d ++ e).lookup k = some v := by
  rw [List.lookup_append, h]
  rfl

theorem lookup_of_nodup {V : Type} : ∀ {d : List (Text × V)}, (d.map Prod.fst).Nodup →
    ∀ {p}, p ∈ d → d.lookup p.1 = some p.2
  | [], _, _, h => by cases h
  | (a, b) :: d, hn, p, h => by
    rw [List.map_cons, List.nodup_cons] at hn
    rw [List.mem_cons] at h
    rw [List.lookup_cons]
    rcases h with rfl | h
    · simp
    · have : (p.1 == a) = false := beq_eq_false_iff_ne.mpr (by
        rintro rfl
        exact hn.1 (List.mem_map.mpr ⟨p, h, rfl⟩))
      rw [this]
      exact lookup_of_nodup hn.2 h

theorem lookup_dictSet {K V : Type} [DecidableEq K] [BEq K] [LawfulBEq K] (k : K) (v : V) : ∀ (d : List (K × V)) (k' : K),
    (dictSet k v d).lookup k' = if k' = k then some v else d.lookup k'
  | [], k' => by
    rw [dictSet, List.lookup_cons, List.lookup_nil]
    split
    · rename_i h
      rw [if_pos (eq_of_beq h)]
    · rename_i h
      rw [if_neg (beq_eq_false_iff_ne.mp h)]
  | (a, b) :: d, k' => by
    rw [dictSet]
    by_cases ha : a = k
    · subst ha
      rw [if_pos rfl, List.lookup_cons, List.lookup_cons]
      by_cases hk : k' = a
      · subst hk
        simp
      · rw [show (k' == a) = false from beq_eq_false_iff_ne.mpr hk, if_neg hk]
    · rw [if_neg ha, List.lookup_cons, lookup_dictSet k v d k', List.lookup_cons]
      by_cases hk : k' = a
      · subst hk
        simp [ha]
      · rw [show (k' == a) = false from beq_eq_false_iff_ne.mpr hk]

theorem addTokens_dup : ∀ (ts : List (Text × TokenType)) (c : Codec),
    (¬ (ts.map Prod.fst).Nodup ∨ ∃ t ∈ ts, (c.tokenToIndex.lookup t.1).isSome) →
    addTokens c ts = .error .assertion
  | [], _, h => by simp at h
  | (t, ty) :: ts, c, h => by
    rw [addTokens, Codec.addToken]
    by_cases hl : (c.tokenToIndex.lookup t).isSome
    · rw [if_pos ⟨rfl, hl⟩]
    · rw [if_neg (by simp [hl])]
      dsimp only
      rw [addTokens_dup ts]
      have hset : ∀ x, ((dictSet t (c.tokenToIndex.length + 1) c.tokenToIndex).lookup x).isSome
          ↔ x = t ∨ (c.tokenToIndex.lookup x).isSome := by
        intro x
        rw [lookup_dictSet]
        by_cases hx : x = t <;> simp [hx]
      simp only [hset]
      rcases h with h | ⟨x, hx, hxs⟩
      · rw [List.map_cons, List.nodup_cons, Classical.not_and_iff_not_or_not, Classical.not_not] at h
        rcases h with h | h
        · obtain ⟨y, hy, he⟩ := List.mem_map.mp h
          exact .inr ⟨y, hy, .inl he⟩
        · exact .inl h
      · rw [List.mem_cons] at hx
        rcases hx with rfl | hx
        · exact absurd hxs hl
        · exact .inr ⟨x, hx, .inr hxs⟩

theorem dictSet_nodup {K V : Type} [DecidableEq K] (k : K) (v : V) : ∀ d : List (K × V),
    (d.map Prod.fst).Nodup → ((dictSet k v d).map Prod.fst).Nodup
      ∧ ∀ k', k' ∈ (dictSet k v d).map Prod.fst ↔ k' = k ∨ k' ∈ d.map Prod.fst := by
  intro d
  induction d with
  | nil => intro _; simp [dictSet]
  | cons x d ih =>
    intro h
    obtain ⟨k₁, v₁⟩ := x
    rw [List.map_cons, List.nodup_cons] at h
    rw [dictSet]
    split_ifs with hk
    · subst hk
      exact ⟨by simpa using h, by simp⟩
    · obtain ⟨g1, g2⟩ := ih h.2
      refine ⟨?_, ?_⟩
      · rw [List.map_cons, List.nodup_cons, g2]
        exact ⟨by rintro (h' | h'); exacts [hk h', h.1 h'], g1⟩
      · intro k'
        rw [List.map_cons, List.mem_cons, g2, List.map_cons, List.mem_cons]
        tauto

theorem dictSet_length_mem {K V : Type} [DecidableEq K] [BEq K] [LawfulBEq K] (k : K) (v : V) : ∀ d : List (K × V),
    (d.lookup k).isSome → (dictSet k v d).length = d.length
  | [], h => by simp at h
  | (a, b) :: d, h => by
    rw [dictSet]
    by_cases ha : a = k
    · rw [if_pos ha]
      rfl
    · rw [List.lookup_cons, show (k == a) = false from beq_eq_false_iff_ne.mpr fun e => ha e.symm] at h
      rw [if_neg ha, List.length_cons, dictSet_length_mem k v d h]
      rfl

theorem dictSet_length_new {K V : Type} [DecidableEq K] [BEq K] [LawfulBEq K] (k : K) (v : V) : ∀ d : List (K × V),
    d.lookup k = none → (dictSet k v d).length = d.length + 1
  | [], h => rfl
  | (a, b) :: d, h => by
    rw [dictSet]
    by_cases ha : a = k
    · subst ha
      simp at h
    · rw [List.lookup_cons, show (k == a) = false from beq_eq_false_iff_ne.mpr fun e => ha e.symm] at h
      rw [if_neg ha, List.length_cons, dictSet_length_new k v d h]
      rfl

theorem markers_collide {typ : Text → TokenType} {ws : List Text} (he : [] ∉ ws) :
    let c := codecOf typ ws
    ∃ c1 c2, c.addToken [] .pythonIndent true = .ok (c1, c.tokenToIndex.length + 1)
      ∧ c1.addToken [] .pythonDedent true = .ok (c2, c.tokenToIndex.length + 2)
      ∧ c2.decodeType [c.tokenToIndex.length + 1, c.tokenToIndex.length + 2]
        = .ok [.pythonIndent, .pythonDedent]
      ∧ c2.decodeToken [c.tokenToIndex.length + 1, c.tokenToIndex.length + 2] = .ok [[], []]
      ∧ ∀ t ty, t ≠ [] → c.tokenToIndex.lookup t = none →
        ∃ c3, c2.addToken t ty false = .ok (c3, c.tokenToIndex.length + 2)
          ∧ c3.decodeToken [c.tokenToIndex.length + 2] = .ok [t] := by
  intro c
  have h0 : c.tokenToIndex.lookup [] = none := lookup_zipIdx_none ws 1 [] he
  have hl1 := dictSet_length_new ([] : Text) (c.tokenToIndex.length + 1) c.tokenToIndex h0
  have hl2 := dictSet_length_mem ([] : Text) (c.tokenToIndex.length + 2)
    (dictSet [] (c.tokenToIndex.length + 1) c.tokenToIndex) (by rw [lookup_dictSet]; simp)
  generalize c = c at h0 hl1 hl2
  refine ⟨_,
    ⟨dictSet [] (c.tokenToIndex.length + 2) (dictSet [] (c.tokenToIndex.length + 1) c.tokenToIndex),
      dictSet (c.tokenToIndex.length + 2) [] (dictSet (c.tokenToIndex.length + 1) [] c.indexToToken),
      dictSet (c.tokenToIndex.length + 2) .pythonDedent
        (dictSet (c.tokenToIndex.length + 1) .pythonIndent c.indexToType)⟩,
    rfl, ?_, ?_, ?_, ?_⟩
  · simp [Codec.addToken, hl1]
  · simp [Codec.decodeType, lookupAll, lookup_dictSet]
  · simp [Codec.decodeToken, lookupAll, lookup_dictSet]
  · intro t ty ht hn
    refine ⟨⟨dictSet t (c.tokenToIndex.length + 2)
        (dictSet [] (c.tokenToIndex.length + 2) (dictSet [] (c.tokenToIndex.length + 1) c.tokenToIndex)),
        dictSet (c.tokenToIndex.length + 2) t
          (dictSet (c.tokenToIndex.length + 2) [] (dictSet (c.tokenToIndex.length + 1) [] c.indexToToken)),
        dictSet (c.tokenToIndex.length + 2) ty (dictSet (c.tokenToIndex.length + 2) .pythonDedent
          (dictSet (c.tokenToIndex.length + 1) .pythonIndent c.indexToType))⟩, ?_, ?_⟩
    · rw [Codec.addToken, if_neg]
      · simp [hl2, hl1]
      · simp [lookup_dictSet, ht, hn]
    · simp [Codec.decodeToken, lookupAll, lookup_dictSet]

end RUSure.Lemmas
