import Verif.Props.ParserTools
import Verif.Lemmas.CallGrammar

/-!
# The decorations of parsed programs
-/

namespace RUSure.Lemmas
open RUSure RUSure.Spec RUSure.Props

section
variable {cc : CharClass} {tokens : List Text} {types : List TokenType}

/-- Every decoration is white space, or only empty text follows, also in the tokens from `e` on. -/
def WhiteUpTo (cc : CharClass) (tokens : List Text) (e : Option Nat) (ls : List (Node MatchName)) : Prop :=
  ∀ l t r, ls = l ++ .deco t :: r → IsWhite cc t
    ∨ (r.flatMap leafText = [] ∧ ∀ h, e = some h → (tokens.drop h).flatten = [])

theorem whiteUpTo_none {e : Option Nat} {ls : List (Node MatchName)} (h : ∀ t, .deco t ∉ ls) :
    WhiteUpTo cc tokens e ls := fun l t r hl => absurd (by rw [hl]; simp) (h t)

theorem slice_empty_after {a : Nat} (h : (tokens.drop a).flatten = []) (hi : Option Nat) :
    (pySlice tokens a hi).flatten = [] := by
  rw [List.flatten_eq_nil_iff] at h ⊢
  intro x hx
  cases hi with
  | none => exact h x hx
  | some b =>
    simp only [pySlice] at hx
    rw [List.drop_take] at hx
    exact h x (List.mem_of_mem_take hx)

theorem text_leaves_render (ms : List (Node MatchName)) : (leaves ms).flatMap leafText = renderTextL ms :=
  (C06_render_is_text ms).symm

/-- The siblings without a text have no text after them. -/
def TailSiblings (tokens : List Text) (x : PNode) : Prop :=
  x.ann = .sibling → x.text tokens = [] → ∀ h, x.hi = some h → (tokens.drop h).flatten = []

/-- The nodes that become decorations. -/
theorem decoration_type {n : PNode} {t : NodeType} (h : n.nodeType cc tokens types = .ok t)
    (ht : [NodeType.whiteSpaceLeaf, .nonContentLeaf].contains t = true) :
    n.ann = .sibling ∧ (n.text tokens = [] ∨ IsWhite cc (n.text tokens)) := by
  unfold PNode.nodeType at h
  split at h
  case h_2 ha =>
    refine ⟨ha, ?_⟩
    split at h
    · cases h
    · split at h
      · left
        assumption
      · rename_i h0
        split at h
        · rename_i h1
          right
          rw [isWhite_iff]
          exact ⟨h0, h1⟩
        · exfalso
          split at h <;> cases h <;> revert ht <;> decide
  all_goals
    exfalso
    cases h
    revert ht
    decide

mutual
theorem toSequence_white : ∀ (n : PNode) (m : Node MatchName),
    toSequenceNode cc tokens types [.whiteSpaceLeaf, .nonContentLeaf] [.stringLiteral] n = .ok m →
    (∀ x, InTree x n → ∀ h, x.hi = some h → x.lo ≤ h) → (∀ x, InTree x n → TailSiblings tokens x) →
    WhiteUpTo cc tokens n.hi (leavesN m)
  | .mk lo hi ann cs, m, h, hr, hs => by
    have ih := toSequences_white cs
    unfold toSequenceNode at h
    obtain ⟨t, ht, h⟩ := except_bind_ok h
    split at h
    · rename_i hdeco
      cases h
      intro l u r hl
      rw [leavesN] at hl
      obtain ⟨rfl, hl⟩ : l = [] ∧ _ := by
        cases l with
        | nil => exact ⟨rfl, hl⟩
        | cons y l => simp at hl
      simp only [List.nil_append, List.cons.injEq, Node.deco.injEq] at hl
      obtain ⟨hu, rfl⟩ := hl
      have hself := hs _ .self
      obtain ⟨h1, h2 | h2⟩ := decoration_type ht hdeco
      · exact .inr ⟨rfl, hself h1 h2⟩
      · left
        rwa [← hu]
    · split at h
      · cases h
        apply whiteUpTo_none
        intro u
        rw [leavesN, subtokenizeToken]
        generalize subtokenize cc _ = l
        induction l with
        | nil => simp [leaves]
        | cons x l ih => simpa [leaves, leavesN] using ih
      · cases cs with
        | nil =>
          cases h
          apply whiteUpTo_none
          simp [leavesN]
        | cons c cs =>
          dsimp only at h
          split at h
          · cases h
          · rename_i hb
            rw [not_not] at hb
            obtain ⟨ns, h1, h⟩ := except_bind_ok h
            cases h
            rw [leavesN]
            exact ih lo hi ns h1 hb (fun x hx => hr x (.child hx)) fun x hx => hs x (.child hx)

theorem toSequences_white : ∀ (cs : List PNode) (a : Nat) (hi : Option Nat) (ms : List (Node MatchName)),
    toSequenceNodes cc tokens types [.whiteSpaceLeaf, .nonContentLeaf] [.stringLiteral] cs = .ok ms →
    some a :: cs.map PNode.hi = cs.map (fun c => some c.lo) ++ [hi] →
    (∀ x, InTrees x cs → ∀ h, x.hi = some h → x.lo ≤ h) → (∀ x, InTrees x cs → TailSiblings tokens x) →
    WhiteUpTo cc tokens hi (leaves ms)
  | [], a, hi, ms, h, _, _, _ => by
    rw [toSequenceNodes] at h
    cases h
    apply whiteUpTo_none
    simp [leaves]
  | [c], a, hi, ms, h, hb, hr, hs => by
    rw [toSequenceNodes] at h
    obtain ⟨m, h1, h⟩ := except_bind_ok h
    obtain ⟨ms', h2, h⟩ := except_bind_ok h
    rw [toSequenceNodes] at h2
    cases h2
    cases h
    simp only [List.map_cons, List.map_nil, List.cons_append, List.nil_append, List.cons.injEq, and_true] at hb
    have := toSequence_white c m h1 (fun x hx => hr x (.here hx)) fun x hx => hs x (.here hx)
    rw [hb.2] at this
    simpa [leaves] using this
  | c :: d :: cs, a, hi, ms, h, hb, hr, hs => by
    rw [toSequenceNodes] at h
    obtain ⟨m, h1, h⟩ := except_bind_ok h
    obtain ⟨ms', h2, h⟩ := except_bind_ok h
    cases h
    simp only [List.map_cons, List.cons_append, List.cons.injEq, Option.some.injEq] at hb
    obtain ⟨rfl, hc, hb⟩ := hb
    have hb' : some d.lo :: (d :: cs).map PNode.hi = (d :: cs).map (fun c => some c.lo) ++ [hi] := by
      simpa using hb
    have w1 := toSequence_white c m h1 (fun x hx => hr x (.here hx)) fun x hx => hs x (.here hx)
    have w2 := toSequences_white (d :: cs) d.lo hi ms' h2 hb' (fun x hx => hr x (.there hx))
      fun x hx => hs x (.there hx)
    have ht := toSequences_text (d :: cs) ms' h2 fun x hx => hr x (.there hx)
    have htt := tiles_text (tokens := tokens) (d :: cs) d.lo hi hb'
      fun x hx => hr x (.there (inTrees_iff.mpr ⟨x, hx, .self⟩))
    intro l t r hl
    rw [leaves] at hl
    rcases List.append_eq_append_iff.mp hl with ⟨y, e1, e2⟩ | ⟨y, e1, e2⟩
    · exact w2 y t r e2
    · cases y with
      | nil => exact w2 [] t r e2.symm
      | cons z y =>
        rw [List.cons_append, List.cons.injEq] at e2
        obtain ⟨rfl, rfl⟩ := e2
        rcases w1 l t y e1 with h | ⟨h3, h4⟩
        · exact .inl h
        · right
          have h4 := h4 d.lo hc
          refine ⟨?_, fun k hk => ?_⟩
          · rw [List.flatMap_append, h3, List.nil_append, text_leaves_render, ht, htt.1]
            exact slice_empty_after h4 hi
          · have hle := htt.2 k hk
            rw [List.flatten_eq_nil_iff] at h4 ⊢
            intro x hx
            refine h4 x ?_
            rw [show k = d.lo + (k - d.lo) by omega, ← List.drop_drop] at hx
            exact List.mem_of_mem_drop hx
end

end

/-! ### Siblings -/

mutual
theorem unsplit_sibling (x : PNode) (hx : x.ann = .sibling ∧ x.children = []) : ∀ n : PNode, InTree x n →
    InTrees x (unsplitNode n)
  | .mk lo hi ann cs, h => by
    have ih := unsplits_sibling x hx cs
    by_cases ha : ann = .split
    · subst ha
      rw [unsplitNode]
      cases h with
      | self => simp [PNode.ann] at hx
      | child h => exact ih h
    · rw [unsplitNode.eq_2 _ _ _ _ ha]
      cases h with
      | self =>
        have : cs = [] := hx.2
        subst this
        rw [unsplitNodes]
        exact .here .self
      | child h => exact .here (.child (ih h))

theorem unsplits_sibling (x : PNode) (hx : x.ann = .sibling ∧ x.children = []) : ∀ cs : List PNode, InTrees x cs →
    InTrees x (unsplitNodes cs)
  | [], h => by cases h
  | c :: cs, h => by
    rw [unsplitNodes, inTrees_iff]
    cases h with
    | here h =>
      obtain ⟨y, h1, h2⟩ := inTrees_iff.mp (unsplit_sibling x hx c h)
      exact ⟨y, by simp [h1], h2⟩
    | there h =>
      obtain ⟨y, h1, h2⟩ := inTrees_iff.mp (unsplits_sibling x hx cs h)
      exact ⟨y, by simp [h1], h2⟩
end

/-- The siblings in the trees of brackets are no openers, unless a stray one is a closer too. -/
theorem forest_sibling {T : Type} {pairs : List (T × T)} {ctx : Option T} {i : Nat} {ts : List T} {ns : List PNode}
    (h : Forest pairs ctx i ts ns) {x : PNode} (hx : InTrees x ns) (ha : x.ann = .sibling) :
    ∃ k t, x = .mk (i + k) (some (i + k + 1)) .sibling [] ∧ ts[k]? = some t
      ∧ (PlainTok pairs t ∨ t ∈ pairs.map Prod.snd) := by
  induction h with
  | nil => cases hx
  | @plain ctx i t ts ns ht _ ih =>
    cases hx with
    | here h =>
      cases h with
      | self => exact ⟨0, t, rfl, rfl, .inl ht⟩
      | child h => cases h
    | there h =>
      obtain ⟨k, u, h1, h2, h3⟩ := ih h
      exact ⟨k + 1, u, by rw [h1, show i + (k + 1) = i + 1 + k by omega], h2, h3⟩
  | @stray o o' c i ts ns hp _ _ ih =>
    cases hx with
    | here h =>
      cases h with
      | self => exact ⟨0, c, rfl, rfl, .inr (List.mem_map.mpr ⟨_, hp, rfl⟩)⟩
      | child h => cases h
    | there h =>
      obtain ⟨k, u, h1, h2, h3⟩ := ih h
      exact ⟨k + 1, u, by rw [h1, show i + (k + 1) = i + 1 + k by omega], h2, h3⟩
  | @bracket ctx o c i j inner ts ns ms hp hj hf1 hf2 ih1 ih2 =>
    cases hx with
    | here h =>
      cases h with
      | self => cases ha
      | child h =>
        have hm : InTrees x ns := by
          cases h with
          | here h =>
            cases h with
            | self => cases ha
            | child h => cases h
          | there h =>
            cases h with
            | here h =>
              cases h with
              | self => cases ha
              | child h => exact h
            | there h =>
              cases h with
              | here h =>
                cases h with
                | self => cases ha
                | child h => cases h
              | there h => cases h
        obtain ⟨k, u, h1, h2, h3⟩ := ih1 hm
        refine ⟨k + 1, u, by rw [h1, show i + (k + 1) = i + 1 + k by omega], ?_, h3⟩
        rw [List.getElem?_cons_succ, List.getElem?_append_left (List.getElem?_eq_some_iff.mp h2).1]
        exact h2
    | there h =>
      obtain ⟨k, u, h1, h2, h3⟩ := ih2 h
      refine ⟨inner.length + 1 + (k + 1), u, by
        rw [h1, hj, show i + (inner.length + 1 + (k + 1)) = i + 1 + inner.length + 1 + k by omega], ?_, h3⟩
      rw [show inner.length + 1 + (k + 1) = (inner.length + (k + 1)) + 1 by omega, List.getElem?_cons_succ,
        List.getElem?_append_right (by omega), Nat.add_sub_cancel_left, List.getElem?_cons_succ]
      exact h2

/-- Indents and dedents: if there are as many, no dedent is stray. -/
theorem forest_markers {ctx : Option Spec.MarkedToken} {i : Nat} {ts : List Spec.MarkedToken} {ns : List PNode}
    (h : Forest markedPairs ctx i ts ns) : ts.count .indent ≤ ts.count .dedent
      ∧ (ts.count .indent = ts.count .dedent → ∀ x k, InTrees x ns → x = .mk (i + k) (some (i + k + 1)) .sibling [] →
        ts[k]? ≠ some .dedent) := by
  have below : ∀ {x : PNode} {k : Nat} {ctx : Option Spec.MarkedToken} {i : Nat} {ts : List Spec.MarkedToken} {ns : List PNode},
      Forest markedPairs ctx i ts ns → InTrees x ns → x = .mk k (some (k + 1)) .sibling [] →
      i ≤ k ∧ k < i + ts.length := by
    intro x k ctx i ts ns h hx hk
    obtain ⟨j, t, h1, h2, -⟩ := forest_sibling h hx (by rw [hk]; rfl)
    rw [hk] at h1
    simp only [PNode.mk.injEq] at h1
    have := (List.getElem?_eq_some_iff.mp h2).1
    omega
  induction h with
  | nil => exact ⟨Nat.le_refl _, fun _ x k hx => by cases hx⟩
  | @plain ctx i t ts ns ht hf ih =>
    have h1 : t ≠ .indent := fun e => ht.1 (by rw [e]; simp [markedPairs])
    have h2 : t ≠ .dedent := fun e => ht.2 (by rw [e]; simp [markedPairs])
    rw [List.count_cons_of_ne h1, List.count_cons_of_ne h2]
    refine ⟨ih.1, fun he x k hx hk => ?_⟩
    cases hx with
    | here h =>
      cases h with
      | self =>
        simp only [PNode.mk.injEq] at hk
        obtain rfl : k = 0 := by omega
        simpa using h2
      | child h => cases h
    | there h =>
      have := below hf h hk
      obtain ⟨k, rfl⟩ : ∃ k', k = k' + 1 := ⟨k - 1, by omega⟩
      exact ih.2 he x k h (by rw [hk, show i + (k + 1) = i + 1 + k by omega])
  | @stray o o' c i ts ns hp _ hf ih =>
    have h1 : c ≠ .indent := by
      rintro rfl
      simp [markedPairs] at hp
    rw [List.count_cons_of_ne h1, List.count_cons]
    refine ⟨Nat.le_add_right_of_le ih.1, fun he x k hx hk => ?_⟩
    have hle := ih.1
    have h2 : c ≠ .dedent := by
      rintro rfl
      simp at he
      omega
    rw [if_neg (by simpa using h2), Nat.add_zero] at he
    cases hx with
    | here h =>
      cases h with
      | self =>
        simp only [PNode.mk.injEq] at hk
        obtain rfl : k = 0 := by omega
        simpa using h2
      | child h => cases h
    | there h =>
      have := below hf h hk
      obtain ⟨k, rfl⟩ : ∃ k', k = k' + 1 := ⟨k - 1, by omega⟩
      exact ih.2 he x k h (by rw [hk, show i + (k + 1) = i + 1 + k by omega])
  | @bracket ctx o c i j inner ts ns ms hp hj hf1 hf2 ih1 ih2 =>
    have hoc : (o = .indent ↔ c = .dedent) ∧ o ≠ .dedent ∧ c ≠ .indent := by
      simp only [markedPairs, List.mem_cons, Prod.mk.injEq, List.not_mem_nil, or_false] at hp
      rcases hp with ⟨rfl, rfl⟩ | ⟨rfl, rfl⟩ | ⟨rfl, rfl⟩ | ⟨rfl, rfl⟩ <;> simp
    have e1 : (o :: (inner ++ c :: ts)).count .indent
        = (if o = .indent then 1 else 0) + inner.count .indent + ts.count .indent := by
      rw [List.count_cons, List.count_append, List.count_cons_of_ne hoc.2.2]
      simp only [beq_iff_eq]
      omega
    have e2 : (o :: (inner ++ c :: ts)).count .dedent
        = (if o = .indent then 1 else 0) + inner.count .dedent + ts.count .dedent := by
      rw [List.count_cons_of_ne hoc.2.1, List.count_append, List.count_cons]
      simp only [beq_iff_eq, hoc.1]
      omega
    rw [e1, e2]
    refine ⟨by omega, fun he x k hx hk => ?_⟩
    have g1 : inner.count .indent = inner.count .dedent := by omega
    have g2 : ts.count .indent = ts.count .dedent := by omega
    have ha : x.ann = .sibling := by rw [hk]; rfl
    cases hx with
    | here h =>
      cases h with
      | self => cases ha
      | child h =>
        have hm : InTrees x ns := by
          cases h with
          | here h =>
            cases h with
            | self => cases ha
            | child h => cases h
          | there h =>
            cases h with
            | here h =>
              cases h with
              | self => cases ha
              | child h => exact h
            | there h =>
              cases h with
              | here h =>
                cases h with
                | self => cases ha
                | child h => cases h
              | there h => cases h
        have := below hf1 hm hk
        obtain ⟨k, rfl⟩ : ∃ k', k = k' + 1 := ⟨k - 1, by omega⟩
        rw [List.getElem?_cons_succ, List.getElem?_append_left (by omega)]
        exact ih1.2 g1 x k hm (by rw [hk, show i + (k + 1) = i + 1 + k by omega])
    | there h =>
      have := below hf2 h hk
      obtain ⟨k, rfl⟩ : ∃ k', k = inner.length + 1 + (k' + 1) := ⟨k - (inner.length + 2), by omega⟩
      rw [show inner.length + 1 + (k + 1) = (inner.length + (k + 1)) + 1 by omega, List.getElem?_cons_succ,
        List.getElem?_append_right (by omega), Nat.add_sub_cancel_left, List.getElem?_cons_succ]
      exact ih2.2 g2 x k h (by rw [hk, hj, show i + (inner.length + 1 + (k + 1)) = i + 1 + inner.length + 1 + k by omega])

/-- From the root of a parse to the decorations. -/
theorem convert_white {T : Type} {pairs : List (T × T)} {toks : List T} {root : PNode} {cc : CharClass}
    {raw : List Text} {types : List TokenType} {m : Node MatchName} (ht : TreeOf pairs toks root)
    (hn : raw.length = toks.length)
    (hm : toSequenceNode cc raw types [.whiteSpaceLeaf, .nonContentLeaf] [.stringLiteral] root = .ok m)
    (hb : ∀ x k t, InTree x root → x = .mk k (some (k + 1)) .sibling [] → toks[k]? = some t →
      PlainTok pairs t ∨ t ∈ pairs.map Prod.snd → raw[k]? = some [] → (raw.drop (k + 1)).flatten = []) :
    WhiteDecos cc (leavesN m) := by
  obtain ⟨ns, hf, hu⟩ := ht.brackets
  have hr : ∀ x, InTree x root → ∀ h, x.hi = some h → x.lo ≤ h := by
    intro x hx h hh
    obtain ⟨b, h1, h2⟩ := range_shape (range_inTree root ht.range x hx)
    rw [h1] at hh
    cases hh
    exact h2
  have := toSequence_white root m hm hr (by
    intro x hx ha h0 h hh
    have hc := (ht.flat x hx).1 ha
    have hx' := unsplit_sibling x ⟨ha, hc⟩ root hx
    rw [hu] at hx'
    have hx2 : InTrees x ns := by
      cases hx' with
      | here h =>
        cases h with
        | self => cases ha
        | child h => exact h
      | there h => cases h
    obtain ⟨k, t, h1, h2, h3⟩ := forest_sibling hf hx2 ha
    rw [Nat.zero_add] at h1
    subst h1
    cases hh
    have hk : k < raw.length := by
      rw [hn]
      exact (List.getElem?_eq_some_iff.mp h2).1
    refine hb _ k t hx rfl h2 h3 ?_
    have e := List.getElem?_eq_getElem hk
    unfold PNode.text at h0
    simp only [PNode.lo, PNode.hi] at h0
    rw [slice_one e] at h0
    rw [e, ← h0]
    simp)
  intro l t r hl
  exact (this l t r hl).imp id And.left

/-! ### Raw texts -/

/-- Raw texts with nothing at the ends: an empty one belongs to the front, or nothing follows. -/
theorem ends_tail {a c : Nat} {good : List Text} (hg : [] ∉ good) {k : Nat}
    (hk : (List.replicate a [] ++ good ++ List.replicate c [])[k]? = some []) :
    k < a ∨ ((List.replicate a [] ++ good ++ List.replicate c ([] : Text)).drop k).flatten = [] := by
  rcases Nat.lt_or_ge k a with h | h
  · exact .inl h
  · right
    rcases Nat.lt_or_ge k (a + good.length) with h' | h'
    · exfalso
      rw [List.getElem?_append_left (by simp; omega), List.getElem?_append_right (by simpa using h)] at hk
      exact hg (List.mem_of_getElem? hk)
    · rw [List.flatten_eq_nil_iff]
      intro x hx
      rw [List.drop_append, List.mem_append, List.drop_eq_nil_of_le (by simp; omega)] at hx
      rcases hx with hx | hx
      · cases hx
      · exact (List.mem_replicate.mp (List.mem_of_mem_drop hx)).2

/-- For texts: an empty raw text is that of an added opener, or nothing follows. -/
def TailRaw (raw : List Text) (toks : List Text) : Prop :=
  ∀ k t, toks[k]? = some t → raw[k]? = some [] → t ∈ bracketPairs.map Prod.fst ∨ (raw.drop k).flatten = []

theorem spread_tail : ∀ (out : List Spec.MarkedToken) (raw : List Text),
    List.Forall₂ RawText raw (plainTexts out) → TailRaw raw (plainTexts out) →
    ∀ k t, out[k]? = some (.text t) → (spreadTexts out raw)[k]? = some [] →
      t ∈ bracketPairs.map Prod.fst ∨ ((spreadTexts out raw).drop k).flatten = []
  | [], raw, _, _, k, t, hk, _ => by simp at hk
  | .text u :: ts, raw, h, hT, k, t, hk, hr => by
    rw [plain_text] at h hT
    obtain ⟨r, rs, h1, h2, rfl⟩ := List.forall₂_cons_right_iff.mp h
    rw [spreadTexts] at hr ⊢
    cases k with
    | zero =>
      rw [List.getElem?_cons_zero] at hk hr
      cases hk
      rcases hT 0 u rfl hr with h | h
      · exact .inl h
      · right
        rw [List.drop_zero, List.flatten_cons] at h ⊢
        rw [(spread_spec ts rs h2).1]
        exact h
    | succ k =>
      rw [List.getElem?_cons_succ] at hk hr
      rw [List.drop_succ_cons]
      exact spread_tail ts rs h2 (fun k t h1 h2 => hT (k + 1) t h1 h2) k t hk hr
  | .indent :: ts, raw, h, hT, k, t, hk, hr => by
    rw [spread_marker (by simp)] at hr ⊢
    cases k with
    | zero => simp at hk
    | succ k => exact spread_tail ts raw h hT k t hk hr
  | .dedent :: ts, raw, h, hT, k, t, hk, hr => by
    rw [spread_marker (by simp)] at hr ⊢
    cases k with
    | zero => simp at hk
    | succ k => exact spread_tail ts raw h hT k t hk hr

theorem nest_count {T : Type} [DecidableEq T] {indent dedent : T} (hid : indent ≠ dedent) : ∀ (ts : List T) (k : Nat),
    MarkersNest indent dedent k ts → k + ts.count indent = ts.count dedent
  | [], k, h => by simpa [MarkersNest] using h
  | t :: ts, k, h => by
    rw [MarkersNest] at h
    split at h
    · rename_i e
      subst e
      have := nest_count hid ts _ h
      rw [List.count_cons_self, List.count_cons_of_ne hid]
      omega
    · rename_i e
      split at h
      · rename_i e'
        subst e'
        have := nest_count hid ts _ h.2
        have := h.1
        rw [List.count_cons_self, List.count_cons_of_ne e]
        omega
      · rename_i e'
        have := nest_count hid ts _ h
        rw [List.count_cons_of_ne e, List.count_cons_of_ne e']
        omega

section
variable {digit : Char → Bool} (hd : DigitSane digit)
include hd

theorem rawTexts_tail (code : Text) :
    TailRaw (rawTexts digit code) (allTokens digit .pythonPreprocessor (withNewline code)) := by
  have hne := fun code => (lexLoop_flatten (spec_total digit .pythonPreprocessor) _ none code (Nat.le_refl _)).2
  have hno : ∀ code, [] ∉ tokensOf digit .pythonPreprocessor code := by
    intro code h
    obtain ⟨x, hx, h0⟩ := List.mem_map.mp h
    exact hne code x hx h0
  have hob := C15_only_brackets bracketPairs (tokensOf digit .pythonPreprocessor (withNewline code))
  obtain ⟨good, c, hg, e⟩ : ∃ good c, [] ∉ good ∧ rawTexts digit code
      = List.replicate (addedBefore digit .pythonPreprocessor (withNewline code)).length [] ++ good
        ++ List.replicate c [] := by
    unfold rawTexts
    split
    · exact ⟨_, _, hno code, rfl⟩
    · refine ⟨(tokensOf digit .pythonPreprocessor (withNewline code)).dropLast, (addedAfter digit .pythonPreprocessor (withNewline code)).length + 1,
        fun h => hno _ (List.mem_of_mem_dropLast h), ?_⟩
      rw [List.replicate_succ]
      simp only [List.append_assoc, List.singleton_append]
  intro k t hk hr
  rw [e] at hr ⊢
  rcases ends_tail hg hr with h | h
  · left
    unfold allTokens at hk
    rw [List.append_assoc, List.getElem?_append_left h] at hk
    exact hob.1 t (List.mem_of_getElem? hk)
  · exact .inr h

/-- In Python code, a token without text is a marker, an added opener, or nothing follows; and there are as
many indents as dedents. -/
theorem python_tail (cc : CharClass) {code : Text} (hc : code ≠ []) {spaces : Nat} (hs : 0 < spaces)
    {r : ParseResult} (hr : parseAndMaybePreprocess cc digit .python code spaces = .ok r) :
    (markedTokens r).count .indent = (markedTokens r).count .dedent
      ∧ ∀ (k : Nat) t, (markedTokens r)[k]? = some (.text t) → r.raw[k]? = some [] →
        t ∈ bracketPairs.map Prod.fst ∨ (r.raw.drop k).flatten = [] := by
  obtain ⟨root0, out, u, v, root, h1, hde, h2, h3, h4, h5, h6, h7, h8⟩ := parsePython_eq hd cc hc hs
  have hstr : ((allTokens digit .pythonPreprocessor (withNewline code)).map Spec.MarkedToken.text).map Spec.MarkedToken.string
      = allTokens digit .pythonPreprocessor (withNewline code) := by
    rw [List.map_map]
    exact List.map_id _
  have ho : desugar cc root0 (((allTokens digit .pythonPreprocessor (withNewline code)).map
      Spec.MarkedToken.text).map Spec.MarkedToken.string) ((allTokens digit .pythonPreprocessor (withNewline code)).map .text)
      .indent .dedent (.text ['\n']) spaces = .ok out := by
    rw [hstr]
    exact h2
  have her := C18_erase hde hs ho
  have hnest := nest_count (by simp) _ _ (C18_nested hde hs ho)
  have hraw := rawTexts_spec hd code
  have e : parseAndMaybePreprocess cc digit .python code spaces = _ := h8
  rw [e] at hr
  cases hr
  rw [markedTokens_eq]
  refine ⟨by simpa using hnest, ?_⟩
  refine spread_tail out _ ?_ ?_
  · rw [plain_of_filter her]
    exact hraw.2
  · rw [plain_of_filter her]
    exact rawTexts_tail hd code

/-- In parsed programs, every decoration is white space, or nothing but empty text follows. -/
theorem parsed_white {cc : CharClass} (lang : SourceLanguage) (flatten : Bool) {code : Text}
    {nodes : List (Node MatchName)} (h : parseToNodes cc digit (.parsed lang) flatten code = .ok nodes) :
    WhiteDecos cc (leaves nodes) := by
  unfold parseToNodes at h
  dsimp only at h
  obtain ⟨spaces, h1, h⟩ : ∃ spaces, (if lang = .python then inferSpacesPerIndent cc digit code [1, 2, 3, 4]
      else .ok 1) = .ok spaces ∧ (parseAndMaybePreprocess cc digit lang code spaces >>= fun r =>
        toSequenceNode cc r.raw r.types [.whiteSpaceLeaf, .nonContentLeaf] [.stringLiteral] r.root >>= fun root =>
          pure (if flatten then flattenGroups [root] else [root])) = .ok nodes := by
    split at h
    · rename_i hl
      rw [if_pos hl]
      exact except_bind_ok h
    · rename_i hl
      rw [if_neg hl]
      exact except_bind_ok h
  obtain ⟨r, h2, h⟩ := except_bind_ok h
  obtain ⟨m, h3, h⟩ := except_bind_ok h
  have hl : leaves nodes = leavesN m := by
    cases h
    split
    · rw [flattenGroups_eq_leaves.2, leaves_leaves]
      simp [leaves]
    · simp [leaves]
  rw [hl]
  clear h hl
  cases lang with
  | direct lang =>
    obtain ⟨r', toks, g1, g2, g3, g4, g5, g6, g7, -⟩ := C58_direct hd lang cc code spaces
    rw [g1] at h2
    cases h2
    obtain ⟨pre, post, e1, e2, e3, e4, -⟩ := g4.shape
    refine convert_white g7 (by rw [g5, e1]; simp [e2, e3]) h3 ?_
    intro x k t _ _ hk ht h0
    rw [g5] at h0 ⊢
    rcases ends_tail g3 h0 with h | h
    · exfalso
      rw [e1, List.append_assoc, List.getElem?_append_left (by omega)] at hk
      have ho := e4 t (List.mem_of_getElem? hk)
      rcases ht with ht | ht
      · exact ht.1 ho
      · simp only [bracketPairs, List.map_cons, List.map_nil, List.mem_cons, List.not_mem_nil, or_false] at ho ht
        rcases ho with rfl | rfl | rfl <;> simp at ht
    · rw [List.flatten_eq_nil_iff] at h ⊢
      intro y hy
      rw [← List.drop_drop] at hy
      exact h y (List.mem_of_mem_drop hy)
  | python =>
    by_cases hc : code = []
    · subst hc
      exfalso
      rw [if_pos rfl] at h1
      cases h1
      cases h2
    · obtain ⟨-, n, -, hi, hn, -⟩ := C21_default hd cc hc
      rw [if_pos rfl, hi] at h1
      cases h1
      obtain ⟨r', g1, -, g2, g3, g4, g5, -, -, g6, -⟩ := python_run hd cc hc hn
      rw [g1] at h2
      cases h2
      obtain ⟨hcount, htail⟩ := python_tail hd cc hc hn g1
      refine convert_white g6 (by rw [g5.length_eq, g2, List.length_map]) h3 ?_
      intro x k t hx hxk hk ht h0
      have hfin : (r.raw.drop k).flatten = [] → (r.raw.drop (k + 1)).flatten = [] := by
        intro h
        rw [List.flatten_eq_nil_iff] at h ⊢
        intro y hy
        rw [← List.drop_drop] at hy
        exact h y (List.mem_of_mem_drop hy)
      have hnd : t ≠ .dedent := by
        rintro rfl
        obtain ⟨ns, hf, hu⟩ := g6.brackets
        have hx' := unsplit_sibling x (by rw [hxk]; exact ⟨rfl, rfl⟩) r.root hx
        rw [hu] at hx'
        have hx2 : InTrees x ns := by
          cases hx' with
          | here h =>
            cases h with
            | self => exact absurd (congrArg PNode.ann hxk) (by simp [PNode.ann])
            | child h => exact h
          | there h => cases h
        exact (forest_markers hf).2 hcount x k hx2 (by rw [hxk, Nat.zero_add]) hk
      cases t with
      | dedent => exact absurd rfl hnd
      | indent => rcases ht with ht | ht <;> simp [PlainTok, markedPairs] at ht
      | text t =>
        rcases htail k t hk h0 with h | h
        · exfalso
          simp only [bracketPairs, List.map_cons, List.map_nil, List.mem_cons, List.not_mem_nil, or_false] at h
          rcases h with rfl | rfl | rfl <;> rcases ht with ht | ht <;> simp [PlainTok, markedPairs] at ht
        · exact hfin h

theorem parsed_text {cc : CharClass} (hb : BracketsVisible cc) (lang : SourceLanguage) (flatten : Bool) {code : Text}
    {nodes : List (Node MatchName)} (h : parseToNodes cc digit (.parsed lang) flatten code = .ok nodes) :
    text nodes = code := by
  cases lang with
  | direct lang =>
    obtain ⟨ns, -, h1, h2, -⟩ := C19_direct hd hb lang flatten code
    rw [h] at h1
    cases h1
    exact h2
  | python =>
    by_cases hc : code = []
    · subst hc
      cases h
    · obtain ⟨ns, -, h1, h2, -⟩ := C19_python hd hb flatten hc
      rw [h] at h1
      cases h1
      exact h2

end

end RUSure.Lemmas
