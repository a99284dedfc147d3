import Verif.Lemmas.TruncShape

/-!
# Which tokens end groups
-/

namespace RUSure.Lemmas
open RUSure RUSure.Spec

/-- The node is a group, and its last child is the leaf of the token `p`. -/
def GroupEnd (p : Nat) (y : PNode) : Prop :=
  y.ann = .split ∧ ∃ c, y.children.getLast? = some c ∧ c.children = [] ∧ c.lo = p ∧ c.hi = some (p + 1)

def EndsAt (p : Nat) (n : PNode) : Prop := ∃ y, InTree y n ∧ GroupEnd p y

def EndsIn (p : Nat) (ns : List PNode) : Prop := ∃ y, InTrees y ns ∧ GroupEnd p y

theorem endsIn_nil (p : Nat) : ¬ EndsIn p [] := by
  rintro ⟨y, hy, -⟩
  cases hy

theorem endsIn_cons {p : Nat} {c : PNode} {cs : List PNode} :
    EndsIn p (c :: cs) ↔ EndsAt p c ∨ EndsIn p cs := by
  unfold EndsIn EndsAt
  simp only [inTrees_cons, or_and_right, exists_or]

theorem endsAt_mk {p lo hi ann cs} :
    EndsAt p (.mk lo hi ann cs) ↔ GroupEnd p (.mk lo hi ann cs) ∨ EndsIn p cs := by
  unfold EndsIn EndsAt
  simp only [inTree_mk, or_and_right, exists_or, exists_eq_left]

theorem endsAt_plain {p lo hi ann cs} (ha : ann ≠ .split) :
    EndsAt p (.mk lo hi ann cs) ↔ EndsIn p cs := by
  rw [endsAt_mk]
  refine ⟨fun h => h.resolve_left fun h => ha h.1, .inr⟩

theorem endsIn_append {p : Nat} {cs ds : List PNode} : EndsIn p (cs ++ ds) ↔ EndsIn p cs ∨ EndsIn p ds := by
  unfold EndsIn
  simp only [inTrees_append, or_and_right, exists_or]

theorem endsIn_iff {p : Nat} {cs : List PNode} : EndsIn p cs ↔ ∃ c ∈ cs, EndsAt p c := by
  induction cs with
  | nil => simp [endsIn_nil]
  | cons c cs ih => rw [endsIn_cons, ih]; simp

theorem endsAt_nosplit {p : Nat} {n : PNode} (h : ∀ x, InTree x n → x.ann ≠ .split) : ¬ EndsAt p n :=
  fun ⟨y, hy, hg⟩ => h y hy hg.1

section
variable {T : Type} {pairs : List (T × T)}

theorem forest_nosplit {ctx : Option T} {i : Nat} {ts : List T} {ns : List PNode}
    (h : Forest pairs ctx i ts ns) : ∀ x, InTrees x ns → x.ann ≠ .split := by
  have leaf : ∀ i h a, a ≠ .split → ∀ x, InTree x (.mk i h a []) → x.ann ≠ .split := by
    intro i h a ha x hx
    rcases inTree_mk.mp hx with rfl | hx
    · exact ha
    · cases hx
  induction h with
  | nil => intro x hx; cases hx
  | plain _ _ ih | stray _ _ _ ih =>
    intro x hx
    rcases inTrees_cons.mp hx with hx | hx
    · exact leaf _ _ _ (by simp) x hx
    · exact ih x hx
  | @bracket ctx o c i j inner ts ns ms hm hj _ _ ih ih' =>
    intro x hx
    rcases inTrees_cons.mp hx with hx | hx
    · rcases inTree_mk.mp hx with rfl | hx
      · simp [PNode.ann]
      · rcases inTrees_cons.mp hx with hx | hx
        · exact leaf _ _ _ (by simp) x hx
        · rcases inTrees_cons.mp hx with hx | hx
          · rcases inTree_mk.mp hx with rfl | hx
            · simp [PNode.ann]
            · exact ih x hx
          · rcases inTrees_cons.mp hx with hx | hx
            · exact leaf _ _ _ (by simp) x hx
            · cases hx
    · exact ih' x hx

/-- The brackets at `q` are around the token `p`. -/
def Encloses (q : Nat × Nat) (p : Nat) : Prop := q.1 < p ∧ p < q.2

/-- Groups are made within the brackets at `q`. -/
def Splits (un : List (T × T)) (tokens : List T) (q : Nat × Nat) : Prop :=
  q.2 ≠ q.1 + 2 ∧ ∀ o c, tokens[q.1]? = some o → tokens[q.2]? = some c → (o, c) ∉ un

theorem forest_child {ctx : Option T} {i : Nat} {ts : List T} {ns : List PNode}
    (h : Forest pairs ctx i ts ns) : ∀ c ∈ ns, i ≤ c.lo ∧ c.lo < i + ts.length
      ∧ ∀ q ∈ bracketsAmong ns, ¬ Encloses q c.lo := by
  have single : ∀ (i : Nat) (t : T) (ts : List T) (ns : List PNode),
      (∀ c ∈ ns, i + 1 ≤ c.lo ∧ c.lo < i + 1 + ts.length ∧ ∀ q ∈ bracketsAmong ns, ¬ Encloses q c.lo) →
      (∀ q ∈ bracketsAmong ns, i + 1 ≤ q.1 ∧ q.1 < q.2 ∧ q.2 < i + 1 + ts.length) →
      ∀ c ∈ PNode.mk i (some (i + 1)) .sibling [] :: ns, i ≤ c.lo ∧ c.lo < i + (t :: ts).length
        ∧ ∀ q ∈ bracketsAmong (PNode.mk i (some (i + 1)) .sibling [] :: ns), ¬ Encloses q c.lo := by
    intro i t ts ns ih hb c hc
    rw [bracketsAmong, bracketsIn_leaf _ _ (by simp), List.nil_append, List.length_cons]
    rcases List.mem_cons.mp hc with rfl | hc
    · refine ⟨Nat.le_refl _, by simp [PNode.lo], fun q hq h => ?_⟩
      have := hb q hq
      have h1 : q.1 < i := h.1
      omega
    · obtain ⟨h1, h2, h3⟩ := ih c hc
      exact ⟨by omega, by omega, h3⟩
  induction h with
  | nil => simp
  | plain _ h ih => exact single _ _ _ _ ih (pairs_bounds h)
  | stray _ _ h ih => exact single _ _ _ _ ih (pairs_bounds h)
  | @bracket ctx o c i j inner ts ns ms hm hj h1 h2 ih ih' =>
    have b1 := pairs_bounds h1
    have b2 := pairs_bounds h2
    have hmem : ∀ q, q ∈ (i, j) :: bracketsAmong ns ++ bracketsAmong ms
        ↔ q = (i, j) ∨ q ∈ bracketsAmong ns ∨ q ∈ bracketsAmong ms := by simp
    intro x hx
    rw [bracketsAmong, bracketsIn_pair]
    simp only [List.length_cons, List.length_append]
    rcases List.mem_cons.mp hx with rfl | hx
    · refine ⟨Nat.le_refl _, by simp [PNode.lo], fun q hq h => ?_⟩
      have h3 : q.1 < i := h.1
      rcases (hmem q).mp hq with rfl | hq | hq
      · exact Nat.lt_irrefl _ h3
      · have := b1 q hq; omega
      · have := b2 q hq; omega
    · obtain ⟨h3, h4, h5⟩ := ih' x hx
      refine ⟨by omega, by omega, fun q hq h => ?_⟩
      rcases (hmem q).mp hq with rfl | hq | hq
      · have := h.2; dsimp only at this; omega
      · have := b1 q hq; have := h.2; omega
      · exact h5 q hq h

theorem forest_leaf {tokens : List T} {ctx : Option T} {i : Nat} {ts : List T} {ns : List PNode}
    (h : Forest pairs ctx i ts ns) : (∀ (k : Nat) t, ts[k]? = some t → tokens[i + k]? = some t) →
    ∀ p t, tokens[p]? = some t → PlainTok pairs t → i ≤ p → p < i + ts.length →
      (∀ q ∈ bracketsAmong ns, ¬ Encloses q p) → PNode.mk p (some (p + 1)) .sibling [] ∈ ns := by
  induction h with
  | nil => intro _ p t _ _ h1 h2; simp at h2; omega
  | @plain ctx i t0 ts ns _ _ ih | @stray _ _ t0 i ts ns _ _ _ ih =>
    intro ht p t hp hpl h1 h2 hq
    rw [bracketsAmong, bracketsIn_leaf _ _ (by simp), List.nil_append] at hq
    rw [List.length_cons] at h2
    by_cases he : p = i
    · subst he
      exact .head _
    · refine .tail _ (ih (fun k t h => ?_) p t hp hpl (by omega) (by omega) hq)
      have := ht (k + 1) t (by simpa using h)
      rw [show i + 1 + k = i + (k + 1) by omega]
      exact this
  | @bracket ctx o c i j inner ts ns ms hm hj h1 h2 ih ih' =>
    intro ht p t hp hpl h3 h4 hq
    rw [bracketsAmong, bracketsIn_pair] at hq
    simp only [List.length_cons, List.length_append] at h4
    have hnot : ¬ Encloses (i, j) p := hq (i, j) (by simp)
    have ho := ht 0 o rfl
    have hc := ht (1 + inner.length) c (by
      rw [Nat.add_comm, List.getElem?_cons_succ, List.getElem?_append_right (Nat.le_refl _)]
      simp)
    rw [← Nat.add_assoc, ← hj] at hc
    have hpi : p ≠ i := by
      rintro rfl
      rw [Nat.add_zero, hp] at ho
      cases ho
      exact hpl.1 (List.mem_map.mpr ⟨_, hm, rfl⟩)
    have hpj : p ≠ j := by
      rintro rfl
      rw [hp] at hc
      cases hc
      exact hpl.2 (List.mem_map.mpr ⟨_, hm, rfl⟩)
    unfold Encloses at hnot
    dsimp only at hnot
    refine .tail _ (ih' (fun k t h => ?_) p t hp hpl (by omega) (by omega) fun q hq' => hq q (by simp [hq']))
    have := ht (1 + inner.length + 1 + k) t (by
      rw [show 1 + inner.length + 1 + k = (inner.length + 1 + k) + 1 by omega, List.getElem?_cons_succ,
        List.getElem?_append_right (by omega), show inner.length + 1 + k - inner.length = k + 1 by omega]
      simpa using h)
    rw [show j + 1 + k = i + (1 + inner.length + 1 + k) by omega]
    exact this

end

theorem len_eq {lo h : Nat} {ann : PAnn} {cs : List PNode} {k : Nat} (hk : (PNode.mk lo (some h) ann cs).len = .ok k) :
    k = h - lo := by
  change (if h < lo then .error .value else .ok (h - lo) : Except ParseFail Nat) = .ok k at hk
  by_cases hl : h < lo
  · rw [if_pos hl] at hk
    cases hk
  · rw [if_neg hl] at hk
    cases hk
    rfl

section
variable {T : Type} [DecidableEq T] {pairs : List (T × T)} {tokens splitters : List T} {un : List (T × T)}

theorem splitList_short : ∀ (cs cs' : List PNode), PNode.splitList tokens splitters un cs = .ok cs' →
    ∀ lo ann ds, PNode.mk lo (some (lo + 1)) ann ds ∈ cs → PNode.mk lo (some (lo + 1)) ann ds ∈ cs'
  | [], _, _, _, _, _, hc => by cases hc
  | c :: cs, cs', h, lo, ann, ds, hc => by
    unfold PNode.splitList at h
    obtain ⟨k, hk, h⟩ := except_bind_ok h
    dsimp only at h
    split at h
    · obtain ⟨c', h1, h⟩ := except_bind_ok h
      obtain ⟨cs2, h2, h⟩ := except_bind_ok h
      cases h
      rcases List.mem_cons.mp hc with rfl | hc
      · have := len_eq hk
        omega
      · exact .tail _ (splitList_short cs cs2 h2 _ _ _ hc)
    · obtain ⟨c', h1, h⟩ := except_bind_ok h
      obtain ⟨cs2, h2, h⟩ := except_bind_ok h
      cases h
      cases h1
      rcases List.mem_cons.mp hc with rfl | hc
      · exact .head _
      · exact .tail _ (splitList_short cs cs2 h2 _ _ _ hc)

/-- The groups of the children of a node. -/
theorem regroup_ends {ctx : Option T} {i : Nat} {ts : List T} {ns ns' : List PNode} {marks : List Bool} {ann : PAnn}
    (hf : Forest pairs ctx i ts ns) (ht : ∀ (k : Nat) t, ts[k]? = some t → tokens[i + k]? = some t)
    (h1 : ns.mapM (isSplitter tokens splitters) = .ok marks)
    (h2 : PNode.splitList tokens splitters un ns = .ok ns') (ha : ann ≠ .paired)
    {p : Nat} {t : T} (hp : tokens[p]? = some t) (hs : t ∈ splitters) (hpl : PlainTok pairs t)
    (hF : EndsIn p ns' ↔ (∃ q ∈ bracketsAmong ns, Encloses q p)
      ∧ ∀ q ∈ bracketsAmong ns, Encloses q p → Splits un tokens q) :
    EndsIn p (regroup ann marks ns') ↔ (i ≤ p ∧ p < i + ts.length)
      ∧ ∀ q ∈ bracketsAmong ns, Encloses q p → Splits un tokens q := by
  have hsame := splitList_shape tokens splitters un _ _ h2
  have hbound : (∃ q ∈ bracketsAmong ns, Encloses q p) → i ≤ p ∧ p < i + ts.length := by
    rintro ⟨q, hq, he⟩
    have := pairs_bounds hf q hq
    unfold Encloses at he
    omega
  have hback : ∀ c' ∈ ns', ∃ c ∈ ns, SameNode c c' := by
    intro c' hc'
    clear hF h1 h2 hf hbound
    induction hsame with
    | nil => cases hc'
    | @cons a b _ _ hab _ ih =>
      rcases List.mem_cons.mp hc' with rfl | hc'
      · exact ⟨a, .head _, hab⟩
      · obtain ⟨c, h, h'⟩ := ih hc'
        exact ⟨c, .tail _ h, h'⟩
  have hdirect : i ≤ p → p < i + ts.length → (¬ ∃ q ∈ bracketsAmong ns, Encloses q p) →
      ∃ c ∈ ns', c.children = [] ∧ c.lo = p ∧ c.hi = some (p + 1) ∧ CoversSplitter tokens splitters c := by
    intro h3 h4 h5
    exact ⟨_, splitList_short _ _ h2 _ _ _ (forest_leaf hf ht p t hp hpl h3 h4 fun q hq he => h5 ⟨q, hq, he⟩),
      rfl, rfl, rfl, rfl, t, hp, hs⟩
  rcases regroup_cases (ann := ann) hsame h1 with ⟨h3, h4⟩ | ⟨gs, h3, h4, h5, -⟩
  · rw [h3, hF]
    constructor
    · exact fun h => ⟨hbound h.1, h.2⟩
    · rintro ⟨⟨h6, h7⟩, h8⟩
      refine ⟨?_, h8⟩
      by_contra hno
      obtain ⟨c, hc, -, -, -, hcov⟩ := hdirect h6 h7 hno
      exact h4 ha c hc hcov
  · rw [h3]
    constructor
    · rintro ⟨y, hy, hg⟩
      obtain ⟨c, hc, hy⟩ := inTrees_iff.mp hy
      obtain ⟨g, hgm, rfl⟩ := List.mem_map.mp hc
      unfold splitNode at hy
      rcases inTree_mk.mp hy with rfl | hy
      · obtain ⟨-, d, hd, -, hlo, -⟩ := hg
        obtain ⟨d0, hd0, hsd⟩ := hback d (by
          rw [← h4]
          exact List.mem_flatten.mpr ⟨g, hgm, List.mem_of_getLast? hd⟩)
        obtain ⟨k1, k2, k3⟩ := forest_child hf d0 hd0
        rw [← hsd.lo, hlo] at k1 k2 k3
        exact ⟨⟨k1, k2⟩, fun q hq he => absurd he (k3 q hq)⟩
      · have := hF.mp ⟨y, by rw [← h4]; exact inTrees_flatten.mpr ⟨g, hgm, hy⟩, hg⟩
        exact ⟨hbound this.1, this.2⟩
    · rintro ⟨⟨h6, h7⟩, h8⟩
      by_cases hex : ∃ q ∈ bracketsAmong ns, Encloses q p
      · obtain ⟨y, hy, hg⟩ := hF.mpr ⟨hex, h8⟩
        rw [← h4] at hy
        obtain ⟨g, hgm, hy⟩ := inTrees_flatten.mp hy
        refine ⟨y, inTrees_iff.mpr ⟨splitNode g, List.mem_map.mpr ⟨g, hgm, rfl⟩, ?_⟩, hg⟩
        unfold splitNode
        exact .child hy
      · obtain ⟨c, hc, k1, k2, k3, hcov⟩ := hdirect h6 h7 hex
        rw [← h4] at hc
        obtain ⟨g, hgm, hcg⟩ := List.mem_flatten.mp hc
        refine ⟨splitNode g, inTrees_iff.mpr ⟨splitNode g, List.mem_map.mpr ⟨g, hgm, rfl⟩, .self⟩, rfl, c, ?_, k1, k2, k3⟩
        have hne := (h5 g hgm).1
        have hdl := (h5 g hgm).2
        show g.getLast? = some c
        rw [← List.dropLast_append_getLast hne, List.mem_append, List.mem_singleton] at hcg
        rcases hcg with hcg | hcg
        · exact absurd hcov (hdl c hcg)
        · rw [List.getLast?_eq_some_getLast hne, hcg]

theorem split_ends (hu : ∀ p ∈ un, ∀ q ∈ un, p.1 = q.1 → p = q) {ctx : Option T} {i : Nat} {ts : List T}
    {ns : List PNode} (hf : Forest pairs ctx i ts ns) :
    ∀ ns', (∀ (k : Nat) t, ts[k]? = some t → tokens[i + k]? = some t) →
    PNode.splitList tokens splitters un ns = .ok ns' →
    ∀ p t, tokens[p]? = some t → t ∈ splitters → PlainTok pairs t →
    (EndsIn p ns' ↔ (∃ q ∈ bracketsAmong ns, Encloses q p)
      ∧ ∀ q ∈ bracketsAmong ns, Encloses q p → Splits un tokens q) := by
  induction hf with
  | nil =>
    intro ns' _ h p t _ _ _
    unfold PNode.splitList at h
    cases h
    simp [endsIn_nil, bracketsAmong]
  | @plain ctx i t0 ts ns _ _ ih | @stray _ _ t0 i ts ns _ _ _ ih =>
    intro ns' ht h p t hp hs hpl
    unfold PNode.splitList at h
    obtain ⟨k, hk, h⟩ := except_bind_ok h
    dsimp only at h
    have hk1 : k = 1 := by
      have := len_eq hk
      omega
    rw [if_neg (by omega)] at h
    obtain ⟨c', h1, h⟩ := except_bind_ok h
    obtain ⟨cs2, h2, h⟩ := except_bind_ok h
    cases h
    cases h1
    rw [endsIn_cons, endsAt_plain (by simp), bracketsAmong, bracketsIn_leaf _ _ (by simp), List.nil_append]
    rw [ih cs2 (fun k t h => by
      have := ht (k + 1) t (by simpa using h)
      rw [show i + 1 + k = i + (k + 1) by omega]
      exact this) h2 p t hp hs hpl]
    simp [endsIn_nil]
  | @bracket ctx o c i j inner ts ns ms hm hj hf1 hf2 ih ih' =>
    intro ns' ht h p t hp hs hpl
    have b1 := pairs_bounds hf1
    have b2 := pairs_bounds hf2
    have ht0 := ht 0 o rfl
    have htj := ht (1 + inner.length) c (by
      rw [Nat.add_comm, List.getElem?_cons_succ, List.getElem?_append_right (Nat.le_refl _)]
      simp)
    rw [← Nat.add_assoc, ← hj] at htj
    have ht1 : ∀ (k : Nat) t, inner[k]? = some t → tokens[i + 1 + k]? = some t := by
      intro k t h
      have := ht (k + 1) t (by
        rw [List.getElem?_cons_succ, List.getElem?_append_left (List.getElem?_eq_some_iff.mp h).1]
        exact h)
      rw [show i + 1 + k = i + (k + 1) by omega]
      exact this
    have ht2 : ∀ (k : Nat) t, ts[k]? = some t → tokens[j + 1 + k]? = some t := by
      intro k t h
      have := ht (1 + inner.length + 1 + k) t (by
        rw [show 1 + inner.length + 1 + k = (inner.length + 1 + k) + 1 by omega, List.getElem?_cons_succ,
          List.getElem?_append_right (by omega), show inner.length + 1 + k - inner.length = k + 1 by omega]
        simpa using h)
      rw [show j + 1 + k = i + (1 + inner.length + 1 + k) by omega]
      exact this
    have hpi : p ≠ i := by
      rintro rfl
      rw [Nat.add_zero, hp] at ht0
      cases ht0
      exact hpl.1 (List.mem_map.mpr ⟨_, hm, rfl⟩)
    have hpj : p ≠ j := by
      rintro rfl
      rw [hp] at htj
      cases htj
      exact hpl.2 (List.mem_map.mpr ⟨_, hm, rfl⟩)
    unfold PNode.splitList at h
    obtain ⟨k, hk, h⟩ := except_bind_ok h
    dsimp only at h
    have hk1 : 1 < k := by
      have := len_eq hk
      omega
    rw [if_pos hk1] at h
    obtain ⟨pn', h1, h⟩ := except_bind_ok h
    obtain ⟨ms', h2, h⟩ := except_bind_ok h
    cases h
    have ihm := ih' ms' ht2 h2 p t hp hs hpl
    -- what is in the brackets
    have key : EndsAt p pn' ↔ (i < p ∧ p < j) ∧ Splits un tokens (i, j)
        ∧ ∀ q ∈ bracketsAmong ns, Encloses q p → Splits un tokens q := by
      have hpf : Forest pairs ctx i (o :: (inner ++ [c])) [.mk i (some (j + 1)) .paired [.mk i (some (i + 1)) .left [],
          .mk (i + 1) (some j) .middle ns, .mk j (some (j + 1)) .right []]] := .bracket hm hj hf1 .nil
      have hnos := forest_nosplit hpf
      have hno : ∀ {n'}, n' = PNode.mk i (some (j + 1)) .paired [.mk i (some (i + 1)) .left [],
          .mk (i + 1) (some j) .middle ns, .mk j (some (j + 1)) .right []] → ¬ EndsAt p n' := by
        rintro n' rfl
        exact endsAt_nosplit fun x hx => hnos x (.here hx)
      have hbr : ∀ m', HasBrackets un tokens (.mk i (some (j + 1)) .paired [.mk i (some (i + 1)) .left [],
          m', .mk j (some (j + 1)) .right []]) → ¬ Splits un tokens (i, j) := by
        rintro m' ⟨-, a, m, b, e, l, r, e1, e2, e3, e4, e5⟩ hsp
        cases e1
        dsimp only [PNode.hi] at e3
        cases e3
        exact hsp.2 l r e2 e4 e5
      rcases splitWith_cases (N := tokens.length) tokens splitters un h1 (by
          intro _
          exact ⟨_, _, _, j, rfl, (List.getElem?_eq_some_iff.mp ht0).1, rfl, (List.getElem?_eq_some_iff.mp htj).1,
            _, rfl, by simp [PNode.lo]; omega⟩) with ⟨rfl, hb'⟩ | ⟨marks, cs', h3, h4, rfl⟩
      · exact ⟨fun h => absurd h (hno rfl), fun h => absurd h.2.1 (hbr _ hb')⟩
      · have hr : regroup .paired marks cs' = cs' := by
          unfold regroup
          rw [if_neg]
          simp
        rw [hr] at h1 ⊢
        -- the three children
        unfold PNode.splitList at h4
        obtain ⟨k, hk, h4⟩ := except_bind_ok h4
        dsimp only at h4
        rw [if_neg (by have := len_eq hk; omega)] at h4
        obtain ⟨l', h5, h4⟩ := except_bind_ok h4
        obtain ⟨cs2, h6, h4⟩ := except_bind_ok h4
        cases h4
        cases h5
        have hmid : ∃ m', cs2 = [m', .mk j (some (j + 1)) .right []]
            ∧ (if 1 < inner.length then PNode.splitWith tokens splitters un (.mk (i + 1) (some j) .middle ns)
              else .ok (.mk (i + 1) (some j) .middle ns)) = .ok m' := by
          have hlast : ∀ {cs3}, PNode.splitList tokens splitters un [.mk j (some (j + 1)) .right []] = .ok cs3 →
              cs3 = [.mk j (some (j + 1)) .right []] := by
            intro cs3 h8
            unfold PNode.splitList at h8
            obtain ⟨k2, hk2, h8⟩ := except_bind_ok h8
            dsimp only at h8
            rw [if_neg (by have := len_eq hk2; omega)] at h8
            obtain ⟨r', h9, h8⟩ := except_bind_ok h8
            obtain ⟨cs4, h10, h8⟩ := except_bind_ok h8
            cases h8
            cases h9
            unfold PNode.splitList at h10
            cases h10
            rfl
          unfold PNode.splitList at h6
          obtain ⟨k', hk', h6⟩ := except_bind_ok h6
          dsimp only at h6
          have hk3 : k' = inner.length := by
            have := len_eq hk'
            omega
          subst hk3
          by_cases hlong : 1 < inner.length
          · rw [if_pos hlong] at h6 ⊢
            obtain ⟨m', h7, h6⟩ := except_bind_ok h6
            obtain ⟨cs3, h8, h6⟩ := except_bind_ok h6
            cases h6
            exact ⟨m', by rw [hlast h8], h7⟩
          · rw [if_neg hlong] at h6 ⊢
            obtain ⟨m', h7, h6⟩ := except_bind_ok h6
            obtain ⟨cs3, h8, h6⟩ := except_bind_ok h6
            cases h6
            exact ⟨m', by rw [hlast h8], h7⟩
        obtain ⟨m', rfl, hm'⟩ := hmid
        by_cases hb : HasBrackets un tokens (.mk i (some (j + 1)) .paired [.mk i (some (i + 1)) .left [],
            m', .mk j (some (j + 1)) .right []])
        · exact ⟨fun h => absurd h (hno (splitWith_whole tokens splitters un hu h1 hb)),
            fun h => absurd h.2.1 (hbr _ hb)⟩
        · have hun : ∀ o' c', tokens[i]? = some o' → tokens[j]? = some c' → (o', c') ∉ un := by
            intro o' c' k1 k2 k3
            exact hb ⟨rfl, _, _, _, j, o', c', rfl, k1, rfl, k2, k3⟩
          rw [endsAt_plain (by simp), endsIn_cons, endsIn_cons, endsIn_cons, endsAt_plain (by simp),
            endsAt_plain (by simp)]
          simp only [endsIn_nil, false_or, or_false]
          by_cases hlong : 1 < inner.length
          · rw [if_pos hlong] at hm'
            rcases splitWith_cases (N := tokens.length) tokens splitters un hm' (by
              intro h; cases h) with ⟨rfl, hb'⟩ | ⟨marks', ns2, h11, h12, rfl⟩
            · exact absurd hb'.1 (by simp [PNode.ann])
            · rw [endsAt_plain (by simp), regroup_ends hf1 ht1 h11 h12 (by simp) hp hs hpl
                (ih ns2 ht1 h12 p t hp hs hpl)]
              constructor
              · rintro ⟨k1, k2⟩
                exact ⟨by omega, ⟨by dsimp only; omega, hun⟩, k2⟩
              · rintro ⟨k1, -, k2⟩
                exact ⟨by omega, k2⟩
          · rw [if_neg hlong] at hm'
            cases hm'
            constructor
            · intro he
              exact absurd he (endsAt_nosplit fun x hx => hnos x (.here (.child (.there (.here hx)))))
            · rintro ⟨k1, ⟨k2, -⟩, -⟩
              dsimp only at k2
              omega
    rw [endsIn_cons, key, ihm, bracketsAmong, bracketsIn_pair]
    have hmem : ∀ q, q ∈ (i, j) :: bracketsAmong ns ++ bracketsAmong ms
        ↔ q = (i, j) ∨ q ∈ bracketsAmong ns ∨ q ∈ bracketsAmong ms := by simp
    constructor
    · rintro (⟨k1, k2, k3⟩ | ⟨⟨q, k1, k1'⟩, k2⟩)
      · refine ⟨⟨(i, j), (hmem _).mpr (.inl rfl), k1⟩, fun q hq he => ?_⟩
        rcases (hmem q).mp hq with rfl | hq | hq
        · exact k2
        · exact k3 q hq he
        · have := b2 q hq
          have := he.1
          omega
      · refine ⟨⟨q, (hmem _).mpr (.inr (.inr k1)), k1'⟩, fun q' hq he => ?_⟩
        have e1 := b2 q k1
        have e2 := k1'.1
        rcases (hmem q').mp hq with rfl | hq | hq
        · have := he.2
          dsimp only at this
          omega
        · have := b1 q' hq
          have := he.2
          omega
        · exact k2 q' hq he
    · rintro ⟨⟨q, hq, he⟩, hall⟩
      rcases (hmem q).mp hq with rfl | hq | hq
      · exact .inl ⟨he, hall _ ((hmem _).mpr (.inl rfl)) he, fun q' hq' he' => hall q' ((hmem _).mpr (.inr (.inl hq'))) he'⟩
      · have e1 := b1 q hq
        have e2 := he.1
        have e3 := he.2
        have he' : Encloses (i, j) p := ⟨by dsimp only; omega, by dsimp only; omega⟩
        exact .inl ⟨he', hall _ ((hmem _).mpr (.inl rfl)) he',
          fun q' hq' he' => hall q' ((hmem _).mpr (.inr (.inl hq'))) he'⟩
      · exact .inr ⟨⟨q, hq, he⟩, fun q' hq' he' => hall q' ((hmem _).mpr (.inr (.inr hq'))) he'⟩

/-- Which splitters end groups, for the whole tree. -/
theorem root_ends (hu : ∀ p ∈ un, ∀ q ∈ un, p.1 = q.1 → p = q) {ns : List PNode} {hi : Option Nat} {v : PNode}
    (hf : Forest pairs none 0 tokens ns)
    (h : (PNode.mk 0 hi .root ns).splitWith tokens splitters un = .ok v) {p : Nat} {t : T}
    (hp : tokens[p]? = some t) (hs : t ∈ splitters) (hpl : PlainTok pairs t) :
    EndsAt p v ↔ ∀ q ∈ bracketsAmong ns, Encloses q p → Splits un tokens q := by
  have ht : ∀ (k : Nat) t, tokens[k]? = some t → tokens[0 + k]? = some t := by
    intro k t h
    rw [Nat.zero_add]
    exact h
  rcases splitWith_cases (N := tokens.length) tokens splitters un h (by
    intro h; cases h) with ⟨rfl, hb'⟩ | ⟨marks', ns2, h11, h12, rfl⟩
  · exact absurd hb'.1 (by simp [PNode.ann])
  · rw [endsAt_plain (by simp), regroup_ends hf ht h11 h12 (by simp) hp hs hpl
      (split_ends hu hf ns2 ht h12 p t hp hs hpl)]
    have := (List.getElem?_eq_some_iff.mp hp).1
    exact ⟨fun h => h.2, fun h => ⟨⟨Nat.zero_le _, by omega⟩, h⟩⟩

end

/-! ### Joining groups -/

section
variable {T : Type} {tokens : List T} {sub : T × T}

theorem joined_last {cs cs' r : List PNode} (h : Joined tokens sub cs cs' r)
    (hl : List.Forall₂ (fun c c' => c'.lo = c.lo ∧ c'.hi = c.hi ∧ (c'.children = [] ↔ c.children = [])) cs cs') (p : Nat) :
    (∃ c, r.getLast? = some c ∧ c.children = [] ∧ c.lo = p ∧ c.hi = some (p + 1))
      ↔ ∃ c, cs.getLast? = some c ∧ c.children = [] ∧ c.lo = p ∧ c.hi = some (p + 1) := by
  induction h with
  | nil => simp
  | single =>
    cases hl with
    | cons h1 _ => simp [h1.1, h1.2.1, h1.2.2]
  | @move a c a' c' cs cs' r hm hj ih =>
    cases hl with
    | cons hp hl =>
    cases hl with
    | cons hc hl =>
    have ih := ih hl
    have he := joined_empty hj
    by_cases h0 : cs = []
    · subst h0
      obtain rfl := he.mp rfl
      constructor
      · rintro ⟨d, hd, hd', -⟩
        simp only [List.getLast?_singleton, Option.some.injEq] at hd
        subst hd
        cases hd'
      · rintro ⟨d, hd, hd', -⟩
        simp only [List.getLast?_cons_cons, List.getLast?_singleton, Option.some.injEq] at hd
        subst hd
        obtain ⟨x, hx, -⟩ := hm.2.2
        rw [hd'] at hx
        cases hx
    · have h1 : r ≠ [] := fun h => h0 (he.mpr h)
      rw [List.getLast?_cons_of_ne_nil h1, List.getLast?_cons_cons, List.getLast?_cons_of_ne_nil h0]
      exact ih
  | @keep a c a' c' cs cs' r hm hj ih =>
    cases hl with
    | cons hp hl =>
    have ih := ih hl
    have he := joined_empty hj
    have h1 : r ≠ [] := fun h => by simpa using he.mpr h
    rw [List.getLast?_cons_of_ne_nil h1, List.getLast?_cons_cons]
    exact ih

theorem nested_hi {n n' : PNode} (h : Nested tokens sub n n') : n'.hi = n.hi := by
  cases h
  rfl

theorem nested_children {n n' : PNode} (h : Nested tokens sub n n') : n'.children = [] ↔ n.children = [] := by
  cases h with
  | mk hl hj => exact (joined_empty hj).symm

theorem nestedList_ranges {cs cs' : List PNode} : NestedList tokens sub cs cs' →
    List.Forall₂ (fun c c' => c'.lo = c.lo ∧ c'.hi = c.hi ∧ (c'.children = [] ↔ c.children = [])) cs cs'
  | .nil => .nil
  | .cons h1 h2 => .cons ⟨nested_lo h1, nested_hi h1, nested_children h1⟩ (nestedList_ranges h2)

theorem joined_ends {cs cs' r : List PNode} (h : Joined tokens sub cs cs' r) (hl : NestedList tokens sub cs cs')
    (p : Nat) : EndsIn p r ↔ EndsIn p cs' := by
  induction h with
  | nil => exact Iff.rfl
  | single => exact Iff.rfl
  | @move a c a' c' cs cs' r hm hj ih =>
    cases hl with
    | cons hp hl =>
    cases hl with
    | cons hc hl =>
    have e1 : a'.ann = .split := (nested_ann hp).trans hm.1
    rw [endsIn_cons, endsIn_cons, endsIn_cons, ih hl, endsAt_mk, endsIn_cons, endsIn_cons]
    have hself : ¬ GroupEnd p (.mk a'.lo c'.hi .split [.mk a'.lo a'.hi .split a'.children, c']) := by
      rintro ⟨-, d, hd, hd', -⟩
      simp only [PNode.children, List.getLast?_cons_cons, List.getLast?_singleton, Option.some.injEq] at hd
      subst hd
      obtain ⟨x, hx, -⟩ := hm.2.2
      rw [(nested_children hc).mp hd'] at hx
      cases hx
    have ha : PNode.mk a'.lo a'.hi .split a'.children = a' := by
      cases a' with
      | mk lo hi ann ds =>
        cases e1
        rfl
    rw [ha] at hself ⊢
    simp only [hself, false_or, endsIn_nil, or_false, or_assoc]
  | keep _ _ ih =>
    cases hl with
    | cons hp hl =>
    rw [endsIn_cons, endsIn_cons, ih hl]

mutual
theorem nested_ends : ∀ {n n' : PNode}, Nested tokens sub n n' → ∀ p, EndsAt p n' ↔ EndsAt p n
  | _, _, .mk hl hj, p => by
    rw [endsAt_mk, endsAt_mk, joined_ends hj hl p, nestedList_ends hl p]
    refine or_congr ?_ Iff.rfl
    exact and_congr Iff.rfl (joined_last hj (nestedList_ranges hl) p)

theorem nestedList_ends : ∀ {cs cs' : List PNode}, NestedList tokens sub cs cs' → ∀ p, EndsIn p cs' ↔ EndsIn p cs
  | _, _, .nil, p => Iff.rfl
  | _, _, .cons h1 h2, p => by
    rw [endsIn_cons, endsIn_cons, nested_ends h1 p, nestedList_ends h2 p]
end

end

end RUSure.Lemmas
