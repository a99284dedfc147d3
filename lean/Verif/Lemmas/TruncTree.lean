import Verif.Lemmas.TruncSplits
import Verif.Lemmas.TruncShape
import Verif.Props.PseudoParser

/-!
# Truncation points of a tree
-/

namespace RUSure.Lemmas
open RUSure RUSure.Spec RUSure.Props

variable {T : Type} [DecidableEq T]

/-- What is used of the tree of a parse. -/
structure ScanTree (pairs un : List (T × T)) (ss tokens : List T) (ns : List PNode) (root : PNode) : Prop where
  forest : Forest pairs none 0 tokens ns
  unsplit : unsplitNode root = [.mk 0 (some tokens.length) .root ns]
  ann : root.ann = .root
  flat : ∀ x, InTree x root → FlatTok x
  leaves : tokenLeaves root = (List.range tokens.length).map fun i => (i, some (i + 1))
  shape : ∀ x, InTree x root → Shape (fun lo hi => (lo, hi) ∈ bracketsAmong ns) x
  ends : ∀ p t, tokens[p]? = some t → t ∈ ss → PlainTok pairs t →
    (EndsAt p root ↔ ∀ q ∈ bracketsAmong ns, Encloses q p → Splits un tokens q)
  noEnds : ss = [] → ∀ p, ¬ EndsAt p root

section
variable {pairs un : List (T × T)} {ss tokens : List T} {u v : PNode}

theorem scanTree_split (hT : Table pairs) (hb : Balanced pairs none tokens)
    (hu : bracketMatch pairs true tokens = .ok u) (hun : ∀ p ∈ un, ∀ q ∈ un, p.1 = q.1 → p = q)
    (h : splitParse u tokens ss un none = .ok v) : ∃ ns, ScanTree pairs un ss tokens ns v := by
  have hfl := matched_flat hT hb hu h
  have htree := treeOf_split hT hb hu h hfl
  obtain ⟨ns, h1, hf⟩ := C16_forest hT hb
  rw [h1] at hu
  cases hu
  have hm := matched_of_balanced hT hb h1
  obtain ⟨k1, k2, -, -, -, k3⟩ := C17_splitting_keeps hm h
  obtain ⟨hmid, hsh⟩ := forest_shape hf (fun lo hi => (lo, hi) ∈ bracketsAmong ns) (fun p hp => hp)
  have hsh0 : ∀ x, InTree x (.mk 0 (some tokens.length) .root ns) →
      Shape (fun lo hi => (lo, hi) ∈ bracketsAmong ns) x := by
    intro x hx
    rcases inTree_mk.mp hx with rfl | hx
    · exact shape_of_no_middle hmid
    · exact hsh x hx
  have hns : ∀ x, InTree x (.mk 0 (some tokens.length) .root ns) → x.ann ≠ .split := by
    intro x hx
    rcases inTree_mk.mp hx with rfl | hx
    · simp [PNode.ann]
    · exact forest_nosplit hf x hx
  refine ⟨ns, hf, ?_, k3, hfl, htree.leaves, ?_, ?_, ?_⟩
  · rw [k2]
    exact unsplit_plain _ hns
  · unfold splitParse at h
    split at h
    · cases h
      exact hsh0
    · obtain ⟨v', h2, h3⟩ := except_bind_ok h
      cases h3
      exact splitWith_shape _ _ _ tokens.length _ _ h2 hm.lookupOk hsh0
  · intro p t hp hs hpl
    unfold splitParse at h
    split at h
    · rename_i he
      rw [List.isEmpty_iff] at he
      subst he
      cases hs
    · obtain ⟨v', h2, h3⟩ := except_bind_ok h
      cases h3
      exact root_ends hun hf h2 hp hs hpl
  · rintro rfl p ⟨y, hy, hg⟩
    cases h
    exact hns y hy hg.1

end

section
variable {pairs un : List (T × T)} {ss tokens : List T} {ns : List PNode} {root root' : PNode}

/-- Putting together groups with indented blocks keeps all of this. -/
theorem scanTree_nested {sub : T × T} (h : ScanTree pairs un ss tokens ns root) (hn : Nested tokens sub root root')
    (ht : TreeOf pairs tokens root') (hu : unsplitNode root' = unsplitNode root) (ha : root'.ann = root.ann) :
    ScanTree pairs un ss tokens ns root' where
  forest := h.forest
  unsplit := hu.trans h.unsplit
  ann := ha.trans h.ann
  flat := ht.flat
  leaves := ht.leaves
  shape := nested_shape hn h.shape
  ends p t h1 h2 h3 := (nested_ends hn p).trans (h.ends p t h1 h2 h3)
  noEnds h0 p hp := h.noEnds h0 p ((nested_ends hn p).mp hp)

theorem ScanTree.root_children (h : ScanTree pairs un ss tokens ns root) (hne : tokens ≠ []) : root.children ≠ [] := by
  intro h0
  have hl := h.leaves
  obtain ⟨lo, hi, ann, cs⟩ := root
  obtain rfl : cs = [] := h0
  have h1 := h.unsplit
  obtain rfl : ann = .root := h.ann
  rw [unsplitNode.eq_2 _ _ _ _ (by simp), unsplitNodes] at h1
  cases h1
  have := h.forest
  cases this
  exact hne rfl

theorem ScanTree.leaf (h : ScanTree pairs un ss tokens ns root) (hne : tokens ≠ []) {x : PNode} (hx : InTree x root)
    (hc : x.children = []) : x.hi = some (x.lo + 1) ∨ (x.ann = .middle ∧ x.hi = some x.lo) := by
  have hs : x.ann ≠ .split := fun ha => (h.flat x hx).2 ha hc
  have h1 := leaf_unsplit hc hs root hx
  rw [h.unsplit] at h1
  rcases inTrees_cons.mp h1 with h1 | h1
  · rcases inTree_mk.mp h1 with rfl | h1
    · obtain rfl : ns = [] := hc
      have := h.forest
      cases this
      exact absurd rfl hne
    · exact forest_leaves h.forest x h1 hc
  · cases h1

/-! ### Blocks -/

theorem ScanTree.incOk (h : ScanTree pairs un ss tokens ns root) {raw : List Text} {types : List TokenType}
    {pair : PairChoice} {ch : Nat → Nat → Bool}
    (hch : ∀ q ∈ bracketsAmong ns, ∀ a m b : PNode, a.lo = q.1 → b.lo = q.2 → a.ann = .left → m.ann = .middle →
      b.ann = .right → depthIncrement raw types pair [a, m, b] m = .ok (if ch q.1 q.2 then 1 else 0)) :
    ∀ x, InTree x root → IncOk raw types pair ch x.children := by
  intro x hx c hc
  by_cases hm : c.ann = .middle
  · obtain ⟨-, a, m, b, e, h1, h2, h3, h4⟩ := h.shape x hx ⟨c, hc, hm⟩
    rw [if_pos hm, e]
    obtain rfl : c = m := by
      rw [e] at hc
      simp only [List.mem_cons, List.not_mem_nil, or_false] at hc
      rcases hc with rfl | rfl | rfl
      · rw [hm] at h1; cases h1
      · rfl
      · rw [hm] at h3; cases h3
    rw [hch _ h4 a c b rfl rfl h1 hm h3]
    rfl
  · rw [if_neg hm]
    unfold depthIncrement
    rw [if_neg hm]

theorem ScanTree.depths (h : ScanTree pairs un ss tokens ns root) (hne : tokens ≠ []) (ch : Nat → Nat → Bool) :
    leafDepths ch root 0 = (List.range' 0 tokens.length).flatMap (leavesAt ch (bracketsAmong ns) 0) := by
  have h1 := depths_unsplit ch root 0 0 h.flat h.shape
  rw [h.unsplit, leafDepthsList, leafDepthsList, List.append_nil, h.ann] at h1
  simp only [PNode.ann, reduceCtorEq, if_false, Nat.add_zero] at h1
  rw [← h1, leafDepths_inner, leaves_forest ch h.forest]
  rintro rfl
  have := h.forest
  cases this
  exact hne rfl

/-- The brackets that are asked for, as a test. -/
def chosenBy (raw : List Text) (types : List TokenType) : PairChoice → Nat → Nat → Bool
  | .any, _, _ => true
  | .types a _, lo, _ => types[lo]? == some a
  | .texts a b, lo, hi => raw[lo]? == some a || raw[hi]? == some b

omit [DecidableEq T] in
theorem chosenBy_iff (raw : List Text) (types : List TokenType) (pair : PairChoice) (lo hi : Nat) :
    chosenBy raw types pair lo hi = true ↔ Chosen raw types pair lo hi := by
  cases pair <;> simp [chosenBy, Chosen]

/-- The token types fit together: the other bracket has the other type. -/
def TypesFit (types : List TokenType) (pair : PairChoice) (q : Nat × Nat) : Prop :=
  ∀ a b, pair = .types a b → types[q.1]? = some a → types[q.2]? = some b

/-- What a loop returns. -/
def _root_.RUSure.Flow.result {S R : Type} : Flow S (Option R) → Option R
  | .done r => r
  | .go _ => none

theorem match_result (h : ScanTree pairs un ss tokens ns root) (hT : Table pairs) {raw : List Text}
    {types : List TokenType} {pair : PairChoice} (hr : raw.length = tokens.length) (ht : types.length = tokens.length)
    (hfit : ∀ q ∈ bracketsAmong ns, TypesFit types pair q) {cursor j : Nat} (hj : CursorAt raw cursor j) :
    ∃ r, inferMatchPairTruncation root raw types pair cursor = .ok r ∧ ∀ i, r = some i ↔
      ∃ hi, BlockEnd (fun lo hi => BracketsMatch pairs tokens lo hi ∧ Chosen raw types pair lo hi) j hi
        ∧ hi + 1 < raw.length ∧ i = startOf raw (hi + 2) := by
  have hb := pairs_bounds h.forest
  have hjl := cursor_lt hj
  have hne : tokens ≠ [] := by
    rintro rfl
    rw [hr] at hjl
    cases hjl
  have hinc : ∀ x, InTree x root → IncOk raw types pair (chosenBy raw types pair) x.children := by
    refine h.incOk fun q hq a m b ha hb' h1 h2 h3 => ?_
    have hq1 := hb q hq
    unfold depthIncrement
    rw [if_pos h2]
    dsimp only
    rw [if_pos ⟨h1, h3⟩, ha, hb']
    cases pair with
    | any => rfl
    | types x y =>
      have e1 : types[q.1]? = some types[q.1] := List.getElem?_eq_getElem (by omega)
      have e2 : types[q.2]? = some types[q.2] := List.getElem?_eq_getElem (by omega)
      simp only [chosenBy, tokenAt, e1]
      show (if types[q.1] = x then _ else _) = _
      by_cases hx : types[q.1] = x
      · rw [if_pos hx]
        have := hfit q hq x y rfl (by rw [e1, hx])
        rw [this]
        show (if y = y then (pure 1 : Except ParseFail Nat) else .error .assertion) = _
        rw [if_pos rfl]
        simp [hx]
        rfl
      · rw [if_neg hx]
        simp [hx]
        rfl
    | texts x y =>
      have e1 : raw[q.1]? = some raw[q.1] := List.getElem?_eq_getElem (by omega)
      have e2 : raw[q.2]? = some raw[q.2] := List.getElem?_eq_getElem (by omega)
      simp only [chosenBy, tokenAt, e1, e2]
      show (if raw[q.1] = x then (pure 1 : Except ParseFail Nat)
        else (if raw[q.2] = y then (pure 1 : Except ParseFail Nat) else (pure 0 : Except ParseFail Nat))) = _
      by_cases hx : raw[q.1] = x
      · rw [if_pos hx]
        simp [hx]
        rfl
      · rw [if_neg hx]
        by_cases hy : raw[q.2] = y
        · rw [if_pos hy]
          simp [hy]
          rfl
        · rw [if_neg hy]
          simp [hx, hy]
          rfl
  obtain ⟨F, hF, hF'⟩ := scan_blocks (ch := chosenBy raw types pair) (B := bracketsAmong ns)
    (fun q hq => by have := hb q hq; omega) (pairs_laminar h.forest) (pairs_nodup h.forest) hj
  have hscan : scanMatch raw types pair (cursor : Int) root 0 ⟨0, none, false⟩ = .ok F := by
    rw [scan_leaves root 0 _ hinc, h.depths hne, ← hr]
    exact hF
  have hlen : (cursor : Int) < (raw.flatten.length : Nat) := by
    have := startOf_le raw (j + 1)
    have := hj.2
    omega
  clear hF
  refine ⟨F.result, ?_, fun i => ?_⟩
  · unfold inferMatchPairTruncation
    rw [if_neg (by omega), if_pos ⟨by omega, hlen⟩, hscan]
    cases F <;> rfl
  · have hres : F.result = some i ↔ _ := (by cases F <;> exact Iff.rfl : _ ↔ _).trans (hF' i)
    rw [hres]
    have hBE : ∀ hi, BlockEnd (fun lo hi => (lo, hi) ∈ bracketsAmong ns ∧ chosenBy raw types pair lo hi = true) j hi
        ↔ BlockEnd (fun lo hi => BracketsMatch pairs tokens lo hi ∧ Chosen raw types pair lo hi) j hi := by
      intro hi
      simp only [BlockEnd, brackets_iff hT h.forest, chosenBy_iff]
    simp only [hBE]

/-! ### Statements -/

theorem ScanTree.places (h : ScanTree pairs un ss tokens ns root) (hne : tokens ≠ []) :
    ((leafPlaces none root).filter fun e => e.2.1 != some e.1).map (fun e => e.1) = List.range' 0 tokens.length
    ∧ ∀ e ∈ leafPlaces none root, e.2.2 ≠ none
      ∧ ((e.2.1 = some (e.1 + 1) ∧ (e.2.2 = some (.split, true) ↔ EndsAt e.1 root))
        ∨ (e.2.1 = some e.1 ∧ e.2.2 ≠ some (.split, true))) := by
  have hmap := places_ranges root none
  have hfil : ((leafPlaces none root).filter fun e => e.2.1 != some e.1).map (fun e => (e.1, e.2.1))
      = (List.range tokens.length).map fun i => (i, some (i + 1)) := by
    rw [← h.leaves, tokenLeaves, ← hmap, List.filter_map]
    rfl
  have hfst : ((leafPlaces none root).filter fun e => e.2.1 != some e.1).map (fun e => e.1)
      = List.range' 0 tokens.length := by
    have := congrArg (List.map Prod.fst) hfil
    rw [List.map_map, List.map_map] at this
    rw [← List.range_eq_range']
    rw [show (Prod.fst ∘ fun i : Nat => (i, some (i + 1))) = id from rfl, List.map_id] at this
    exact this
  have huniq : ∀ e ∈ leafPlaces none root, ∀ e' ∈ leafPlaces none root, e.2.1 ≠ some e.1 → e'.2.1 ≠ some e'.1 →
      e.1 = e'.1 → e = e' := by
    intro e he e' he' h1 h2 h3
    have hnd : (((leafPlaces none root).filter fun e => e.2.1 != some e.1).map (fun e => e.1)).Nodup := by
      rw [hfst]
      exact List.nodup_range'
    exact List.inj_on_of_nodup_map hnd (List.mem_filter.mpr ⟨he, by simpa using h1⟩)
      (List.mem_filter.mpr ⟨he', by simpa using h2⟩) h3
  refine ⟨hfst, fun e he => ⟨places_some root none (h.root_children hne) e he, ?_⟩⟩
  obtain ⟨lo, hi, pl⟩ := e
  have hflag : (lo, hi, some (PAnn.split, true)) ∈ leafPlaces none root → ∃ y, InTree y root ∧ y.ann = .split
      ∧ ∃ c, y.children.getLast? = some c ∧ c.children = [] ∧ c.lo = lo ∧ c.hi = hi := by
    intro hm
    rcases (places_flag root none).mp hm with ⟨h1, -⟩ | hm
    · exact absurd h1 (h.root_children hne)
    · exact hm
  by_cases hhi : hi = some lo
  · refine .inr ⟨hhi, ?_⟩
    rintro rfl
    obtain ⟨y, hy, hya, c, hc, hc0, hc1, hc2⟩ := hflag he
    have hcm : c ∈ y.children := List.mem_of_getLast? hc
    have hcin : InTree c root := inTree_children root (P := fun z => InTree z root) (fun _ hz => hz) y hy c hcm
    rcases h.leaf hne hcin hc0 with h1 | ⟨h1, -⟩
    · rw [hc1, hc2, hhi] at h1
      simp at h1
    · have := (h.shape y hy ⟨c, hcm, h1⟩).1
      rw [hya] at this
      cases this
  · have hin : (lo, hi) ∈ (List.range tokens.length).map fun i => (i, some (i + 1)) := by
      rw [← hfil]
      exact List.mem_map.mpr ⟨(lo, hi, pl), List.mem_filter.mpr ⟨he, by simpa using hhi⟩, rfl⟩
    obtain ⟨i, -, hi'⟩ := List.mem_map.mp hin
    simp only [Prod.mk.injEq] at hi'
    obtain ⟨rfl, rfl⟩ := hi'
    refine .inl ⟨rfl, ?_, ?_⟩
    · intro hpl
      dsimp only at hpl
      subst hpl
      obtain ⟨y, hy, hya, c, hc⟩ := hflag he
      exact ⟨y, hy, hya, c, hc⟩
    · rintro ⟨y, hy, hya, c, hc⟩
      have hm := (places_flag (p := i) (h := some (i + 1)) root none).mpr (.inr ⟨y, hy, hya, c, hc⟩)
      have := huniq _ he _ hm (by simp) (by simp) rfl
      exact (Prod.mk.inj (Prod.mk.inj this).2).2

theorem split_result (h : ScanTree pairs un ss tokens ns root) {raw tr : List Text} (hr : raw.length = tokens.length)
    {cursor j : Nat} (hj : CursorAt raw cursor j) :
    ∃ i, inferSplitTruncation root raw (some tr) cursor = .ok i ∧
      ((∃ m, FirstAfter (fun m => EndsAt m root ∧ m < raw.length ∧ ∃ t ∈ tr, raw[m]? = some t) j m
          ∧ i = startOf raw (m + 1))
        ∨ ((∀ m, j < m → ¬ (EndsAt m root ∧ m < raw.length ∧ ∃ t ∈ tr, raw[m]? = some t)) ∧ i = raw.flatten.length)) := by
  have hjl := cursor_lt hj
  have hne : tokens ≠ [] := by
    rintro rfl
    rw [hr] at hjl
    cases hjl
  obtain ⟨h1, h2⟩ := h.places hne
  have hcur : ∀ m, cursor < startOf raw m ↔ j < m := by
    intro m
    constructor
    · intro hm
      by_contra hc
      have := startOf_mono raw (show m ≤ j by omega)
      have := hj.1
      omega
    · intro hm
      have := startOf_mono raw (show j + 1 ≤ m by omega)
      have := hj.2
      omega
  obtain ⟨F, hF, hF'⟩ := fold_splits (raw := raw) (ss := tr) (cursor := cursor) (fun m => EndsAt m root)
    (leafPlaces none root) 0 tokens.length ⟨0, false⟩ h2 h1 (by omega) rfl (by simp)
  have hscan : scanSplit raw (some tr) (cursor : Int) none root ⟨0, false⟩ = .ok F := by
    rw [scan_places]
    exact hF
  have hlen : (cursor : Int) < (raw.flatten.length : Nat) := by
    have := startOf_le raw (j + 1)
    have := hj.2
    omega
  have hst : ∀ m, StopsAt raw tr cursor (fun m => EndsAt m root) m
      ↔ j < m ∧ EndsAt m root ∧ m < raw.length ∧ ∃ t ∈ tr, raw[m]? = some t := by
    intro m
    unfold StopsAt
    rw [hcur]
    constructor
    · rintro ⟨a, b, t, c, d⟩
      exact ⟨a, b, (List.getElem?_eq_some_iff.mp d).1, t, c, d⟩
    · rintro ⟨a, b, -, c⟩
      exact ⟨a, b, c⟩
  unfold inferSplitTruncation
  rw [if_neg (by omega), if_pos ⟨by omega, hlen⟩, hscan]
  cases F with
  | done i =>
    obtain ⟨m, -, -, m3, m4, m5⟩ := hF'
    rw [hst] at m3
    refine ⟨i, rfl, .inl ⟨m, ⟨m3.1, m3.2, fun k k1 k2 hk => ?_⟩, m5⟩⟩
    exact m4 k (by omega) k2 ((hst k).mpr ⟨k1, hk⟩)
  | go s' =>
    obtain ⟨m1, m2⟩ := hF'
    refine ⟨s'.codeIndex, rfl, .inr ⟨fun m hm hk => ?_, ?_⟩⟩
    · exact m2 m (by omega) (by have := hk.2.1; omega) ((hst m).mpr ⟨hm, hk⟩)
    · rw [m1, startOf_all raw (by omega)]

/-- A cursor that is within the code is at a token. -/
theorem cursor_at (raw : List Text) {cursor : Nat} (h : cursor < raw.flatten.length) : ∃ j, CursorAt raw cursor j := by
  have h0 : startOf raw 0 ≤ cursor := by simp [startOf]
  have hn : cursor < startOf raw raw.length := by rw [startOf_all raw (Nat.le_refl _)]; exact h
  by_contra hc
  have : ∀ k, startOf raw k ≤ cursor := by
    intro k
    induction k with
    | zero => exact h0
    | succ k ih =>
      by_contra hk
      exact hc ⟨k, ih, by omega⟩
  have := this raw.length
  omega

end

end RUSure.Lemmas
