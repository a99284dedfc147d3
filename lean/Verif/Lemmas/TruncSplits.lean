import Verif.Lemmas.TruncGroups
import Verif.Lemmas.TruncScan

/-!
# The search for the end of a statement
-/

namespace RUSure.Lemmas
open RUSure RUSure.Spec

/-- A leaf: the range, the annotation of the parent, and whether it is its last child. -/
abbrev LeafIn := Nat × Option Nat × Option (PAnn × Bool)

mutual
/-- The leaves of a tree with their places. -/
def leafPlaces (place : Option (PAnn × Bool)) : PNode → List LeafIn
  | .mk lo hi ann cs =>
    match cs with
    | [] => [(lo, hi, place)]
    | c :: cs => leafPlacesList ann (c :: cs)

/-- The leaves of siblings. -/
def leafPlacesList (ann : PAnn) : List PNode → List LeafIn
  | [] => []
  | c :: cs => leafPlaces (some (ann, cs.isEmpty)) c ++ leafPlacesList ann cs
end

/-- The loop over a list of leaves. -/
def foldPlaces (raw : List Text) (splitters : Option (List Text)) (cursor : Int) :
    List LeafIn → SplitScan → Except ParseFail (Flow SplitScan Nat)
  | [], s => .ok (.go s)
  | (lo, hi, place) :: l, s => do
    match ← splitLeaf raw splitters cursor place (.mk lo hi .sibling []) s with
    | .done r => return .done r
    | .go s' => foldPlaces raw splitters cursor l s'

section
variable {raw : List Text} {splitters : Option (List Text)} {cursor : Int}

theorem foldPlaces_append : ∀ (l l' : List LeafIn) (s : SplitScan),
    foldPlaces raw splitters cursor (l ++ l') s = (do
      match ← foldPlaces raw splitters cursor l s with
      | .done r => return .done r
      | .go s' => foldPlaces raw splitters cursor l' s')
  | [], _, _ => rfl
  | (lo, hi, d) :: l, l', s => by
    rw [List.cons_append, foldPlaces, foldPlaces]
    cases splitLeaf raw splitters cursor d (.mk lo hi .sibling []) s with
    | error e => rfl
    | ok r =>
      cases r with
      | done r => rfl
      | go s' => exact foldPlaces_append l l' s'

mutual
theorem scan_places : ∀ (n : PNode) (place : Option (PAnn × Bool)) (s : SplitScan),
    scanSplit raw splitters cursor place n s = foldPlaces raw splitters cursor (leafPlaces place n) s
  | .mk lo hi ann [], place, s => by
    rw [scanSplit, leafPlaces, foldPlaces]
    change splitLeaf raw splitters cursor place (.mk lo hi .sibling []) s = _
    cases splitLeaf raw splitters cursor place (.mk lo hi .sibling []) s with
    | error e => rfl
    | ok r => cases r <;> rfl
  | .mk lo hi ann (c :: cs), place, s => by
    rw [scanSplit, leafPlaces]
    exact scanList_places (c :: cs) ann s

theorem scanList_places : ∀ (cs : List PNode) (ann : PAnn) (s : SplitScan),
    scanSplitList raw splitters cursor ann cs s = foldPlaces raw splitters cursor (leafPlacesList ann cs) s
  | [], ann, s => by rw [scanSplitList, leafPlacesList, foldPlaces]
  | c :: cs, ann, s => by
    rw [scanSplitList, leafPlacesList, foldPlaces_append, scan_places c]
    cases foldPlaces raw splitters cursor (leafPlaces (some (ann, cs.isEmpty)) c) s with
    | error e => rfl
    | ok r =>
      cases r with
      | done r => rfl
      | go s' => exact scanList_places cs ann s'
end

end

mutual
theorem places_ranges : ∀ (n : PNode) (place : Option (PAnn × Bool)),
    (leafPlaces place n).map (fun e => (e.1, e.2.1)) = leafRanges n
  | .mk lo hi ann [], place => by rw [leafPlaces, leafRanges]; rfl
  | .mk lo hi ann (c :: cs), place => by
    rw [leafPlaces, leafRanges]
    exact placesList_ranges (c :: cs) ann

theorem placesList_ranges : ∀ (cs : List PNode) (ann : PAnn),
    (leafPlacesList ann cs).map (fun e => (e.1, e.2.1)) = leafRangesList cs
  | [], ann => by rw [leafPlacesList, leafRangesList]; rfl
  | c :: cs, ann => by
    rw [leafPlacesList, leafRangesList, List.map_append, places_ranges c, placesList_ranges cs]
end

mutual
theorem places_flag {p : Nat} {h : Option Nat} : ∀ (n : PNode) (place : Option (PAnn × Bool)),
    (p, h, some (PAnn.split, true)) ∈ leafPlaces place n ↔
      (n.children = [] ∧ n.lo = p ∧ n.hi = h ∧ place = some (.split, true))
      ∨ ∃ y, InTree y n ∧ y.ann = .split ∧ ∃ c, y.children.getLast? = some c ∧ c.children = [] ∧ c.lo = p ∧ c.hi = h
  | .mk lo hi ann [], place => by
    rw [leafPlaces]
    simp only [List.mem_singleton, Prod.mk.injEq, PNode.children, PNode.lo, PNode.hi, true_and]
    constructor
    · rintro ⟨h1, h2, h3⟩
      exact .inl ⟨h1.symm, h2.symm, h3.symm⟩
    · rintro (⟨h1, h2, h3⟩ | ⟨y, hy, -, c, hc, -⟩)
      · exact ⟨h1.symm, h2.symm, h3.symm⟩
      · rcases inTree_mk.mp hy with rfl | hy
        · cases hc
        · cases hy
  | .mk lo hi ann (c :: cs), place => by
    rw [leafPlaces, placesList_flag (c :: cs) ann]
    simp only [inTree_mk, PNode.children, reduceCtorEq, false_and, false_or, or_and_right, exists_or,
      exists_eq_left, PNode.ann]

theorem placesList_flag {p : Nat} {h : Option Nat} : ∀ (cs : List PNode) (ann : PAnn),
    (p, h, some (PAnn.split, true)) ∈ leafPlacesList ann cs ↔
      (ann = .split ∧ ∃ c, cs.getLast? = some c ∧ c.children = [] ∧ c.lo = p ∧ c.hi = h)
      ∨ ∃ y, InTrees y cs ∧ y.ann = .split ∧ ∃ c, y.children.getLast? = some c ∧ c.children = [] ∧ c.lo = p ∧ c.hi = h
  | [], ann => by
    rw [leafPlacesList]
    simp only [List.not_mem_nil, List.getLast?_nil, reduceCtorEq, false_and, exists_false, and_false, false_or,
      false_iff]
    rintro ⟨y, hy, -⟩
    cases hy
  | c :: cs, ann => by
    rw [leafPlacesList, List.mem_append, places_flag c, placesList_flag cs]
    simp only [inTrees_cons, or_and_right, exists_or]
    by_cases hcs : cs = []
    · subst hcs
      simp only [List.getLast?_nil, reduceCtorEq, false_and, exists_false, and_false, false_or,
        List.getLast?_singleton, Option.some.injEq, exists_eq_left', List.isEmpty_nil, Prod.mk.injEq, and_true]
      constructor
      · rintro ((⟨h1, h2, h3, h4⟩ | h) | h)
        · exact .inl ⟨h4, h1, h2, h3⟩
        · exact .inr (.inl h)
        · exact .inr (.inr h)
      · rintro (⟨h4, h1, h2, h3⟩ | h | h)
        · exact .inl (.inl ⟨h1, h2, h3, h4⟩)
        · exact .inl (.inr h)
        · exact .inr h
    · have he : cs.isEmpty = false := by simpa using hcs
      rw [he, List.getLast?_cons_of_ne_nil hcs]
      simp only [Option.some.injEq, Prod.mk.injEq, Bool.false_eq_true, and_false, false_or]
      constructor
      · rintro (h | h | h)
        · exact .inr (.inl h)
        · exact .inl h
        · exact .inr (.inr h)
      · rintro (h | h | h)
        · exact .inr (.inl h)
        · exact .inl h
        · exact .inr (.inr h)
end

mutual
theorem places_some : ∀ (n : PNode) (place : Option (PAnn × Bool)), n.children ≠ [] →
    ∀ e ∈ leafPlaces place n, e.2.2 ≠ none
  | .mk lo hi ann [], place, h => absurd rfl h
  | .mk lo hi ann (c :: cs), place, _ => by
    rw [leafPlaces]
    exact placesList_some (c :: cs) ann

theorem placesList_some : ∀ (cs : List PNode) (ann : PAnn), ∀ e ∈ leafPlacesList ann cs, e.2.2 ≠ none
  | [], ann => by rw [leafPlacesList]; simp
  | .mk lo hi ann' [] :: cs, ann => by
    rw [leafPlacesList, leafPlaces]
    intro e he
    rcases List.mem_append.mp he with he | he
    · rw [List.mem_singleton] at he
      subst he
      simp
    · exact placesList_some cs ann e he
  | .mk lo hi ann' (d :: ds) :: cs, ann => by
    rw [leafPlacesList]
    intro e he
    rcases List.mem_append.mp he with he | he
    · exact places_some (.mk lo hi ann' (d :: ds)) _ (by simp [PNode.children]) e he
    · exact placesList_some cs ann e he
end

/-! ### The loop -/

section loop
variable {raw : List Text} {ss : List Text} {cursor : Nat}

/-- The loop stops at the token `m`. -/
def StopsAt (raw ss : List Text) (cursor : Nat) (G : Nat → Prop) (m : Nat) : Prop :=
  cursor < startOf raw m ∧ G m ∧ ∃ t ∈ ss, raw[m]? = some t

theorem fold_splits (G : Nat → Prop) : ∀ (L : List LeafIn) (a n : Nat) (s : SplitScan),
    (∀ e ∈ L, e.2.2 ≠ none ∧ ((e.2.1 = some (e.1 + 1) ∧ (e.2.2 = some (.split, true) ↔ G e.1))
      ∨ (e.2.1 = some e.1 ∧ e.2.2 ≠ some (.split, true)))) →
    (L.filter fun e => e.2.1 != some e.1).map (fun e => e.1) = List.range' a n → a + n = raw.length →
    s.codeIndex = startOf raw a → (s.afterCursor = true → cursor < startOf raw a) →
    ∃ F, foldPlaces raw (some ss) (cursor : Int) L s = .ok F ∧
      match F with
      | .done i => ∃ m, a ≤ m ∧ m < a + n ∧ StopsAt raw ss cursor G m ∧ (∀ k, a ≤ k → k < m → ¬ StopsAt raw ss cursor G k)
          ∧ i = startOf raw (m + 1)
      | .go s' => s'.codeIndex = startOf raw (a + n) ∧ ∀ m, a ≤ m → m < a + n → ¬ StopsAt raw ss cursor G m
  | [], a, n, s, _, hr, _, hc, _ => by
    have hn : n = 0 := by
      have := congrArg List.length hr
      simp at this
      exact this.symm
    subst hn
    refine ⟨.go s, by rw [foldPlaces], hc, fun m h1 h2 => ?_⟩
    omega
  | (lo, hi, place) :: L, a, n, s, hL, hr, hn, hc, ha => by
    rw [List.forall_mem_cons] at hL
    obtain ⟨⟨hp, h1⟩, hL⟩ := hL
    dsimp only at hp h1
    have hafter : (s.afterCursor || decide ((cursor : Int) < (s.codeIndex : Nat))) = decide (cursor < startOf raw a) := by
      rw [hc]
      cases hs : s.afterCursor
      · simp
      · have := ha hs
        simp [this]
    obtain ⟨⟨ann, last⟩, rfl⟩ := Option.ne_none_iff_exists'.mp hp
    rcases h1 with ⟨h1, h2⟩ | ⟨h1, h2⟩
    · -- a token
      subst h1
      have hne : (some (lo + 1) != some lo) = true := by simp
      rw [List.filter_cons, if_pos hne, List.map_cons] at hr
      dsimp only at hr
      obtain ⟨n', rfl⟩ : ∃ n', n = n' + 1 := by
        cases n with
        | zero => simp at hr
        | succ n => exact ⟨n, rfl⟩
      rw [List.range'_succ] at hr
      obtain ⟨rfl, hr⟩ := List.cons.inj hr
      have hlt : lo < raw.length := by omega
      have ht : raw[lo]? = some raw[lo] := List.getElem?_eq_getElem hlt
      have hidx : indexAfter raw (.mk lo (some (lo + 1)) .sibling []) s.codeIndex = .ok (startOf raw (lo + 1)) := by
        unfold indexAfter
        rw [if_neg (by simp [PNode.hi, PNode.lo])]
        simp only [PNode.lo, tokenAt, ht]
        rw [startOf_succ ht, hc]
        rfl
      by_cases hstop : StopsAt raw ss cursor G lo
      · refine ⟨.done (startOf raw (lo + 1)), ?_, lo, Nat.le_refl _, by omega, hstop, fun k h3 h4 => by omega, rfl⟩
        obtain ⟨k1, k2, t, k3, k4⟩ := hstop
        rw [ht] at k4
        cases k4
        have e1 := h2.mpr k2
        simp only [Option.some.injEq, Prod.mk.injEq] at e1
        rw [foldPlaces]
        unfold splitLeaf
        dsimp only
        rw [hafter, hidx]
        have hst : stopsAt raw (some ss) (some (ann, last)) (.mk lo (some (lo + 1)) .sibling []) = .ok true := by
          unfold stopsAt
          dsimp only
          rw [if_pos e1]
          simp only [PNode.lo, tokenAt, ht]
          have : ss.contains raw[lo] = true := by simpa using k3
          show (Except.ok (ss.contains raw[lo]) : Except ParseFail Bool) = .ok true
          rw [this]
        rw [decide_eq_true k1]
        dsimp only [bind, Except.bind]
        rw [if_pos rfl, hst]
        rfl
      · have hleaf : splitLeaf raw (some ss) (cursor : Int) (some (ann, last)) (.mk lo (some (lo + 1)) .sibling []) s
            = .ok (.go ⟨startOf raw (lo + 1), decide (cursor < startOf raw lo)⟩) := by
          unfold splitLeaf
          dsimp only
          rw [hafter, hidx]
          dsimp only [bind, Except.bind]
          by_cases hcur : cursor < startOf raw lo
          · have hst : stopsAt raw (some ss) (some (ann, last)) (.mk lo (some (lo + 1)) .sibling []) = .ok false := by
              unfold stopsAt
              dsimp only
              by_cases he : ann = .split ∧ last = true
              · rw [if_pos he]
                simp only [PNode.lo, tokenAt, ht]
                have hG : G lo := h2.mp (by rw [he.1, he.2])
                have hnm : raw[lo] ∉ ss := fun hm => hstop ⟨hcur, hG, _, hm, ht⟩
                have : ss.contains raw[lo] = false := by simpa using hnm
                show (Except.ok (ss.contains raw[lo]) : Except ParseFail Bool) = .ok false
                rw [this]
              · rw [if_neg he]
            rw [decide_eq_true hcur, if_pos rfl, hst]
            rfl
          · rw [decide_eq_false hcur]
            rfl
        have hmono := startOf_mono raw (show lo ≤ lo + 1 by omega)
        obtain ⟨F, hF, hF'⟩ := fold_splits G L (lo + 1) n' ⟨startOf raw (lo + 1), decide (cursor < startOf raw lo)⟩
          hL hr (by omega) rfl (fun h => by
            have := of_decide_eq_true h
            omega)
        refine ⟨F, ?_, ?_⟩
        · rw [foldPlaces, hleaf]
          exact hF
        · cases F with
          | done i =>
            obtain ⟨m, m1, m2, m3, m4, m5⟩ := hF'
            refine ⟨m, by omega, by omega, m3, fun k k1 k2 => ?_, m5⟩
            by_cases hk : k = lo
            · rw [hk]; exact hstop
            · exact m4 k (by omega) k2
          | go s' =>
            obtain ⟨m1, m2⟩ := hF'
            refine ⟨by rw [m1]; congr 1; omega, fun k k1 k2 => ?_⟩
            by_cases hk : k = lo
            · rw [hk]; exact hstop
            · exact m2 k (by omega) (by omega)
    · -- nothing
      subst h1
      have hne : ¬ (some lo != some lo) = true := by simp
      rw [List.filter_cons, if_neg hne] at hr
      have hidx : indexAfter raw (.mk lo (some lo) .sibling []) s.codeIndex = .ok s.codeIndex := by
        unfold indexAfter
        rw [if_pos (by simp [PNode.hi, PNode.lo])]
      have hleaf : splitLeaf raw (some ss) (cursor : Int) (some (ann, last)) (.mk lo (some lo) .sibling []) s
          = .ok (.go ⟨s.codeIndex, decide (cursor < startOf raw a)⟩) := by
        unfold splitLeaf
        dsimp only
        rw [hafter, hidx]
        dsimp only [bind, Except.bind]
        have hst : stopsAt raw (some ss) (some (ann, last)) (.mk lo (some lo) .sibling []) = .ok false := by
          unfold stopsAt
          dsimp only
          rw [if_neg]
          rintro ⟨rfl, rfl⟩
          exact h2 rfl
        rw [hst]
        by_cases hcur : cursor < startOf raw a
        · rw [decide_eq_true hcur]
          rfl
        · rw [decide_eq_false hcur]
          rfl
      obtain ⟨F, hF, hF'⟩ := fold_splits G L a n ⟨s.codeIndex, decide (cursor < startOf raw a)⟩
        hL hr hn hc of_decide_eq_true
      refine ⟨F, ?_, hF'⟩
      rw [foldPlaces, hleaf]
      exact hF

end loop

/-! ### Leaves of the tree of the brackets -/

mutual
theorem leaf_unsplit {x : PNode} (h1 : x.children = []) (h2 : x.ann ≠ .split) : ∀ n : PNode, InTree x n →
    InTrees x (unsplitNode n)
  | .mk lo hi ann cs, h => by
    by_cases ha : ann = .split
    · subst ha
      rw [unsplitNode]
      rcases inTree_mk.mp h with rfl | h
      · exact absurd rfl h2
      · exact leaf_unsplits h1 h2 cs h
    · rw [unsplitNode.eq_2 _ _ _ _ ha]
      rcases inTree_mk.mp h with rfl | h
      · obtain rfl : cs = [] := h1
        rw [unsplitNodes]
        exact .here .self
      · exact .here (.child (leaf_unsplits h1 h2 cs h))

theorem leaf_unsplits {x : PNode} (h1 : x.children = []) (h2 : x.ann ≠ .split) : ∀ cs : List PNode, InTrees x cs →
    InTrees x (unsplitNodes cs)
  | [], h => by cases h
  | c :: cs, h => by
    rw [unsplitNodes, inTrees_append]
    rcases inTrees_cons.mp h with h | h
    · exact .inl (leaf_unsplit h1 h2 c h)
    · exact .inr (leaf_unsplits h1 h2 cs h)
end

theorem forest_leaves {T : Type} {pairs : List (T × T)} {ctx : Option T} {i : Nat} {ts : List T} {ns : List PNode}
    (h : Forest pairs ctx i ts ns) : ∀ x, InTrees x ns → x.children = [] →
      x.hi = some (x.lo + 1) ∨ (x.ann = .middle ∧ x.hi = some x.lo) := by
  have leaf : ∀ i a, ∀ x, InTree x (.mk i (some (i + 1)) a []) → x.hi = some (x.lo + 1) := by
    intro i a x hx
    rcases inTree_mk.mp hx with rfl | hx
    · rfl
    · cases hx
  induction h with
  | nil => intro x hx; cases hx
  | plain _ _ ih | stray _ _ _ ih =>
    intro x hx hc
    rcases inTrees_cons.mp hx with hx | hx
    · exact .inl (leaf _ _ x hx)
    · exact ih x hx hc
  | @bracket ctx o c i j inner ts ns ms hm hj h1 _ ih ih' =>
    intro x hx hc
    rcases inTrees_cons.mp hx with hx | hx
    · rcases inTree_mk.mp hx with rfl | hx
      · cases hc
      · rcases inTrees_cons.mp hx with hx | hx
        · exact .inl (leaf _ _ x hx)
        · rcases inTrees_cons.mp hx with hx | hx
          · rcases inTree_mk.mp hx with rfl | hx
            · obtain rfl : ns = [] := hc
              have : inner = [] := by cases h1; rfl
              subst this
              exact .inr ⟨rfl, by simp [PNode.hi, PNode.lo, hj]⟩
            · exact ih x hx hc
          · rcases inTrees_cons.mp hx with hx | hx
            · exact .inl (leaf _ _ x hx)
            · cases hx
    · exact ih' x hx hc

end RUSure.Lemmas
