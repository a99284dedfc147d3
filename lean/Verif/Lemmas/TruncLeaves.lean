import Verif.Lemmas.BracketPairs
import Verif.Lemmas.StackFlat
import Verif.Lemmas.StackWhole

/-!
# The leaves that the search for the end of a block sees
-/

namespace RUSure.Lemmas
open RUSure RUSure.Spec

/-- A leaf: the range, and the depth. -/
abbrev LeafAt := Nat × Option Nat × Nat

/-- One for chosen brackets, zero for others. -/
def chosenInc (ch : Nat → Nat → Bool) : List PNode → Nat
  | [a, _, b] => if ch a.lo b.lo then 1 else 0
  | _ => 0

mutual
/-- The leaves of a tree with their depths. -/
def leafDepths (ch : Nat → Nat → Bool) : PNode → Nat → List LeafAt
  | .mk lo hi _ cs, d =>
    match cs with
    | [] => [(lo, hi, d)]
    | c :: cs => leafDepthsList ch (chosenInc ch (c :: cs)) (c :: cs) d

/-- The leaves of several trees; those of inner parts of brackets are deeper by `k`. -/
def leafDepthsList (ch : Nat → Nat → Bool) (k : Nat) : List PNode → Nat → List LeafAt
  | [], _ => []
  | c :: cs, d => leafDepths ch c (d + if c.ann = .middle then k else 0) ++ leafDepthsList ch k cs d
end

/-- The loop over a list of leaves. -/
def foldLeaves (raw : List Text) (cursor : Int) :
    List LeafAt → MatchScan → Except ParseFail (Flow MatchScan (Option Nat))
  | [], s => .ok (.go s)
  | (lo, hi, d) :: l, s => do
    match ← matchLeaf raw cursor (.mk lo hi .sibling []) d s with
    | .done r => return .done r
    | .go s' => foldLeaves raw cursor l s'

theorem foldLeaves_append (raw : List Text) (cursor : Int) : ∀ (l l' : List LeafAt) (s : MatchScan),
    foldLeaves raw cursor (l ++ l') s = (do
      match ← foldLeaves raw cursor l s with
      | .done r => return .done r
      | .go s' => foldLeaves raw cursor l' s')
  | [], _, _ => rfl
  | (lo, hi, d) :: l, l', s => by
    rw [List.cons_append, foldLeaves, foldLeaves]
    cases matchLeaf raw cursor (.mk lo hi .sibling []) d s with
    | error e => rfl
    | ok r =>
      cases r with
      | done r => rfl
      | go s' => exact foldLeaves_append raw cursor l l' s'

theorem foldLeaves_go {raw : List Text} {cursor : Int} {l : List LeafAt} {s s' : MatchScan}
    (h : foldLeaves raw cursor l s = .ok (.go s')) (l' : List LeafAt) :
    foldLeaves raw cursor (l ++ l') s = foldLeaves raw cursor l' s' := by
  rw [foldLeaves_append, h]
  rfl

theorem foldLeaves_done {raw : List Text} {cursor : Int} {l : List LeafAt} {s : MatchScan} {r : Option Nat}
    (h : foldLeaves raw cursor l s = .ok (.done r)) (l' : List LeafAt) :
    foldLeaves raw cursor (l ++ l') s = .ok (.done r) := by
  rw [foldLeaves_append, h]
  rfl

/-- The depths at the children of a node are as expected. -/
def IncOk (raw : List Text) (types : List TokenType) (pair : PairChoice) (ch : Nat → Nat → Bool)
    (sibs : List PNode) : Prop :=
  ∀ c ∈ sibs, depthIncrement raw types pair sibs c = .ok (if c.ann = .middle then chosenInc ch sibs else 0)

section
variable {raw : List Text} {types : List TokenType} {pair : PairChoice} {ch : Nat → Nat → Bool} {cursor : Int}

mutual
theorem scan_leaves : ∀ (n : PNode) (d : Nat) (s : MatchScan),
    (∀ x, InTree x n → IncOk raw types pair ch x.children) →
    scanMatch raw types pair cursor n d s = foldLeaves raw cursor (leafDepths ch n d) s
  | .mk lo hi ann [], d, s, _ => by
    rw [scanMatch, leafDepths, foldLeaves]
    change matchLeaf raw cursor (.mk lo hi .sibling []) d s = _
    cases matchLeaf raw cursor (.mk lo hi .sibling []) d s with
    | error e => rfl
    | ok r => cases r <;> rfl
  | .mk lo hi ann (c :: cs), d, s, h => by
    rw [scanMatch, leafDepths]
    exact scanList_leaves (c :: cs) (c :: cs) d s (h _ .self) (fun _ => id) fun x hx => h x (.child hx)

theorem scanList_leaves : ∀ (sibs cs : List PNode) (d : Nat) (s : MatchScan),
    IncOk raw types pair ch sibs → (∀ c ∈ cs, c ∈ sibs) →
    (∀ x, InTrees x cs → IncOk raw types pair ch x.children) →
    scanMatchList raw types pair cursor sibs cs d s
      = foldLeaves raw cursor (leafDepthsList ch (chosenInc ch sibs) cs d) s
  | _, [], d, s, _, _, _ => by rw [scanMatchList, leafDepthsList, foldLeaves]
  | sibs, c :: cs, d, s, hi, hs, h => by
    rw [List.forall_mem_cons] at hs
    rw [scanMatchList, leafDepthsList, hi c hs.1, foldLeaves_append]
    dsimp only [bind, Except.bind]
    rw [scan_leaves c _ s fun x hx => h x (.here hx)]
    cases foldLeaves raw cursor (leafDepths ch c (d + if c.ann = .middle then chosenInc ch sibs else 0)) s with
    | error e => rfl
    | ok r =>
      cases r with
      | done r => rfl
      | go s' => exact scanList_leaves sibs cs d s' hi hs.2 fun x hx => h x (.there hx)
end

end

/-! ### Groups make no difference -/

/-- Inner parts of brackets only occur between a left and a right one. -/
def Shape (P : Nat → Nat → Prop) (x : PNode) : Prop :=
  (∃ c ∈ x.children, c.ann = .middle) → x.ann = .paired
    ∧ ∃ a m b, x.children = [a, m, b] ∧ a.ann = .left ∧ m.ann = .middle ∧ b.ann = .right ∧ P a.lo b.lo

theorem depths_any (ch : Nat → Nat → Bool) (k k' : Nat) (d : Nat) : ∀ cs : List PNode,
    (∀ c ∈ cs, c.ann ≠ .middle) → leafDepthsList ch k cs d = leafDepthsList ch k' cs d
  | [], _ => by rw [leafDepthsList, leafDepthsList]
  | c :: cs, h => by
    rw [List.forall_mem_cons] at h
    rw [leafDepthsList, leafDepthsList, depths_any ch k k' d cs h.2, if_neg h.1, if_neg h.1]

theorem leafDepths_inner (ch : Nat → Nat → Bool) (lo hi ann) {cs : List PNode} (h : cs ≠ []) (d : Nat) :
    leafDepths ch (.mk lo hi ann cs) d = leafDepthsList ch (chosenInc ch cs) cs d := by
  cases cs with
  | nil => exact absurd rfl h
  | cons c cs => rw [leafDepths]

mutual
theorem unsplitNode_ne : ∀ n : PNode, (∀ x, InTree x n → FlatTok x) → unsplitNode n ≠ []
  | .mk lo hi ann cs, h => by
    have ih := unsplitNodes_ne cs fun x hx => h x (.child hx)
    by_cases ha : ann = .split
    · subst ha
      rw [unsplitNode]
      exact ih ((h _ .self).2 rfl)
    · rw [unsplitNode.eq_2 _ _ _ _ ha]
      simp

theorem unsplitNodes_ne : ∀ cs : List PNode, (∀ x, InTrees x cs → FlatTok x) → cs ≠ [] → unsplitNodes cs ≠ []
  | [], _, h => absurd rfl h
  | c :: cs, h, _ => by
    rw [unsplitNodes]
    exact List.append_ne_nil_of_left_ne_nil (unsplitNode_ne c fun x hx => h x (.here hx)) _
end

mutual
theorem depths_unsplit {P : Nat → Nat → Prop} (ch : Nat → Nat → Bool) : ∀ (n : PNode) (k d : Nat),
    (∀ x, InTree x n → FlatTok x) → (∀ x, InTree x n → Shape P x) →
    leafDepthsList ch k (unsplitNode n) d = leafDepths ch n (d + if n.ann = .middle then k else 0)
  | .mk lo hi ann cs, k, d, hf, hs => by
    have ih := fun k d => depthsList_unsplit ch cs k d (fun x hx => hf x (.child hx)) fun x hx => hs x (.child hx)
    by_cases ha : ann = .split
    · subst ha
      have hne : cs ≠ [] := (hf _ .self).2 rfl
      rw [unsplitNode, ih, leafDepths_inner _ _ _ _ hne, if_neg (by simp [PNode.ann]), Nat.add_zero]
      refine depths_any _ _ _ _ _ fun c hc hm => ?_
      exact absurd ((hs _ .self) ⟨c, hc, hm⟩).1 (by simp [PNode.ann])
    · rw [unsplitNode.eq_2 _ _ _ _ ha, leafDepthsList, leafDepthsList, List.append_nil]
      change leafDepths ch (.mk lo hi ann (unsplitNodes cs)) (d + if ann = .middle then k else 0) = _
      change _ = leafDepths ch (.mk lo hi ann cs) (d + if ann = .middle then k else 0)
      by_cases hc : cs = []
      · subst hc
        rw [unsplitNodes]
      · rw [leafDepths_inner _ _ _ _ hc,
          leafDepths_inner _ _ _ _ (unsplitNodes_ne cs (fun x hx => hf x (.child hx)) hc), ih]
        by_cases hm : ∃ c ∈ cs, c.ann = .middle
        · obtain ⟨-, a, m, b, h1, h2, h3, h4, -⟩ := (hs _ .self) hm
          obtain rfl : cs = [a, m, b] := h1
          obtain ⟨al, ah, aa, ac⟩ := a
          obtain ⟨ml, mh, ma, mc⟩ := m
          obtain ⟨bl, bh, ba, bc⟩ := b
          cases h2
          cases h3
          cases h4
          congr 1
        · exact depths_any _ _ _ _ _ fun c hc hm' => hm ⟨c, hc, hm'⟩

theorem depthsList_unsplit {P : Nat → Nat → Prop} (ch : Nat → Nat → Bool) : ∀ (cs : List PNode) (k d : Nat),
    (∀ x, InTrees x cs → FlatTok x) → (∀ x, InTrees x cs → Shape P x) →
    leafDepthsList ch k (unsplitNodes cs) d = leafDepthsList ch k cs d
  | [], k, d, _, _ => by rw [unsplitNodes]
  | c :: cs, k, d, hf, hs => by
    have happ : ∀ l l' : List PNode, leafDepthsList ch k (l ++ l') d
        = leafDepthsList ch k l d ++ leafDepthsList ch k l' d := by
      intro l l'
      induction l with
      | nil => simp [leafDepthsList]
      | cons x l ih => rw [List.cons_append, leafDepthsList, leafDepthsList, ih, List.append_assoc]
    rw [unsplitNodes, happ, depths_unsplit ch c k d (fun x hx => hf x (.here hx)) fun x hx => hs x (.here hx),
      depthsList_unsplit ch cs k d (fun x hx => hf x (.there hx)) fun x hx => hs x (.there hx), leafDepthsList]
end

/-! ### The leaves of the tree of the brackets -/

/-- The number of chosen brackets around a token. -/
def depthAt (ch : Nat → Nat → Bool) (B : List (Nat × Nat)) (p : Nat) : Nat :=
  B.countP fun q => ch q.1 q.2 && decide (q.1 < p) && decide (p < q.2)

/-- The number of chosen brackets around the inside of empty brackets before a closer. -/
def depthIn (ch : Nat → Nat → Bool) (B : List (Nat × Nat)) (p : Nat) : Nat :=
  B.countP fun q => ch q.1 q.2 && decide (q.1 < p) && decide (p ≤ q.2)

/-- The leaves at a token: before the closer of empty brackets there is one more. -/
def leavesAt (ch : Nat → Nat → Bool) (B : List (Nat × Nat)) (d p : Nat) : List LeafAt :=
  (if ∃ q ∈ B, q.1 + 1 = p ∧ q.2 = p then [(p, some p, d + depthIn ch B p)] else [])
    ++ [(p, some (p + 1), d + depthAt ch B p)]

theorem leavesAt_congr {ch : Nat → Nat → Bool} {B B' : List (Nat × Nat)} {d d' p : Nat}
    (h1 : (∃ q ∈ B, q.1 + 1 = p ∧ q.2 = p) ↔ ∃ q ∈ B', q.1 + 1 = p ∧ q.2 = p)
    (h2 : (∃ q ∈ B, q.1 + 1 = p ∧ q.2 = p) → d + depthIn ch B p = d' + depthIn ch B' p)
    (h3 : d + depthAt ch B p = d' + depthAt ch B' p) : leavesAt ch B d p = leavesAt ch B' d' p := by
  unfold leavesAt
  rw [h3]
  congr 1
  by_cases h : ∃ q ∈ B, q.1 + 1 = p ∧ q.2 = p
  · rw [if_pos h, if_pos (h1.mp h), h2 h]
  · rw [if_neg h, if_neg (h1.not.mp h)]

theorem depthAt_append (ch : Nat → Nat → Bool) (B B' : List (Nat × Nat)) (p : Nat) :
    depthAt ch (B ++ B') p = depthAt ch B p + depthAt ch B' p := List.countP_append

theorem depthIn_append (ch : Nat → Nat → Bool) (B B' : List (Nat × Nat)) (p : Nat) :
    depthIn ch (B ++ B') p = depthIn ch B p + depthIn ch B' p := List.countP_append

theorem depthAt_zero {ch : Nat → Nat → Bool} {B : List (Nat × Nat)} {p : Nat}
    (h : ∀ q ∈ B, p ≤ q.1 ∨ q.2 ≤ p) : depthAt ch B p = 0 := by
  unfold depthAt
  rw [List.countP_eq_zero]
  intro q hq
  have := h q hq
  simp only [Bool.and_eq_true, decide_eq_true_eq, not_and]
  omega

theorem depthIn_zero {ch : Nat → Nat → Bool} {B : List (Nat × Nat)} {p : Nat}
    (h : ∀ q ∈ B, p ≤ q.1 ∨ q.2 < p) : depthIn ch B p = 0 := by
  unfold depthIn
  rw [List.countP_eq_zero]
  intro q hq
  have := h q hq
  simp only [Bool.and_eq_true, decide_eq_true_eq, not_and]
  omega

theorem flatMap_congr' {A B : Type} {f g : A → List B} : ∀ {l : List A}, (∀ a ∈ l, f a = g a) →
    l.flatMap f = l.flatMap g
  | [], _ => rfl
  | a :: l, h => by
    rw [List.forall_mem_cons] at h
    rw [List.flatMap_cons, List.flatMap_cons, h.1, flatMap_congr' h.2]

theorem leaves_forest {T : Type} {pairs : List (T × T)} (ch : Nat → Nat → Bool) {ctx : Option T} {i : Nat}
    {ts : List T} {ns : List PNode} (h : Forest pairs ctx i ts ns) : ∀ k d,
      leafDepthsList ch k ns d = (List.range' i ts.length).flatMap (leavesAt ch (bracketsAmong ns) d) := by
  have single : ∀ (i : Nat) (t : T) (ts : List T) (ns : List PNode),
      (∀ q ∈ bracketsAmong ns, i + 1 ≤ q.1 ∧ q.1 < q.2 ∧ q.2 < i + 1 + ts.length) →
      (∀ k d, leafDepthsList ch k ns d
        = (List.range' (i + 1) ts.length).flatMap (leavesAt ch (bracketsAmong ns) d)) →
      ∀ k d, leafDepthsList ch k (.mk i (some (i + 1)) .sibling [] :: ns) d
        = (List.range' i (t :: ts).length).flatMap
          (leavesAt ch (bracketsAmong (.mk i (some (i + 1)) .sibling [] :: ns)) d) := by
    intro i t ts ns hb ih k d
    rw [leafDepthsList, bracketsAmong, bracketsIn_leaf _ _ (by simp), List.nil_append, ih, List.length_cons,
      List.range'_succ, List.flatMap_cons, leafDepths]
    have hno : ¬ ∃ q ∈ bracketsAmong ns, q.1 + 1 = i ∧ q.2 = i := by
      rintro ⟨q, hq, h1, h2⟩
      have := hb q hq
      omega
    have h0 : depthAt ch (bracketsAmong ns) i = 0 := by
      refine depthAt_zero fun q hq => ?_
      have := hb q hq
      omega
    simp [leavesAt, hno, h0, PNode.ann]
  induction h with
  | nil => intro k d; rw [leafDepthsList]; rfl
  | plain _ h ih => exact single _ _ _ _ (pairs_bounds h) ih
  | stray _ _ h ih => exact single _ _ _ _ (pairs_bounds h) ih
  | @bracket ctx o c i j inner ts ns ms hm hj h1 h2 ih ih' =>
    intro k d
    have b1 := pairs_bounds h1
    have b2 := pairs_bounds h2
    have hns : ns = [] ↔ inner = [] := by cases h1 <;> simp
    rw [bracketsAmong, bracketsIn_pair]
    generalize hB : (i, j) :: bracketsAmong ns ++ bracketsAmong ms = B
    have hmem : ∀ q, q ∈ B ↔ q = (i, j) ∨ q ∈ bracketsAmong ns ∨ q ∈ bracketsAmong ms := by
      intro q
      rw [← hB]
      simp
    have hat : ∀ p, depthAt ch B p
        = depthAt ch [(i, j)] p + depthAt ch (bracketsAmong ns) p + depthAt ch (bracketsAmong ms) p := by
      intro p
      rw [← hB, ← depthAt_append, ← depthAt_append]
      rfl
    have hin : ∀ p, depthIn ch B p
        = depthIn ch [(i, j)] p + depthIn ch (bracketsAmong ns) p + depthIn ch (bracketsAmong ms) p := by
      intro p
      rw [← hB, ← depthIn_append, ← depthIn_append]
      rfl
    have hr : List.range' i (o :: (inner ++ c :: ts)).length
        = i :: (List.range' (i + 1) inner.length ++ j :: List.range' (j + 1) ts.length) := by
      rw [List.length_cons, List.length_append, List.length_cons, List.range'_succ, hj,
        ← List.range'_append_1, List.range'_succ]
    rw [hr, List.flatMap_cons, List.flatMap_append, List.flatMap_cons, leafDepthsList, leafDepths]
    simp only [leafDepthsList, PNode.ann, reduceCtorEq, if_false, if_true, Nat.add_zero, List.append_nil,
      chosenInc, PNode.lo]
    rw [leafDepths, leafDepths]
    -- the opener
    have e1 : leavesAt ch B d i = [(i, some (i + 1), d)] := by
      unfold leavesAt
      rw [if_neg, depthAt_zero]
      · rfl
      · intro q hq
        rcases (hmem q).mp hq with rfl | hq | hq
        · dsimp only; omega
        · have := b1 q hq; omega
        · have := b2 q hq; omega
      · rintro ⟨q, hq, k1, k2⟩
        rcases (hmem q).mp hq with rfl | hq | hq
        · dsimp only at k1; omega
        · have := b1 q hq; omega
        · have := b2 q hq; omega
    -- what is after the closer
    have e4 : leafDepthsList ch k ms d = (List.range' (j + 1) ts.length).flatMap (leavesAt ch B d) := by
      rw [ih']
      refine flatMap_congr' fun p hp => ?_
      rw [List.mem_range'_1] at hp
      refine leavesAt_congr ⟨?_, ?_⟩ ?_ ?_
      · exact fun ⟨q, hq, hq'⟩ => ⟨q, (hmem q).mpr (.inr (.inr hq)), hq'⟩
      · rintro ⟨q, hq, k1, k2⟩
        rcases (hmem q).mp hq with rfl | hq | hq
        · dsimp only at k1 k2; omega
        · have := b1 q hq; omega
        · exact ⟨q, hq, k1, k2⟩
      · intro _
        rw [hin, depthIn_zero (B := [(i, j)]), depthIn_zero (B := bracketsAmong ns)]
        · omega
        · intro q hq; have := b1 q hq; omega
        · intro q hq
          rw [List.mem_singleton] at hq
          subst hq
          dsimp only
          omega
      · rw [hat, depthAt_zero (B := [(i, j)]), depthAt_zero (B := bracketsAmong ns)]
        · omega
        · intro q hq; have := b1 q hq; omega
        · intro q hq
          rw [List.mem_singleton] at hq
          subst hq
          dsimp only
          omega
    have hself : ∀ p, i < p → p < j → depthAt ch [(i, j)] p = if ch i j then 1 else 0 := by
      intro p h3 h4
      simp [depthAt, h3, h4, List.countP_cons]
    have hselfI : ∀ p, i < p → p ≤ j → depthIn ch [(i, j)] p = if ch i j then 1 else 0 := by
      intro p h3 h4
      simp [depthIn, h3, h4, List.countP_cons]
    -- the inside and the closer
    have e2 : leafDepths ch (.mk (i + 1) (some j) .middle ns) (d + if ch i j then 1 else 0) ++ [(j, some (j + 1), d)]
        = (List.range' (i + 1) inner.length).flatMap (leavesAt ch B d) ++ leavesAt ch B d j := by
      have hj0 : depthAt ch B j = 0 := by
        refine depthAt_zero fun q hq => ?_
        rcases (hmem q).mp hq with rfl | hq | hq
        · exact .inr (Nat.le_refl _)
        · have := b1 q hq; omega
        · have := b2 q hq; omega
      by_cases hi : inner = []
      · subst hi
        rw [List.length_nil, Nat.add_zero] at hj
        obtain rfl := hns.mpr rfl
        subst hj
        have hyes : ∃ q ∈ B, q.1 + 1 = i + 1 ∧ q.2 = i + 1 := ⟨(i, i + 1), (hmem _).mpr (.inl rfl), rfl, rfl⟩
        have hz : depthIn ch (bracketsAmong ms) (i + 1) = 0 := by
          refine depthIn_zero fun q hq => ?_
          have := b2 q hq
          omega
        have hz' : depthIn ch (bracketsAmong []) (i + 1) = 0 := by simp [bracketsAmong, depthIn]
        have hd := hin (i + 1)
        rw [hselfI _ (by omega) (by omega), hz, hz', Nat.add_zero, Nat.add_zero] at hd
        unfold leavesAt
        rw [if_pos hyes, hj0, hd, leafDepths]
        simp
      · rw [leafDepths_inner _ _ _ _ (fun h => hi (hns.mp h)), ih]
        congr 1
        · refine flatMap_congr' fun p hp => ?_
          rw [List.mem_range'_1] at hp
          refine leavesAt_congr ⟨?_, ?_⟩ ?_ ?_
          · exact fun ⟨q, hq, hq'⟩ => ⟨q, (hmem q).mpr (.inr (.inl hq)), hq'⟩
          · rintro ⟨q, hq, k1, k2⟩
            rcases (hmem q).mp hq with rfl | hq | hq
            · dsimp only at k1 k2; omega
            · exact ⟨q, hq, k1, k2⟩
            · have := b2 q hq; omega
          · intro _
            rw [hin, hselfI _ (by omega) (by omega), depthIn_zero (B := bracketsAmong ms)]
            · omega
            · intro q hq; have := b2 q hq; omega
          · rw [hat, hself _ (by omega) (by omega), depthAt_zero (B := bracketsAmong ms)]
            · omega
            · intro q hq; have := b2 q hq; omega
        · unfold leavesAt
          rw [if_neg, hj0]
          · rfl
          · have hl : 0 < inner.length := List.length_pos_of_ne_nil hi
            rintro ⟨q, hq, k1, k2⟩
            rcases (hmem q).mp hq with rfl | hq | hq
            · dsimp only at k1 k2; omega
            · have := b1 q hq; omega
            · have := b2 q hq; omega
    rw [e1, e4, ← List.append_assoc _ (leavesAt ch B d j), ← e2]
    simp
    rfl

end RUSure.Lemmas
