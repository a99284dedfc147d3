import Verif.Lemmas.PrefixBaselines
import Verif.Lemmas.SelectionItems
import Verif.Lemmas.ConstraintFlat
import Verif.Lemmas.Runner
import Verif.Spec.UncertaintyBaselines

/-!
# The loops of the uncertainty region baselines find the uncertain tokens
-/

namespace RUSure.Lemmas
open RUSure RUSure.Spec
variable {M : Type}

/-- The indices of the nodes that are picked, given the nodes before them. -/
def pickScan (pick : List (Placed M) → Placed M → Bool) : List (Placed M) → List (Placed M) → List Nat
  | _, [] => []
  | l, x :: r => if pick l x then x.idx :: pickScan pick (l ++ [x]) r else pickScan pick (l ++ [x]) r

theorem pickScan_append (pick : List (Placed M) → Placed M → Bool) (a b : List (Placed M)) :
    ∀ l, pickScan pick l (a ++ b) = pickScan pick l a ++ pickScan pick (l ++ a) b := by
  induction a with
  | nil => intro l; simp [pickScan]
  | cons x a ih =>
    intro l
    rw [List.cons_append, pickScan, pickScan, ih]
    split <;> simp

theorem mem_pickScan {pick : List (Placed M) → Placed M → Bool} {i : Nat} (r : List (Placed M)) :
    ∀ l, i ∈ pickScan pick l r ↔ ∃ a x b, r = a ++ x :: b ∧ x.idx = i ∧ pick (l ++ a) x = true := by
  induction r with
  | nil => intro l; simp [pickScan]
  | cons y r ih =>
    intro l
    have hr : i ∈ pickScan pick (l ++ [y]) r ↔
        ∃ a x b, y :: r = (y :: a) ++ x :: b ∧ x.idx = i ∧ pick (l ++ (y :: a)) x = true := by
      rw [ih]
      simp
    have key : (∃ a x b, y :: r = a ++ x :: b ∧ x.idx = i ∧ pick (l ++ a) x = true)
        ↔ (y.idx = i ∧ pick l y = true) ∨ i ∈ pickScan pick (l ++ [y]) r := by
      rw [hr]
      constructor
      · rintro ⟨a, x, b, h1, h2, h3⟩
        cases a with
        | nil =>
          simp only [List.nil_append, List.cons.injEq] at h1
          obtain ⟨rfl, rfl⟩ := h1
          exact .inl ⟨h2, by simpa using h3⟩
        | cons z a =>
          simp only [List.cons_append, List.cons.injEq] at h1
          obtain ⟨rfl, rfl⟩ := h1
          exact .inr ⟨a, x, b, rfl, h2, h3⟩
      · rintro (⟨h1, h2⟩ | ⟨a, x, b, h1, h2, h3⟩)
        · exact ⟨[], y, r, rfl, h1, by simpa using h2⟩
        · exact ⟨y :: a, x, b, h1, h2, h3⟩
    rw [key, pickScan]
    by_cases hp : pick l y = true
    · rw [if_pos hp, List.mem_cons]
      simp [hp, eq_comm]
    · rw [if_neg hp]
      simp [hp]

theorem pickScan_sublist (pick : List (Placed M) → Placed M → Bool) (r : List (Placed M)) :
    ∀ l, (pickScan pick l r).Sublist (r.map Placed.idx) := by
  induction r with
  | nil => intro l; simp [pickScan]
  | cons y r ih =>
    intro l
    rw [pickScan, List.map_cons]
    split
    · exact (ih _).cons_cons _
    · exact (ih _).cons _

theorem placed_idx_nodup (proto : List (Node M)) : ((placed proto).map Placed.idx).Nodup := by
  unfold placed
  rw [List.map_map]
  have : (Placed.idx ∘ fun x : (Node M × List Nat × WalkTag) × Nat => (⟨x.2, x.1.2.1, x.1.1⟩ : Placed M))
      = Prod.snd := rfl
  rw [this, List.zipIdx_map_snd]
  exact List.nodup_range'

/-- Picking exactly the uncertain tokens. -/
theorem pickScan_uncertain {proto : List (Node M)} {aligned : List (Int × LogProb)} {exp : LogProb → ℚ}
    {b : UncertainBaseline} {pick : List (Placed M) → Placed M → Bool}
    (h : ∀ l x r, placed proto = l ++ x :: r → (pick l x = true ↔ Uncertain proto aligned exp b l x)) :
    UncertainTokens proto aligned exp b (pickScan pick [] (placed proto)) := by
  refine ⟨(pickScan_sublist pick _ _).nodup (placed_idx_nodup proto), fun i => ?_⟩
  rw [mem_pickScan]
  constructor
  · rintro ⟨l, x, r, h1, h2, h3⟩
    exact ⟨l, x, r, h1, h2, (h l x r h1).1 h3⟩
  · rintro ⟨l, x, r, h1, h2, h3⟩
    exact ⟨l, x, r, h1, h2, (h l x r h1).2 h3⟩

theorem isToken_word {x : Placed M} (h : x.isWord = true) : x.isToken = true := by
  unfold Placed.isWord at h
  unfold Placed.isToken
  split at h <;> simp_all

/-! ### Log probabilities -/

/-- The probability of the tokens up to one. -/
def tokensLogProb (aligned : List (Int × LogProb)) (l : List (Placed M)) : LogProb :=
  ((l.filter Placed.isToken).map (logProbOf aligned)).foldl (· + ·) 0

theorem tokensLogProb_snoc (aligned : List (Int × LogProb)) (l : List (Placed M)) (x : Placed M) :
    tokensLogProb aligned (l ++ [x])
      = if x.isToken then tokensLogProb aligned l + logProbOf aligned x else tokensLogProb aligned l := by
  unfold tokensLogProb
  rw [List.filter_append, List.filter_singleton]
  cases x.isToken <;> simp

/-- A token is low because of its own probability or that of the tokens up to it. -/
def tokenLow (aligned : List (Int × LogProb)) (exp : LogProb → ℚ) (threshold : ℚ) (cumulative : Bool)
    (l : List (Placed M)) (x : Placed M) : Bool :=
  x.isWord && decide (exp (if cumulative then tokensLogProb aligned (l ++ [x]) else logProbOf aligned x) < threshold)

/-- The aligned log probabilities of some nodes. -/
def probsOf (aligned : List (Int × LogProb)) (r : List (Placed M)) : List (Int × LogProb) :=
  (r.filter Placed.isToken).map fun x => ((x.idx : Int), logProbOf aligned x)

theorem lowProbLoop_eq {proto : List (Node M)} {aligned : List (Int × LogProb)} {exp : LogProb → ℚ}
    {threshold : ℚ} {cumulative : Bool} (r : List (Placed M)) :
    ∀ (l : List (Placed M)) (current : LogProb), placed proto = l ++ r →
    (cumulative = true → current = tokensLogProb aligned l) →
    lowProbLoop (pack proto) exp threshold true cumulative (probsOf aligned r) current
      = .ok (pickScan (tokenLow aligned exp threshold cumulative) l r) := by
  induction r with
  | nil => intro l current _ _; rfl
  | cons x r ih =>
    intro l current hp hcur
    have hp' : placed proto = (l ++ [x]) ++ r := by rw [hp]; simp
    by_cases ht : x.isToken = true
    · have hids := holdsAt_pack proto
      obtain ⟨id, h1, h2⟩ : ∃ id, pyGet (pack proto).preorder (x.idx : Int) = some id ∧ HoldsAt (pack proto) id x := by
        have hg : (placed proto)[x.idx]? = some x := by rw [placed_idx hp, hp]; simp
        have hlen := hids.length_eq
        have hlt : x.idx < (pack proto).preorder.length := by
          rw [hlen]
          exact (List.getElem?_eq_some_iff.1 hg).1
        refine ⟨(pack proto).preorder[x.idx], ?_, ?_⟩
        · rw [pyGet_ofNat, List.getElem?_eq_getElem hlt]
        · have := List.forall₂_iff_get.1 hids
          obtain ⟨-, hf⟩ := this
          have := hf x.idx hlt (by rw [← hlen]; exact hlt)
          rw [List.getElem?_eq_some_iff] at hg
          obtain ⟨_, hg⟩ := hg
          simp only [List.get_eq_getElem] at this
          rwa [hg] at this
      obtain ⟨-, -, c3, -, c5, -⟩ := stands_cat h2
      have hcat : id.cat = .tok := by
        by_contra hc
        have := c5 hc
        unfold Placed.isToken at ht
        split at ht
        · rename_i t mt hn; exact this t mt hn
        · cases ht
      obtain ⟨t, mt, hn, htt⟩ := c3 hcat
      have hw := isWord_tok hn
      have hcons : probsOf aligned (x :: r) = ((x.idx : Int), logProbOf aligned x) :: probsOf aligned r := by
        simp [probsOf, ht]
      rw [hcons, lowProbLoop.eq_def]
      dsimp only
      have hc' : (if cumulative = true then current + logProbOf aligned x else logProbOf aligned x)
          = if cumulative = true then tokensLogProb aligned (l ++ [x]) else logProbOf aligned x := by
        split
        · rename_i h
          rw [tokensLogProb_snoc, ht, hcur h]
          rfl
        · rfl
      rw [hc', pickScan]
      have hcur' : cumulative = true →
          (if cumulative = true then tokensLogProb aligned (l ++ [x]) else logProbOf aligned x)
            = tokensLogProb aligned (l ++ [x]) := fun h => by rw [if_pos h]
      have hpl : tokenLow aligned exp threshold cumulative l x = (x.isWord && decide (exp
          (if cumulative = true then tokensLogProb aligned (l ++ [x]) else logProbOf aligned x) < threshold)) := rfl
      rw [hpl]
      generalize (if cumulative = true then tokensLogProb aligned (l ++ [x]) else logProbOf aligned x) = cur
        at hcur'
      by_cases hlow : exp cur < threshold
      · rw [if_pos hlow, if_pos rfl, h1]
        dsimp only
        rw [if_pos hcat, htt, ok_bind_eq, ih (l ++ [x]) cur hp' hcur', ok_bind_eq, hw]
        by_cases h0 : t = []
        · simp [h0]
        · simp [h0, hlow]
      · rw [if_neg hlow, if_neg (by simp [hlow])]
        exact ih _ _ hp' hcur'
    · have hw : x.isWord = false := by
        by_contra h
        exact ht (isToken_word (by simpa using h))
      have hcons : probsOf aligned (x :: r) = probsOf aligned r := by simp [probsOf, ht]
      rw [hcons, pickScan, if_neg (by simp [tokenLow, hw])]
      refine ih _ _ hp' fun h => ?_
      rw [tokensLogProb_snoc, if_neg ht, hcur h]

theorem alignNodes_result [Add R] [Zero R] (ns : List (Node M)) (k : Nat)
    (st st' : List (Text × R)) (res res' : List (Int × R))
    (h : alignNodes k ns st res = some (st', res')) :
    ∃ more, res' = res ++ more
      ∧ more.map Prod.fst = ((ns.zipIdx k).filter fun x => match x.1 with | .tok _ _ => true | _ => false).map
        fun x => (x.2 : Int) := by
  induction ns generalizing k st res with
  | nil =>
    simp only [alignNodes, Option.some.injEq, Prod.mk.injEq] at h
    obtain ⟨-, rfl⟩ := h
    exact ⟨[], by simp, rfl⟩
  | cons n ns ih =>
    cases n with
    | tok t mt =>
      simp only [alignNodes] at h
      split at h
      · simp at h
      · rename_i lp st1 ha
        obtain ⟨more, h1, h2⟩ := ih (k + 1) st1 _ h
        refine ⟨((k : Int), lp) :: more, by rw [h1]; simp, ?_⟩
        rw [List.map_cons, h2, List.zipIdx_cons]
        simp
    | deco t =>
      simp only [alignNodes] at h
      split at h
      · simp at h
      · obtain ⟨more, h1, h2⟩ := ih (k + 1) _ _ h
        exact ⟨more, h1, by rw [h2, List.zipIdx_cons]; simp⟩
    | rstart => obtain ⟨more, h1, h2⟩ := ih (k + 1) _ _ (by simpa [alignNodes] using h); exact ⟨more, h1, by rw [h2, List.zipIdx_cons]; simp⟩
    | rend => obtain ⟨more, h1, h2⟩ := ih (k + 1) _ _ (by simpa [alignNodes] using h); exact ⟨more, h1, by rw [h2, List.zipIdx_cons]; simp⟩
    | exit => obtain ⟨more, h1, h2⟩ := ih (k + 1) _ _ (by simpa [alignNodes] using h); exact ⟨more, h1, by rw [h2, List.zipIdx_cons]; simp⟩
    | group cs mt => obtain ⟨more, h1, h2⟩ := ih (k + 1) _ _ (by simpa [alignNodes] using h); exact ⟨more, h1, by rw [h2, List.zipIdx_cons]; simp⟩

theorem nodup_lookup_self {A B : Type} [BEq A] [LawfulBEq A] (l : List (A × B)) (d : B) (h : (l.map Prod.fst).Nodup) :
    l = (l.map Prod.fst).map fun a => (a, (l.lookup a).getD d) := by
  rw [List.map_map]
  conv_lhs => rw [← List.map_id l]
  refine List.map_congr_left fun x hx => ?_
  have : l.lookup x.1 = some x.2 := by
    induction l with
    | nil => simp at hx
    | cons y l ih =>
      rw [List.map_cons, List.nodup_cons] at h
      rcases List.mem_cons.1 hx with rfl | hx
      · simp [List.lookup]
      · have hne : x.1 ≠ y.1 := fun he => h.1 (he ▸ List.mem_map_of_mem hx)
        rw [List.lookup_cons, show (x.1 == y.1) = false by simpa using hne]
        exact ih h.2 hx
  simp [this]

/-- The aligned log probabilities are those of the tokens, in order. -/
theorem aligned_probs {tokens : List (Text × LogProb)} {proto : List (Node M)} {all : Bool}
    {aligned : List (Int × LogProb)} (h : alignTokenLogProbs tokens (pack proto) all = some aligned) :
    aligned = probsOf aligned (placed proto) := by
  have hkeys : aligned.map Prod.fst = ((placed proto).filter Placed.isToken).map fun x => (x.idx : Int) := by
    simp only [alignTokenLogProbs, alignLoop_pack] at h
    split at h
    · simp at h
    · rename_i st' res' ha
      split at h
      · simp at h
      · simp only [Option.some.injEq] at h
        subst h
        obtain ⟨more, h1, h2⟩ := alignNodes_result _ _ _ _ _ _ ha
        rw [h1, List.nil_append, h2]
        unfold docNodes placed
        rw [List.zipIdx_map, List.filter_map, List.map_map, List.filter_map, List.map_map]
        rfl
  have hnd : (aligned.map Prod.fst).Nodup := by
    rw [hkeys, show (fun x : Placed M => (x.idx : Int)) = (Int.ofNat ∘ Placed.idx) from rfl, ← List.map_map]
    refine List.Nodup.map Int.ofNat_injective ?_
    exact ((List.filter_sublist).map _).nodup (placed_idx_nodup proto)
  have := nodup_lookup_self aligned (0 : LogProb) hnd
  rw [hkeys, List.map_map] at this
  exact this

/-! ### Characters -/

/-- The text of some nodes. -/
def textOf (l : List (Placed M)) : Text := l.flatMap fun x => leafText x.node

theorem textOf_snoc (l : List (Placed M)) (x : Placed M) : textOf (l ++ [x]) = textOf l ++ leafText x.node := by
  simp [textOf]

theorem textOf_placed (proto : List (Node M)) : textOf (placed proto) = text proto := by
  rw [← placed_leafText]
  unfold textOf
  congr 1
  funext x
  unfold Placed.text
  cases x.node <;> rfl

/-- A word that ends after an offset. -/
def offsetLow (offset : ℚ) (l : List (Placed M)) (x : Placed M) : Bool :=
  x.isWord && decide (offset < (((textOf (l ++ [x])).length : Nat) : ℚ))

theorem leafText_other {n : Node M} (h1 : ∀ t mt, n ≠ .tok t mt) (h2 : ∀ t, n ≠ .deco t) : leafText n = [] := by
  cases n with
  | tok t mt => exact absurd rfl (h1 t mt)
  | deco t => exact absurd rfl (h2 t)
  | _ => rfl

theorem lowOffsetLoop_eq {S : Storage M} (offset : ℚ) {ids : List NodeId} {r : List (Placed M)}
    (h : List.Forall₂ (HoldsAt S) ids r) : ∀ l : List (Placed M),
    lowOffsetLoop S offset ids (textOf l).length = .ok (pickScan (offsetLow offset) l r) := by
  induction h with
  | nil => intro l; rfl
  | @cons id x ids r hx _ ih =>
    intro l
    obtain ⟨-, -, c3, c4, c5, c6⟩ := stands_cat hx
    have ih := ih (l ++ [x])
    rw [textOf_snoc, List.length_append] at ih
    rw [lowOffsetLoop.eq_def, pickScan]
    dsimp only
    by_cases ht : id.cat = .tok
    · obtain ⟨t, mt, hn, htt⟩ := c3 ht
      rw [hn] at ih
      rw [if_pos ht, htt, ok_bind_eq]
      have ih : lowOffsetLoop S offset ids ((textOf l).length + t.length) = _ := ih
      rw [ih, ok_bind_eq]
      have hp : offsetLow offset l x = true ↔ t ≠ [] ∧ offset < (((textOf l).length + t.length : Nat) : ℚ) := by
        unfold offsetLow
        rw [isWord_tok hn, textOf_snoc, hn]
        simp [leafText]
      have hi : id.preorder.toNat = x.idx := by rw [hx.1]; rfl
      by_cases hq : t ≠ [] ∧ offset < (((textOf l).length + t.length : Nat) : ℚ)
      · rw [if_pos hq, if_pos (hp.2 hq), hi]
      · rw [if_neg hq, if_neg (fun h => hq (hp.1 h))]
    · have hw := isWord_other (c5 ht)
      have hno : ¬ offsetLow offset l x = true := by simp [offsetLow, hw]
      rw [if_neg ht, if_neg hno]
      by_cases hd : id.cat = .deco
      · obtain ⟨t, hn, htt⟩ := c4 hd
        rw [hn] at ih
        rw [if_pos hd, htt, ok_bind_eq]
        exact ih
      · rw [leafText_other (c5 ht) (c6 hd)] at ih
        rw [if_neg hd]
        exact ih

theorem sizeLoop_eq {S : Storage M} {ids : List NodeId} {r : List (Placed M)}
    (h : List.Forall₂ (HoldsAt S) ids r) : ∀ n : Nat, sizeLoop S ids n = .ok (n + (textOf r).length) := by
  induction h with
  | nil => intro l; rfl
  | @cons id x ids r hx _ ih =>
    intro n
    obtain ⟨-, -, c3, c4, c5, c6⟩ := stands_cat hx
    have hcons : (textOf (x :: r)).length = (leafText x.node).length + (textOf r).length := by simp [textOf]
    rw [sizeLoop.eq_def, hcons, ← Nat.add_assoc]
    dsimp only
    by_cases ht : id.cat = .tok
    · obtain ⟨t, mt, hn, htt⟩ := c3 ht
      rw [if_pos ht, htt, ok_bind_eq, hn]
      exact ih _
    · rw [if_neg ht]
      by_cases hd : id.cat = .deco
      · obtain ⟨t, hn, htt⟩ := c4 hd
        rw [if_pos hd, htt, ok_bind_eq, hn]
        exact ih _
      · rw [if_neg hd, leafText_other (c5 ht) (c6 hd)]
        exact ih _

/-! ### Depths -/

/-- A token whose depth differs from that of the first. -/
def depthLow (ancestor child : Int) (l : List (Placed M)) (x : Placed M) : Bool :=
  x.isToken && match l.find? Placed.isToken with
    | none => false
    | some y => decide ((x.path.length : Int) - y.path.length ≤ -ancestor
        ∨ child ≤ (x.path.length : Int) - y.path.length)

/-- The loop over the items that are read. -/
def depthItems (ancestor child : Int) : List (SelItem M) → Int → Option Int → List Nat
  | [], _, _ => []
  | .opens _ _ :: its, depth, first => depthItems ancestor child its (depth + 1) first
  | .closes _ _ :: its, depth, first => depthItems ancestor child its (depth - 1) first
  | .tok i _ _ :: its, depth, first =>
    match first with
    | none => depthItems ancestor child its depth (some depth)
    | some f =>
      if depth ≤ f - ancestor ∨ depth ≥ f + child then i :: depthItems ancestor child its depth first
      else depthItems ancestor child its depth first
  | _ :: its, depth, first => depthItems ancestor child its depth first

theorem lowDepthLoop_items {S : Storage M} {ancestor child : Int} (its : List TravItem) :
    ∀ (sis : List (SelItem M)) (depth : Int) (first : Option Int), mapOpt (selItem S) its = some sis →
    lowDepthLoop ancestor child its depth first = depthItems ancestor child sis depth first := by
  induction its with
  | nil =>
    intro sis depth first h
    simp only [mapOpt, Option.some.injEq] at h
    subst h
    rfl
  | cons it its ih =>
    intro sis depth first h
    simp only [mapOpt] at h
    cases hs : selItem S it with
    | none => rw [hs] at h; cases h
    | some s =>
      rw [hs] at h
      cases hm : mapOpt (selItem S) its with
      | none => rw [hm] at h; cases h
      | some ss =>
        rw [hm] at h
        simp only [Option.some.injEq] at h
        subst h
        have ih := fun d f => ih ss d f hm
        obtain ⟨c, id⟩ := it
        obtain ⟨pre, cat, ix⟩ := id
        unfold selItem at hs
        cases cat <;> cases c <;>
          simp only [Option.map_eq_some_iff, Option.some.injEq, reduceCtorEq] at hs
        all_goals first
          | (obtain ⟨_, _, rfl⟩ := hs)
          | subst hs
        all_goals simp [lowDepthLoop, depthItems, ih]
        all_goals (try cases first <;> rfl)

theorem find?_snoc_token (l : List (Placed M)) (x : Placed M) : (l ++ [x]).find? Placed.isToken
    = (l.find? Placed.isToken).or (if x.isToken then some x else none) := by
  rw [List.find?_append]
  cases h : x.isToken <;> simp [List.find?, h]

/-- The depth of the first token. -/
def firstDepth (l : List (Placed M)) : Option Int :=
  (l.find? Placed.isToken).map fun y => (y.path.length : Int) - 1

theorem firstDepth_snoc_other {x : Placed M} (h : x.isToken = false) (l : List (Placed M)) :
    firstDepth (l ++ [x]) = firstDepth l := by
  unfold firstDepth
  rw [find?_snoc_token, h]
  simp

theorem depthItems_scan (ancestor child : Int) :
    (∀ (n : Node M) (ns : List (Node M)) (pp : List Nat) (c i : Nat) (l : List (Placed M))
      (rest : List (SelItem M)) ,
      (∀ l', depthItems ancestor child (items (i + nodeSize n) ns ++ rest) pp.length (firstDepth l')
        = pickScan (depthLow ancestor child) l' (pl pp (c + 1) (i + nodeSize n) ns)
          ++ depthItems ancestor child rest pp.length (firstDepth (l' ++ pl pp (c + 1) (i + nodeSize n) ns))) →
      depthItems ancestor child (items i (n :: ns) ++ rest) pp.length (firstDepth l)
        = pickScan (depthLow ancestor child) l (pl pp c i (n :: ns))
          ++ depthItems ancestor child rest pp.length (firstDepth (l ++ pl pp c i (n :: ns))))
    ∧ (∀ (ns : List (Node M)) (pp : List Nat) (c i : Nat) (l : List (Placed M)) (rest : List (SelItem M)),
      depthItems ancestor child (items i ns ++ rest) pp.length (firstDepth l)
        = pickScan (depthLow ancestor child) l (pl pp c i ns)
          ++ depthItems ancestor child rest pp.length (firstDepth (l ++ pl pp c i ns))) := by
  apply Node.induct
  case hnil => intro pp c i l rest; simp [items, pl_nil, pickScan]
  case hcons =>
    intro n ns h1 h2 pp c i l rest
    exact h1 ns pp c i l rest fun l' => h2 pp (c + 1) (i + nodeSize n) l' rest
  case hg =>
    intro cs mt ih ns pp c i l rest h
    have hx : (⟨i, pp ++ [c], .group cs mt⟩ : Placed M).isToken = false := rfl
    rw [pl_cons, pickScan, if_neg (by simp [depthLow, hx])]
    simp only [items, List.cons_append, List.append_assoc, depthItems, below]
    have e1 : ((pp.length : Nat) : Int) + 1 = (((pp ++ [c]).length : Nat) : Int) := by simp
    rw [e1, ← firstDepth_snoc_other hx l, ih (pp ++ [c]) 0 (i + 1)]
    simp only [depthItems]
    have e2 : (((pp ++ [c]).length : Nat) : Int) - 1 = ((pp.length : Nat) : Int) := by simp
    have hsz : i + 1 + seqSize cs = i + nodeSize (.group cs mt) := by simp [nodeSize]; omega
    rw [e2, hsz, h, pickScan_append]
    simp
  case htok =>
    intro t mt ns pp c i l rest h
    have hsz : i + nodeSize (.tok t mt : Node M) = i + 1 := rfl
    rw [hsz] at h
    rw [pl_cons, hsz, pickScan]
    simp only [items, List.cons_append, depthItems, below, List.nil_append]
    have hfd : firstDepth (l ++ [⟨i, pp ++ [c], .tok t mt⟩])
        = (firstDepth l).or (some (pp.length : Int)) := by
      unfold firstDepth
      rw [find?_snoc_token]
      cases l.find? Placed.isToken <;> simp [Placed.isToken]
    have hl : l ++ ⟨i, pp ++ [c], .tok t mt⟩ :: pl pp (c + 1) (i + 1) ns
        = (l ++ [⟨i, pp ++ [c], .tok t mt⟩]) ++ pl pp (c + 1) (i + 1) ns := by simp
    rw [hl]
    have h := h (l ++ [⟨i, pp ++ [c], .tok t mt⟩])
    rw [hfd] at h
    have hlow : depthLow ancestor child l ⟨i, pp ++ [c], .tok t mt⟩ = true
        ↔ ∃ f, firstDepth l = some f ∧ ((pp.length : Int) ≤ f - ancestor ∨ (pp.length : Int) ≥ f + child) := by
      unfold depthLow firstDepth
      cases hf : l.find? Placed.isToken with
      | none => simp
      | some y =>
        simp only [Placed.isToken, Bool.true_and, decide_eq_true_eq, Option.map_some, Option.some.injEq,
          exists_eq_left', List.length_append, List.length_singleton]
        push_cast
        constructor <;> (intro h; omega)
    cases hf : firstDepth l with
    | none =>
      rw [if_neg (fun hc => by obtain ⟨f, h1, -⟩ := hlow.1 hc; rw [hf] at h1; cases h1)]
      rw [hf] at h
      exact h
    | some f =>
      rw [hf] at h
      simp only [Option.some_or] at h
      by_cases hc : (pp.length : Int) ≤ f - ancestor ∨ (pp.length : Int) ≥ f + child
      · rw [if_pos (hlow.2 ⟨f, hf, hc⟩)]
        simp only [hc, if_true, h, List.cons_append]
      · rw [if_neg (fun h => by
          obtain ⟨f', h1, h2⟩ := hlow.1 h
          rw [hf] at h1
          cases h1
          exact hc h2)]
        simp only [hc, if_false, h]
  case hdeco =>
    intro t ns pp c i l rest h
    have hx : (⟨i, pp ++ [c], .deco t⟩ : Placed M).isToken = false := rfl
    rw [pl_cons, pickScan, if_neg (by simp [depthLow, hx])]
    simp only [items, below, List.nil_append]
    rw [← firstDepth_snoc_other hx l]
    have := h (l ++ [⟨i, pp ++ [c], .deco t⟩])
    simpa [nodeSize] using this
  case hs =>
    intro ns pp c i l rest h
    have hx : (⟨i, pp ++ [c], .rstart⟩ : Placed M).isToken = false := rfl
    rw [pl_cons, pickScan, if_neg (by simp [depthLow, hx])]
    simp only [items, below, List.nil_append, List.cons_append, depthItems]
    rw [← firstDepth_snoc_other hx l]
    have := h (l ++ [⟨i, pp ++ [c], .rstart⟩])
    simpa [nodeSize] using this
  case he =>
    intro ns pp c i l rest h
    have hx : (⟨i, pp ++ [c], .rend⟩ : Placed M).isToken = false := rfl
    rw [pl_cons, pickScan, if_neg (by simp [depthLow, hx])]
    simp only [items, below, List.nil_append, List.cons_append, depthItems]
    rw [← firstDepth_snoc_other hx l]
    have := h (l ++ [⟨i, pp ++ [c], .rend⟩])
    simpa [nodeSize] using this
  case hx =>
    intro ns pp c i l rest h
    have hx : (⟨i, pp ++ [c], .exit⟩ : Placed M).isToken = false := rfl
    rw [pl_cons, pickScan, if_neg (by simp [depthLow, hx])]
    simp only [items, below, List.nil_append, List.cons_append, depthItems]
    rw [← firstDepth_snoc_other hx l]
    have := h (l ++ [⟨i, pp ++ [c], .exit⟩])
    simpa [nodeSize] using this

/-! ### All baselines -/

/-- Every baseline finds its uncertain tokens; cutoffs must be positive. -/
theorem lowIndices_ok {tokens : List (Text × LogProb)} {proto : List (Node M)} {all : Bool}
    {aligned : List (Int × LogProb)} (h : alignTokenLogProbs tokens (pack proto) all = some aligned)
    (exp : LogProb → ℚ) (b : UncertainBaseline)
    (hb : ∀ ancestor child, b = .cutoff ancestor child → 1 ≤ ancestor ∧ 1 ≤ child) :
    ∃ low, lowIndices (pack proto) aligned exp b = .ok low ∧ UncertainTokens proto aligned exp b low := by
  cases b with
  | nonempty p =>
    have := lowProbLoop_eq (proto := proto) (aligned := aligned) (exp := exp) (threshold := p)
      (cumulative := false) (placed proto) [] 0 rfl (by simp)
    rw [← aligned_probs h] at this
    refine ⟨_, this, pickScan_uncertain fun l x r _ => ?_⟩
    simp [tokenLow, Uncertain]
  | cumulative p =>
    have := lowProbLoop_eq (proto := proto) (aligned := aligned) (exp := exp) (threshold := p)
      (cumulative := true) (placed proto) [] 0 rfl (fun _ => rfl)
    rw [← aligned_probs h] at this
    refine ⟨_, this, pickScan_uncertain fun l x r _ => ?_⟩
    simp [tokenLow, Uncertain, tokensLogProb]
  | fraction f =>
    have hs := sizeLoop_eq (holdsAt_pack proto) 0
    have ho := lowOffsetLoop_eq (f * ((text proto).length : ℚ)) (holdsAt_pack proto) []
    refine ⟨_, ?_, pickScan_uncertain (pick := offsetLow (f * ((text proto).length : ℚ))) fun l x r _ => ?_⟩
    · unfold lowIndices
      dsimp only
      rw [hs, ok_bind_eq, textOf_placed, Nat.zero_add]
      exact ho
    · simp [offsetLow, Uncertain, textOf]
  | cutoff ancestor child =>
    obtain ⟨h1, h2⟩ := hb _ _ rfl
    have hs := selItems_pack proto
    unfold selItems at hs
    cases ht : (pack proto).inOrderTraversal true with
    | none => rw [ht] at hs; cases hs
    | some its =>
      rw [ht] at hs
      refine ⟨_, ?_, pickScan_uncertain (pick := depthLow ancestor child) fun l x r _ => ?_⟩
      · unfold lowIndices
        dsimp only
        rw [if_neg (by omega), if_neg (by omega), ht]
        simp only
        rw [lowDepthLoop_items its _ _ _ hs]
        have := (depthItems_scan (M := M) ancestor child).2 proto [] 0 0 [] []
        simp only [List.append_nil, depthItems] at this
        rw [placed_eq]
        exact congrArg _ this
      · unfold depthLow Uncertain
        cases hf : l.find? Placed.isToken <;> simp [hf]

end RUSure.Lemmas
