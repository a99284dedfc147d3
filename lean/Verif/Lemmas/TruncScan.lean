import Verif.Lemmas.TruncShape
import Verif.Spec.Truncation
import Mathlib.Data.Finset.Max

/-!
# The search for the end of the innermost block
-/

namespace RUSure.Lemmas
open RUSure RUSure.Spec

theorem startOf_succ {raw : List Text} {p : Nat} {t : Text} (h : raw[p]? = some t) :
    startOf raw (p + 1) = startOf raw p + t.length := by
  unfold startOf
  rw [List.take_add_one, h]
  simp

theorem startOf_mono (raw : List Text) {p q : Nat} (h : p ≤ q) : startOf raw p ≤ startOf raw q := by
  unfold startOf
  rw [← List.take_append_drop p (raw.take q), List.take_take, Nat.min_eq_left h]
  simp

theorem startOf_all (raw : List Text) {k : Nat} (h : raw.length ≤ k) : startOf raw k = raw.flatten.length := by
  unfold startOf
  rw [List.take_of_length_le h]

theorem startOf_le (raw : List Text) (k : Nat) : startOf raw k ≤ raw.flatten.length := by
  rw [← startOf_all raw (Nat.le_max_left raw.length k)]
  exact startOf_mono raw (Nat.le_max_right _ _)

theorem cursor_lt {raw : List Text} {cursor j : Nat} (h : CursorAt raw cursor j) : j < raw.length := by
  rcases Nat.lt_or_ge j raw.length with hj | hj
  · exact hj
  · have h1 := h.1
    have h2 := h.2
    rw [startOf_all raw hj] at h1
    rw [startOf_all raw (by omega)] at h2
    omega

section leaf
variable {raw : List Text} {cursor : Int}

theorem matchLeaf_token {p d ci : Nat} {c : Option Nat} {f : Bool} (hp : p < raw.length)
    (h0 : ¬ (cursor < startOf raw p ∧ c = none)) (hc : ci = startOf raw p) :
    matchLeaf raw cursor (.mk p (some (p + 1)) .sibling []) d ⟨ci, c, f⟩
      = .ok (if f then .done (some (startOf raw (p + 1))) else .go ⟨startOf raw (p + 1), c, c == some (d + 1)⟩) := by
  subst hc
  have ht : raw[p]? = some raw[p] := List.getElem?_eq_getElem hp
  have hi : indexAfter raw (.mk p (some (p + 1)) .sibling []) (startOf raw p) = .ok (startOf raw (p + 1)) := by
    unfold indexAfter
    rw [if_neg (by simp [PNode.hi, PNode.lo])]
    simp only [PNode.lo, tokenAt, ht]
    rw [startOf_succ ht]
    rfl
  unfold matchLeaf
  dsimp only
  rw [if_neg (fun h => h0 h.1), hi, if_neg h0]
  cases f <;> rfl

theorem matchLeaf_inside {p d ci : Nat} {c : Option Nat} (h0 : ¬ (cursor < ci ∧ c = none)) :
    matchLeaf raw cursor (.mk p (some p) .sibling []) d ⟨ci, c, false⟩ = .ok (.go ⟨ci, c, c == some (d + 1)⟩) := by
  have hi : indexAfter raw (.mk p (some p) .sibling []) ci = .ok ci := by
    unfold indexAfter
    rw [if_pos (by simp [PNode.hi, PNode.lo])]
  unfold matchLeaf
  dsimp only
  rw [if_neg (fun h => h0 h.1), if_neg h0, hi]
  rfl

theorem matchLeaf_zero {n : PNode} {ci : Nat} (h : cursor < ci) (f : Bool) :
    matchLeaf raw cursor n 0 ⟨ci, none, f⟩ = .ok (.done none) := by
  unfold matchLeaf
  dsimp only
  rw [if_pos ⟨⟨h, rfl⟩, rfl⟩]

/-- At the cursor, if there are brackets around. -/
theorem matchLeaf_found {n : PNode} {d ci : Nat} (h : cursor < ci) (hd : d ≠ 0) :
    matchLeaf raw cursor n d ⟨ci, none, false⟩ = matchLeaf raw cursor n d ⟨ci, some d, false⟩ := by
  unfold matchLeaf
  dsimp only
  simp [h, hd]

theorem foldLeaves_one {lo d : Nat} {hi : Option Nat} {s : MatchScan} {r : Flow MatchScan (Option Nat)}
    (h : matchLeaf raw cursor (.mk lo hi .sibling []) d s = .ok r) :
    foldLeaves raw cursor [(lo, hi, d)] s = .ok r := by
  rw [foldLeaves, h]
  cases r <;> rfl

theorem foldLeaves_range {c : Option Nat} (f : Nat → List LeafAt) : ∀ n a,
    (∀ p, a ≤ p → p < a + n → foldLeaves raw cursor (f p) ⟨startOf raw p, c, false⟩
      = .ok (.go ⟨startOf raw (p + 1), c, false⟩)) →
    foldLeaves raw cursor ((List.range' a n).flatMap f) ⟨startOf raw a, c, false⟩
      = .ok (.go ⟨startOf raw (a + n), c, false⟩)
  | 0, a, _ => by rw [List.range'_zero]; rfl
  | n + 1, a, h => by
    rw [List.range'_succ, List.flatMap_cons, foldLeaves_go (h a (Nat.le_refl _) (by omega)),
      foldLeaves_range f n (a + 1) fun p h1 h2 => h p (by omega) (by omega)]
    congr 4
    omega

end leaf

theorem countP_one_more {A : Type} {f g : A → Bool} {B : List A} {x : A} (hn : B.Nodup) (hx : x ∈ B)
    (hf : f x = true) (hg : g x = false) (h : ∀ y ∈ B, y ≠ x → f y = g y) : B.countP f = B.countP g + 1 := by
  induction B with
  | nil => cases hx
  | cons y B ih =>
    rw [List.nodup_cons] at hn
    rw [List.countP_cons, List.countP_cons]
    rcases List.mem_cons.mp hx with rfl | hx
    · have : B.countP f = B.countP g := by
        refine List.countP_congr fun z hz => ?_
        rw [h z (.tail _ hz) (fun e => hn.1 (e ▸ hz))]
      rw [this, hf, hg]
      simp
    · rw [ih hn.2 hx fun z hz => h z (.tail _ hz), h y (.head _) fun e => hn.1 (e ▸ hx)]
      omega

theorem countP_more {A : Type} {f g : A → Bool} {B : List A} {x : A} (hx : x ∈ B)
    (hf : f x = true) (hg : g x = false) (h : ∀ y ∈ B, g y = true → f y = true) :
    B.countP g + 1 ≤ B.countP f := by
  induction B with
  | nil => cases hx
  | cons y B ih =>
    rw [List.countP_cons, List.countP_cons]
    rcases List.mem_cons.mp hx with rfl | hx
    · have : B.countP g ≤ B.countP f := List.countP_mono_left fun z hz => h z (.tail _ hz)
      rw [hf, hg]
      simp
      omega
    · have h1 := ih hx fun z hz => h z (.tail _ hz)
      have h2 := h y (.head _)
      cases hy : g y
      · simp
        omega
      · rw [h2 hy]
        simp
        omega

section scan
variable {raw : List Text} {cursor j : Nat} {ch : Nat → Nat → Bool} {B : List (Nat × Nat)}

/-- The innermost of the brackets around. -/
theorem innermost (h : ∃ q ∈ B, ch q.1 q.2 = true ∧ Surrounds q.1 q.2 j) :
    ∃ q ∈ B, (ch q.1 q.2 = true ∧ Surrounds q.1 q.2 j)
      ∧ ∀ q' ∈ B, ch q'.1 q'.2 = true → Surrounds q'.1 q'.2 j → q'.1 ≤ q.1 := by
  classical
  obtain ⟨q0, hq0, hc0⟩ := h
  obtain ⟨q, hq, hmax⟩ := Finset.exists_max_image
    (B.toFinset.filter fun q => ch q.1 q.2 = true ∧ Surrounds q.1 q.2 j) Prod.fst
    ⟨q0, by simp [hq0, hc0]⟩
  simp only [Finset.mem_filter, List.mem_toFinset] at hq hmax
  exact ⟨q, hq.1, hq.2, fun q' h1 h2 h3 => hmax q' ⟨h1, h2, h3⟩⟩

theorem scan_blocks (hB : ∀ q ∈ B, q.1 < q.2 ∧ q.2 < raw.length) (hL : ∀ p ∈ B, ∀ q ∈ B, Laminar p q)
    (hn : B.Nodup) (hj : CursorAt raw cursor j) :
    ∃ F, foldLeaves raw (cursor : Int) ((List.range' 0 raw.length).flatMap (leavesAt ch B 0)) ⟨0, none, false⟩ = .ok F
      ∧ ∀ i, (match F with | .done r => r | .go _ => none) = some i
        ↔ ∃ hi, BlockEnd (fun lo hi => (lo, hi) ∈ B ∧ ch lo hi = true) j hi ∧ hi + 1 < raw.length
          ∧ i = startOf raw (hi + 2) := by
  have hjl := cursor_lt hj
  obtain ⟨hj1, hj2⟩ := hj
  have hcur : (cursor : Int) < (startOf raw (j + 1) : Nat) := by omega
  -- up to the cursor
  have ph1 : foldLeaves raw (cursor : Int) ((List.range' 0 (j + 1)).flatMap (leavesAt ch B 0)) ⟨0, none, false⟩
      = .ok (.go ⟨startOf raw (j + 1), none, false⟩) := by
    have := foldLeaves_range (raw := raw) (cursor := (cursor : Int)) (c := none) (leavesAt ch B 0) (j + 1) 0 ?_
    · rw [Nat.zero_add] at this
      exact this
    · intro p _ hp
      have hle := startOf_mono raw (show p ≤ j by omega)
      have h0 : ¬ ((cursor : Int) < (startOf raw p : Nat) ∧ (none : Option Nat) = none) := by
        rintro ⟨h, -⟩
        omega
      unfold leavesAt
      split
      · rw [foldLeaves_go (foldLeaves_one (matchLeaf_inside h0))]
        exact foldLeaves_one (matchLeaf_token (by omega) h0 rfl)
      · rw [List.nil_append]
        exact foldLeaves_one (matchLeaf_token (by omega) h0 rfl)
  have hsplit : List.range' 0 raw.length = List.range' 0 (j + 1) ++ List.range' (j + 1) (raw.length - (j + 1)) := by
    rw [show raw.length = j + 1 + (raw.length - (j + 1)) by omega, ← List.range'_append_1]
    simp
  rw [hsplit, List.flatMap_append, foldLeaves_go ph1]
  -- empty brackets after the token
  have hempty : (∃ q ∈ B, q.1 + 1 = j + 1 ∧ q.2 = j + 1) → (j, j + 1) ∈ B := by
    rintro ⟨⟨a, b⟩, hq, h1, h2⟩
    dsimp only at h1 h2
    obtain rfl : a = j := by omega
    rw [← h2]
    exact hq
  have hends : ∀ q ∈ B, (j, j + 1) ∈ B → q.1 ≤ j → j + 1 ≤ q.2 → Surrounds q.1 q.2 j := by
    intro q hq he h1 h2
    unfold Surrounds
    rcases hL q hq _ he with rfl | h | h | h | h <;> dsimp only at * <;> omega
  by_cases hlen : j + 1 = raw.length
  · -- nothing follows
    refine ⟨.go ⟨startOf raw (j + 1), none, false⟩, ?_, ?_⟩
    · rw [hlen, Nat.sub_self]
      rfl
    · intro i
      simp only [reduceCtorEq, false_iff]
      rintro ⟨hi, ⟨lo, hb, hs, -⟩, h1, -⟩
      unfold Surrounds at hs
      omega
  · have hrange : List.range' (j + 1) (raw.length - (j + 1))
        = (j + 1) :: List.range' (j + 2) (raw.length - (j + 2)) := by
      rw [show raw.length - (j + 1) = raw.length - (j + 2) + 1 by omega, List.range'_succ]
    by_cases hex : ∃ q ∈ B, ch q.1 q.2 = true ∧ Surrounds q.1 q.2 j
    · obtain ⟨⟨lo, hi⟩, hq, ⟨hch, hsur⟩, hmax⟩ := innermost hex
      dsimp only at hch hsur hmax
      have hlohi := hB _ hq
      dsimp only at hlohi
      have hsur' : lo ≤ j ∧ j + 1 ≤ hi := by unfold Surrounds at hsur; omega
      have hR : ∀ i, (∃ h, BlockEnd (fun lo hi => (lo, hi) ∈ B ∧ ch lo hi = true) j h ∧ h + 1 < raw.length
          ∧ i = startOf raw (h + 2)) ↔ hi + 1 < raw.length ∧ i = startOf raw (hi + 2) := by
        intro i
        constructor
        · rintro ⟨h, ⟨lo', ⟨hb, hc⟩, hs, hm⟩, h1, h2⟩
          have e1 := hm lo hi ⟨hq, hch⟩ hsur
          have e2 := hmax _ hb hc hs
          dsimp only at e2
          have hl := hL _ hb _ hq
          unfold Laminar at hl
          have hb' := hB _ hb
          have : h = hi := by
            simp only [Prod.mk.injEq] at hl
            dsimp only at hb'
            omega
          subst this
          exact ⟨h1, h2⟩
        · rintro ⟨h1, h2⟩
          exact ⟨hi, ⟨lo, ⟨hq, hch⟩, hsur, fun lo' hi' hb hs => hmax _ hb.1 hb.2 hs⟩, h1, h2⟩
      -- the brackets around the block
      have houter : ∀ q ∈ B, q.1 < hi → hi < q.2 → q.1 < lo := by
        intro q hq' h1 h2
        rcases hL q hq' _ hq with rfl | h | h | h | h <;> dsimp only at * <;> omega
      have hself2 : (ch lo hi && decide (lo < hi) && decide (hi < hi)) = false := by simp
      have deeper : ∀ p, j + 1 ≤ p → p < hi → depthAt ch B hi + 1 ≤ depthAt ch B p := by
        intro p h1 h2
        refine countP_more hq ?_ hself2 fun q hq' h => ?_
        · simp only [hch, Bool.true_and, Bool.and_eq_true, decide_eq_true_eq]
          omega
        · simp only [Bool.and_eq_true, decide_eq_true_eq] at h ⊢
          have := houter q hq' h.1.2 h.2
          refine ⟨⟨h.1.1, ?_⟩, ?_⟩ <;> omega
      have deeperIn : ∀ p, j + 1 ≤ p → p < hi → depthAt ch B hi + 1 ≤ depthIn ch B p := by
        intro p h1 h2
        refine countP_more hq ?_ hself2 fun q hq' h => ?_
        · simp only [hch, Bool.true_and, Bool.and_eq_true, decide_eq_true_eq]
          omega
        · simp only [Bool.and_eq_true, decide_eq_true_eq] at h ⊢
          have := houter q hq' h.1.2 h.2
          refine ⟨⟨h.1.1, ?_⟩, ?_⟩ <;> omega
      have hinner : ∀ q ∈ B, q ≠ (lo, hi) → ch q.1 q.2 = true → Surrounds q.1 q.2 j → q.1 < hi ∧ hi < q.2 := by
        intro q hq' hne hc hs
        have h1 := hmax q hq' hc hs
        unfold Surrounds at hs
        rcases hL q hq' _ hq with h | h | h | h | h
        · exact absurd h hne
        all_goals dsimp only at *; omega
      have firstIn : (j, j + 1) ∈ B → depthIn ch B (j + 1) = depthAt ch B hi + 1 := by
        intro he
        refine countP_one_more hn hq ?_ hself2 fun q hq' hne => ?_
        · simp only [hch, Bool.true_and, Bool.and_eq_true, decide_eq_true_eq]
          omega
        · rw [Bool.eq_iff_iff]
          simp only [Bool.and_eq_true, decide_eq_true_eq]
          constructor
          · rintro ⟨⟨h1, h2⟩, h3⟩
            obtain ⟨h4, h5⟩ := hinner q hq' hne h1 (hends q hq' he (by omega) h3)
            exact ⟨⟨h1, h4⟩, h5⟩
          · rintro ⟨⟨h1, h2⟩, h3⟩
            have := houter q hq' h2 h3
            refine ⟨⟨h1, ?_⟩, ?_⟩ <;> omega
      have firstAt : (j, j + 1) ∉ B → depthAt ch B (j + 1) = depthAt ch B hi + 1 := by
        intro he
        refine countP_one_more hn hq ?_ hself2 fun q hq' hne => ?_
        · simp only [hch, Bool.true_and, Bool.and_eq_true, decide_eq_true_eq]
          rcases hsur with hs | ⟨rfl, rfl⟩
          · omega
          · exact absurd hq he
        · rw [Bool.eq_iff_iff]
          simp only [Bool.and_eq_true, decide_eq_true_eq]
          constructor
          · rintro ⟨⟨h1, h2⟩, h3⟩
            obtain ⟨h4, h5⟩ := hinner q hq' hne h1 (.inl ⟨by omega, h3⟩)
            exact ⟨⟨h1, h4⟩, h5⟩
          · rintro ⟨⟨h1, h2⟩, h3⟩
            have := houter q hq' h2 h3
            refine ⟨⟨h1, ?_⟩, ?_⟩ <;> omega
      -- up to the closer
      generalize hk : depthAt ch B hi + 1 = k at *
      have hk0 : k ≠ 0 := by omega
      have hsome : ∀ ci : Nat, ¬ ((cursor : Int) < ci ∧ some k = none) := by simp
      have hbeq : ∀ d, d + 1 ≠ k → (some k == some (d + 1)) = false := by
        intro d hd
        simp
        omega
      have ph2 : foldLeaves raw (cursor : Int) ((List.range' (j + 1) (hi - j)).flatMap (leavesAt ch B 0))
          ⟨startOf raw (j + 1), none, false⟩ = .ok (.go ⟨startOf raw (hi + 1), some k, true⟩) := by
        have last : ∀ c, foldLeaves raw (cursor : Int) [(hi, some (hi + 1), 0 + depthAt ch B hi)] ⟨startOf raw hi, some k, c⟩
            = .ok (if c then .done (some (startOf raw (hi + 1))) else .go ⟨startOf raw (hi + 1), some k, true⟩) := by
          intro c
          have := matchLeaf_token (raw := raw) (cursor := (cursor : Int)) (p := hi) (d := 0 + depthAt ch B hi)
            (ci := startOf raw hi) (c := some k) (f := c) (by omega) (hsome _) rfl
          rw [show (some k == some (0 + depthAt ch B hi + 1)) = true by simp; omega] at this
          exact foldLeaves_one this
        by_cases hhi : hi = j + 1
        · subst hhi
          have hloj : lo = j := by unfold Surrounds at hsur; omega
          subst hloj
          have hE : ∃ q ∈ B, q.1 + 1 = lo + 1 ∧ q.2 = lo + 1 := ⟨_, hq, rfl, rfl⟩
          rw [show lo + 1 - lo = 1 by omega, List.range'_succ, List.range'_zero, List.flatMap_cons, List.flatMap_nil,
            List.append_nil]
          unfold leavesAt
          rw [if_pos hE, firstIn hq]
          have := matchLeaf_inside (raw := raw) (cursor := (cursor : Int)) (p := lo + 1) (d := 0 + k)
            (ci := startOf raw (lo + 1)) (c := some (0 + k)) (by simp)
          rw [← matchLeaf_found hcur (by omega)] at this
          rw [foldLeaves_go (foldLeaves_one this)]
          have e1 : (some (0 + k) == some (0 + k + 1)) = false := by simp
          rw [e1, Nat.zero_add k, last false]
          rfl
        · -- the first leaves
          have hfirst : foldLeaves raw (cursor : Int) (leavesAt ch B 0 (j + 1)) ⟨startOf raw (j + 1), none, false⟩
              = .ok (.go ⟨startOf raw (j + 2), some k, false⟩) := by
            unfold leavesAt
            split
            · rename_i hE
              rw [firstIn (hempty hE)]
              have := matchLeaf_inside (raw := raw) (cursor := (cursor : Int)) (p := j + 1) (d := 0 + k)
                (ci := startOf raw (j + 1)) (c := some (0 + k)) (by simp)
              rw [← matchLeaf_found hcur (by omega)] at this
              rw [foldLeaves_go (foldLeaves_one this)]
              have e1 : (some (0 + k) == some (0 + k + 1)) = false := by simp
              rw [e1, Nat.zero_add k]
              have h2 := matchLeaf_token (raw := raw) (cursor := (cursor : Int)) (p := j + 1)
                (d := 0 + depthAt ch B (j + 1)) (ci := startOf raw (j + 1)) (c := some k) (f := false)
                (by omega) (hsome _) rfl
              have h3 := deeper (j + 1) (by omega) (by omega)
              rw [hbeq _ (by omega)] at h2
              exact foldLeaves_one h2
            · rename_i hE
              rw [List.nil_append, firstAt fun h => hE ⟨_, h, rfl, rfl⟩]
              have h2 := matchLeaf_token (raw := raw) (cursor := (cursor : Int)) (p := j + 1)
                (d := 0 + k) (ci := startOf raw (j + 1)) (c := some (0 + k)) (f := false)
                (by omega) (by simp) rfl
              rw [← matchLeaf_found hcur (by omega)] at h2
              have e1 : (some (0 + k) == some (0 + k + 1)) = false := by simp
              rw [e1, Nat.zero_add k] at h2
              exact foldLeaves_one (by rw [Nat.zero_add k]; exact h2)
          have hmid := foldLeaves_range (raw := raw) (cursor := (cursor : Int)) (c := some k) (leavesAt ch B 0)
            (hi - (j + 2)) (j + 2) (by
              intro p h1 h2
              have h3 := deeper p (by omega) (by omega)
              have h4 := deeperIn p (by omega) (by omega)
              have h5 := matchLeaf_token (raw := raw) (cursor := (cursor : Int)) (p := p)
                (d := 0 + depthAt ch B p) (ci := startOf raw p) (c := some k) (f := false)
                (by omega) (hsome _) rfl
              rw [hbeq _ (by omega)] at h5
              unfold leavesAt
              split
              · have h6 := matchLeaf_inside (raw := raw) (cursor := (cursor : Int)) (p := p) (d := 0 + depthIn ch B p)
                  (ci := startOf raw p) (c := some k) (by simp)
                rw [hbeq _ (by omega)] at h6
                rw [foldLeaves_go (foldLeaves_one h6)]
                exact foldLeaves_one h5
              · rw [List.nil_append]
                exact foldLeaves_one h5)
          have hcl : leavesAt ch B 0 hi = [(hi, some (hi + 1), 0 + depthAt ch B hi)] := by
            unfold leavesAt
            rw [if_neg, List.nil_append]
            rintro ⟨q, hq', h1, h2⟩
            rcases hL q hq' _ hq with rfl | h | h | h | h <;> dsimp only at * <;> omega
          have hr : List.range' (j + 1) (hi - j)
              = (j + 1) :: (List.range' (j + 2) (hi - (j + 2)) ++ [hi]) := by
            rw [show hi - j = (hi - (j + 2) + 1) + 1 by omega, List.range'_succ, ← List.range'_append_1,
              List.range'_succ, List.range'_zero]
            congr 3
            omega
          rw [hr, List.flatMap_cons, List.flatMap_append, foldLeaves_go hfirst, foldLeaves_go hmid,
            List.flatMap_cons, List.flatMap_nil, List.append_nil, hcl,
            show j + 2 + (hi - (j + 2)) = hi by omega, last false]
          rfl
      have hr2 : List.range' (j + 1) (raw.length - (j + 1))
          = List.range' (j + 1) (hi - j) ++ List.range' (hi + 1) (raw.length - (hi + 1)) := by
        rw [show hi + 1 = j + 1 + (hi - j) by omega, List.range'_append_1]
        congr 1
        omega
      rw [hr2, List.flatMap_append, foldLeaves_go ph2]
      by_cases hend : hi + 1 = raw.length
      · refine ⟨.go ⟨startOf raw (hi + 1), some k, true⟩, ?_, ?_⟩
        · rw [hend, Nat.sub_self]
          rfl
        · intro i
          rw [hR]
          simp only [reduceCtorEq, false_iff]
          omega
      · refine ⟨.done (some (startOf raw (hi + 2))), ?_, ?_⟩
        · rw [show raw.length - (hi + 1) = raw.length - (hi + 2) + 1 by omega, List.range'_succ, List.flatMap_cons]
          refine foldLeaves_done ?_ _
          unfold leavesAt
          rw [if_neg, List.nil_append]
          · have h5 := matchLeaf_token (raw := raw) (cursor := (cursor : Int)) (p := hi + 1)
              (d := 0 + depthAt ch B (hi + 1)) (ci := startOf raw (hi + 1)) (c := some k) (f := true)
              (by omega) (hsome _) rfl
            exact foldLeaves_one h5
          · rintro ⟨q, hq', h1, h2⟩
            rcases hL q hq' _ hq with rfl | h | h | h | h <;> dsimp only at * <;> omega
        · intro i
          rw [hR]
          simp only [Option.some.injEq]
          constructor
          · rintro rfl
            exact ⟨by omega, rfl⟩
          · exact fun h => h.2.symm
    · -- no brackets around the cursor
      refine ⟨.done none, ?_, ?_⟩
      · rw [hrange, List.flatMap_cons]
        refine foldLeaves_done ?_ _
        unfold leavesAt
        split
        · rename_i hE
          have hd : depthIn ch B (j + 1) = 0 := by
            unfold depthIn
            rw [List.countP_eq_zero]
            intro q hq h
            simp only [Bool.and_eq_true, decide_eq_true_eq] at h
            exact hex ⟨q, hq, h.1.1, hends q hq (hempty hE) (by omega) h.2⟩
          rw [hd]
          exact foldLeaves_done (foldLeaves_one (matchLeaf_zero hcur _)) _
        · have hd : depthAt ch B (j + 1) = 0 := by
            unfold depthAt
            rw [List.countP_eq_zero]
            intro q hq h
            simp only [Bool.and_eq_true, decide_eq_true_eq] at h
            exact hex ⟨q, hq, h.1.1, .inl ⟨by omega, h.2⟩⟩
          rw [hd]
          exact foldLeaves_one (matchLeaf_zero hcur _)
      · intro i
        simp only [reduceCtorEq, false_iff]
        rintro ⟨hi, ⟨lo, hb, hs, -⟩, -, -⟩
        exact hex ⟨(lo, hi), hb.1, hb.2, hs⟩

end scan

end RUSure.Lemmas
