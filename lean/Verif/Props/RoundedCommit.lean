import Verif.Model.RoundedCommit
import Verif.Spec.RoundedCommit
import Verif.Props.RoundedGreedy

/-!
# Partial commitment in machine arithmetic (C88)
-/

namespace RUSure.Props
open RUSure RUSure.Spec RUSure.Lemmas RUSure.Rounded

/-! ## The exact machine -/

theorem collect_exact : ∀ (vs : List Nat) (S : System) (agg : Nat → Nat → Cost),
    Rounded.collectMarginals exactArith vs S agg = RUSure.collectMarginals vs S agg := by
  intro vs
  induction vs with
  | nil => intro S agg; rfl
  | cons v vs ih =>
    intro S agg
    unfold Rounded.collectMarginals RUSure.collectMarginals
    rw [(C68_exact S v 0 (fun _ => false) 0).1]
    simp only [ih]
    rfl

theorem commit_exact : ∀ (gap : Cost) (vs : List Nat) (S : System) (b : Cost) (c : Nat),
    Rounded.commitLoop exactArith gap vs S b c = RUSure.commitLoop gap vs S b c := by
  intro gap vs
  induction vs with
  | nil => intro S b c; rfl
  | cons v vs ih =>
    intro S b c
    unfold Rounded.commitLoop RUSure.commitLoop
    rw [(C68_exact S v 0 (fun _ => false) 0).1]
    simp only [ih]
    rfl

/-- C88: with exact arithmetic, partial commitment is that of the exact model (C55). -/
theorem C88_exact (S : System) (dir : Direction) (quantile : (Nat → Nat → Cost) → Quantile)
    (strictness epsilon : ℚ) :
    Rounded.partiallyCommit exactArith S dir quantile strictness epsilon
      = S.partiallyCommit dir quantile strictness epsilon := by
  unfold Rounded.partiallyCommit System.partiallyCommit
  simp only [collect_exact, commit_exact]
  split
  · rfl
  · split
    · rename_i e; simp only [e]
    · rename_i e
      simp only [e]
      unfold Rounded.costBound
      dsimp only
      generalize List.foldl max (_ : Cost) (_ : List Cost) = bound
      cases quantile _ with
      | negInf => rfl
      | nan =>
        have h0 : exactArith.mul 0 strictness = ((0 * strictness : ℚ) : Cost) := rfl
        rw [h0]
      | val q =>
        have ha : exactArith.add bound (epsilon : Cost) = bound + (epsilon : Cost) := rfl
        simp only [ha]
        split
        · rfl
        · have hg : exactArith.mul (max 0 (exactArith.add (q : Cost) (negate bound))) strictness
              = ((max 0 (q - bound.untopD 0) * strictness : ℚ) : Cost) := by
            have h3 : exactArith.add (q : Cost) (negate bound)
                = ((q - bound.untopD 0 : ℚ) : Cost) := by
              rw [sub_eq_add_neg]; rfl
            have h4 : max (0 : Cost) ((q - bound.untopD 0 : ℚ) : Cost)
                = ((max 0 (q - bound.untopD 0) : ℚ) : Cost) := by
              rw [WithTop.coe_max]; rfl
            rw [h3, h4]
            rfl
          rw [hg]

/-! ## `float64` -/

theorem roundPos_float {r : ℚ} (hr : 0 < r) {m e : ℤ} (hm : |m| ≤ 2 ^ 53) (he : -1074 ≤ e)
    (h : r = m * 2 ^ e) : roundPos r = r := by
  have key : ∀ m e : ℤ, m < 2 ^ 53 → -1074 ≤ e → r = m * 2 ^ e → roundPos r = r := by
    intro m e hm he h
    have hlp : lastPlace r ≤ e := by
      unfold lastPlace
      have : Int.log 2 r < e + 53 := by
        rw [← Int.lt_zpow_iff_log_lt (by norm_num) hr, h]
        push_cast
        rw [zpow_add₀ (by norm_num : (2 : ℚ) ≠ 0), mul_comm]
        refine mul_lt_mul_of_pos_left ?_ (two_zpow_pos e)
        exact_mod_cast hm
      omega
    unfold roundPos
    have e1 : r / 2 ^ lastPlace r = ((m * 2 ^ (e - lastPlace r).toNat : ℤ) : ℚ) := by
      rw [div_eq_mul_inv, ← zpow_neg]
      nth_rewrite 1 [h]
      push_cast
      rw [← zpow_natCast, Int.toNat_of_nonneg (by omega), mul_assoc, ← zpow_add₀ (by norm_num)]
      rfl
    rw [e1, roundEven_int, ← e1, div_mul_cancel₀ _ (two_zpow_pos _).ne']
  rcases (abs_le.1 hm).2.lt_or_eq with hlt | heq
  · exact key m e hlt he h
  · refine key (2 ^ 52) (e + 1) (by norm_num) (by omega) ?_
    rw [h, heq, zpow_add₀ (by norm_num)]
    push_cast
    ring

theorem round64_float {r : ℚ} (h : IsFloat64 r) : round64 r = r := by
  obtain ⟨m, e, hm, he, hr⟩ := h
  unfold round64
  split
  · rename_i h0
    rcases h0.eq_or_lt with rfl | h0
    · exact roundPos_zero
    · exact roundPos_float h0 hm he hr
  · rename_i h0
    push Not at h0
    rw [roundPos_float (r := -r) (m := -m) (e := e) (by linarith) (by rwa [abs_neg]) he
      (by rw [hr]; push_cast; ring), neg_neg]

theorem round64_is (x : ℚ) : IsFloat64 (round64 x) := by
  have key : ∀ s : ℚ, 0 ≤ s → IsFloat64 (roundPos s) := by
    intro s hs
    rcases hs.eq_or_lt with rfl | hs
    · rw [roundPos_zero]; exact ⟨0, 0, by norm_num, by norm_num, by simp⟩
    · refine ⟨roundEven (s / 2 ^ lastPlace s), lastPlace s, ?_, by unfold lastPlace; omega, rfl⟩
      have hpos := two_zpow_pos (lastPlace s)
      have h0 : (0 : ℤ) ≤ roundEven (s / 2 ^ lastPlace s) := by
        rw [← roundEven_int 0]
        apply roundEven_mono
        push_cast
        exact div_nonneg hs.le hpos.le
      rw [abs_of_nonneg h0, ← roundEven_int (2 ^ 53)]
      apply roundEven_mono
      rw [div_le_iff₀ hpos]
      have := (lt_lastPlace s).le
      rw [add_comm, zpow_add₀ (by norm_num)] at this
      exact_mod_cast this
  unfold round64
  split
  · rename_i h; exact key x h
  · rename_i h
    push Not at h
    obtain ⟨m, e, h1, h2, h3⟩ := key (-x) (by linarith)
    exact ⟨-m, e, by rwa [abs_neg], h2, by rw [h3]; push_cast; ring⟩

theorem nearest64_again {x z : ℚ} (h : nearest64 x = (z : Cost)) : nearest64 z = z := by
  unfold nearest64 at h
  split at h
  · rename_i hlt
    obtain rfl := WithTop.coe_inj.1 h
    unfold nearest64
    rw [round64_float (round64_is x), if_pos hlt]
  · exact absurd h.symm WithTop.coe_ne_top

theorem nearest64_zero : nearest64 0 = 0 := by
  have := nearest64_nat (k := 0) (by norm_num)
  simpa using this

/-- C88: `float64` arithmetic is faithful. -/
theorem C88_float64 : FaithfulArith float64Arith := by
  refine ⟨?_, ?_, ?_⟩
  · change nearest64 (0 + 0) = 0
    rw [add_zero]
    exact nearest64_zero
  · intro a b
    cases h : float64Arith.add a b using WithTop.recTopCoe with
    | top => exact float64Arith.top_left _
    | coe z =>
      change nearest64 (z + 0) = _
      rw [add_zero]
      cases a using WithTop.recTopCoe with
      | top => rw [float64Arith.top_left] at h; exact absurd h.symm WithTop.coe_ne_top
      | coe a =>
        cases b using WithTop.recTopCoe with
        | top => rw [float64Arith.top_right] at h; exact absurd h.symm WithTop.coe_ne_top
        | coe b => exact nearest64_again (x := a + b) h
  · intro c s hc hs
    cases c using WithTop.recTopCoe with
    | top => rw [float64Arith.mul_top]; exact le_top
    | coe q =>
      change 0 ≤ nearest64 (q * s)
      rw [← nearest64_zero]
      exact nearest64_mono (mul_nonneg (WithTop.coe_le_coe.1 hc) hs)

/-! ## One step -/

section
variable {A : Arith}

/-- The same subproblems, in which the second system has forbidden some values. -/
structure Cut (S S' : System) : Prop where
  keys : S'.numKeys = S.numKeys
  values : S'.numValues = S.numValues
  extra : ∀ v x, S'.extra v x = S.extra v x ∨ S'.extra v x = ⊤
  subs : List.Forall₂ (fun s s' : Sub => s'.memo.dag = s.memo.dag ∧ s'.index = s.index
    ∧ ∀ k x, s'.memo.pen k x = s.memo.pen k x ∨ s'.memo.pen k x = ⊤) S.subs S'.subs

theorem Cut.trans {S S' S'' : System} (h : Cut S S') (h' : Cut S' S'') : Cut S S'' := by
  refine ⟨h'.keys.trans h.keys, h'.values.trans h.values, ?_, ?_⟩
  · intro v x
    rcases h'.extra v x with h1 | h1
    · rw [h1]; exact h.extra v x
    · exact .inr h1
  · refine Rnd.forall₂_trans ?_ h.subs h'.subs
    rintro s s' s'' ⟨h1, h2, h3⟩ ⟨g1, g2, g3⟩
    refine ⟨g1.trans h1, g2.trans h2, ?_⟩
    intro k x
    rcases g3 k x with h4 | h4
    · rw [h4]; exact h3 k x
    · exact .inr h4

theorem Cut.tightened {S S' : System} (h : Cut S S') : Tightened S S' := by
  refine ⟨h.keys, h.values, ?_, h.extra⟩
  have := h.subs
  unfold views
  generalize S.subs = ss, S'.subs = ss' at this
  induction this with
  | nil => rfl
  | @cons s s' ss ss' h1 _ ih =>
    simp only [List.map_cons, ih]
    congr 1
    exact Prod.ext h1.1 h1.2.1

theorem marginals_cut {S S' : System} {v : Nat} {mm : Nat → Cost}
    (hok : ∀ s ∈ S.subs, Rnd.RSubOK A.toMachine S.numKeys S.numValues s)
    (h : systemMarginals A S v = some (S', mm)) :
    Cut S S' ∧ S'.extra = S.extra
    ∧ (∀ s ∈ S'.subs, Rnd.RSubOK A.toMachine S'.numKeys S'.numValues s)
    ∧ List.Forall₂ (fun s s' : Sub => s'.view = s.view) S.subs S'.subs
    ∧ ∃ cs : List (Nat → Cost),
      List.Forall₂ (fun s f => ∀ x, Rnd.SubCost A.toMachine s v x (f x)) S.subs cs
      ∧ ∀ x, mm x = (cs.map fun f => f x).foldl A.add 0 := by
  unfold systemMarginals at h
  rw [Option.map_eq_some_iff] at h
  obtain ⟨⟨ss, t⟩, h1, h2⟩ := h
  simp only [Prod.mk.injEq] at h2
  obtain ⟨rfl, rfl⟩ := h2
  obtain ⟨g1, g2⟩ := Rnd.marginalsLoop_shape v _ _ _ _ hok h1
  refine ⟨⟨rfl, rfl, fun _ _ => .inl rfl, g1.imp ?_⟩, rfl, Rnd.forall₂_right (fun _ _ h => h.1) g1,
    g1.imp fun _ _ h => h.2, g2⟩
  rintro s s' ⟨-, hv⟩
  have e1 : s'.memo.pen = s.memo.pen := congrArg View.pen hv
  exact ⟨congrArg View.dag hv, congrArg View.index hv, fun k x => .inl (by rw [e1])⟩

theorem forbid_cut {S : System} {v : Nat} {bad : Nat → Bool}
    (hok : ∀ s ∈ S.subs, Rnd.RSubOK A.toMachine S.numKeys S.numValues s) :
    Cut S (S.forbid v bad)
    ∧ (∀ s ∈ (S.forbid v bad).subs, Rnd.RSubOK A.toMachine S.numKeys S.numValues s) := by
  refine ⟨⟨rfl, rfl, ?_, ?_⟩, ?_⟩
  · intro u x
    simp only [System.forbid]
    split
    · exact .inr rfl
    · exact .inl rfl
  · unfold System.forbid
    dsimp only
    rw [List.forall₂_map_right_iff]
    refine List.forall₂_same.2 ?_
    intro s _
    cases hk : s.index v with
    | none => exact ⟨rfl, rfl, fun _ _ => .inl rfl⟩
    | some k =>
      refine ⟨rfl, rfl, ?_⟩
      intro k' x
      simp only [setPenalties_pen, setPen]
      split
      · rename_i hkk
        subst hkk
        by_cases hb : bad x = true
        · exact .inr (if_pos hb)
        · exact .inl (if_neg hb)
      · exact .inl rfl
  · intro s hs
    obtain ⟨s0, hs0, rfl⟩ := List.mem_map.1 (show s ∈ S.subs.map _ from hs)
    cases hk : s0.index v with
    | none => exact hok s0 hs0
    | some k => exact (Rnd.rsub_set (hok s0 hs0) hk _).1

theorem marginals_again (hF : FaithfulArith A) {S S' : System} {v : Nat} {mm : Nat → Cost}
    (hok : ∀ s ∈ S.subs, Rnd.RSubOK A.toMachine S.numKeys S.numValues s)
    (h : systemMarginals A S v = some (S', mm)) (x : Nat) : A.add (mm x) 0 = mm x := by
  obtain ⟨-, -, -, -, cs, -, h1⟩ := marginals_cut hok h
  rw [h1 x]
  rcases List.eq_nil_or_concat cs with rfl | ⟨l, f, rfl⟩
  · exact hF.zero
  · simp only [List.concat_eq_append, List.map_append, List.map_cons, List.map_nil, List.foldl_append,
      List.foldl_cons, List.foldl_nil]
    exact hF.again _ _

/-! ## The loops -/

theorem collect_spec : ∀ (vs : List Nat) (S S' : System) (agg agg' : Nat → Nat → Cost),
    (∀ s ∈ S.subs, Rnd.RSubOK A.toMachine S.numKeys S.numValues s) →
    Rounded.collectMarginals A vs S agg = some (S', agg') →
    Cut S S' ∧ S'.extra = S.extra
    ∧ (∀ s ∈ S'.subs, Rnd.RSubOK A.toMachine S'.numKeys S'.numValues s)
    ∧ List.Forall₂ (fun s s' : Sub => s'.view = s.view) S.subs S'.subs := by
  intro vs
  induction vs with
  | nil =>
    intro S S' agg agg' hok h
    simp only [Rounded.collectMarginals, Option.some.injEq, Prod.mk.injEq] at h
    obtain ⟨rfl, -⟩ := h
    exact ⟨⟨rfl, rfl, fun _ _ => .inl rfl, List.forall₂_same.2 fun _ _ => ⟨rfl, rfl, fun _ _ => .inl rfl⟩⟩,
      rfl, hok, List.forall₂_same.2 fun _ _ => rfl⟩
  | cons v vs ih =>
    intro S S' agg agg' hok h
    unfold Rounded.collectMarginals at h
    split at h
    · cases h
    · rename_i S1 mm h1
      obtain ⟨a1, a2, a3, a4, -⟩ := marginals_cut hok h1
      obtain ⟨b1, b2, b3, b4⟩ := ih _ _ _ _ a3 h
      exact ⟨a1.trans b1, b2.trans a2, b3,
        Rnd.forall₂_trans (fun _ _ _ h h' => h'.trans h) a4 b4⟩

theorem commit_loop {gap : Cost} : ∀ (vs : List Nat) (S S' : System) (b b' : Cost) (c c' : Nat),
    (∀ s ∈ S.subs, Rnd.RSubOK A.toMachine S.numKeys S.numValues s) →
    Rounded.commitLoop A gap vs S b c = some (S', b', c') →
    Cut S S' ∧ c ≤ c' ∧ (∀ v, v ∉ vs → S'.extra v = S.extra v)
    ∧ (FaithfulArith A → 0 ≤ gap → S.numValues ≠ 0 → vs.Nodup →
        ∀ v ∈ vs, ∃ x < S.numValues, S'.extra v x = S.extra v x) := by
  intro vs
  induction vs with
  | nil =>
    intro S S' b b' c c' hok h
    simp only [Rounded.commitLoop, Option.some.injEq, Prod.mk.injEq] at h
    obtain ⟨rfl, -, rfl⟩ := h
    exact ⟨⟨rfl, rfl, fun _ _ => .inl rfl, List.forall₂_same.2 fun _ _ => ⟨rfl, rfl, fun _ _ => .inl rfl⟩⟩,
      le_refl _, fun _ _ => rfl, fun _ _ _ _ v hv => by cases hv⟩
  | cons v vs ih =>
    intro S S' b b' c c' hok h
    unfold Rounded.commitLoop at h
    split at h
    · cases h
    · rename_i S1 mm h1
      dsimp only at h
      obtain ⟨a1, a2, a3, -, -⟩ := marginals_cut hok h1
      obtain ⟨b1, b2⟩ := forbid_cut (v := v)
        (bad := fun x => decide (A.add (if b < arrayMin S.numValues mm then arrayMin S.numValues mm else b)
          gap < mm x)) a3
      obtain ⟨d1, d2, d3, d4⟩ := ih _ _ _ _ _ _ b2 h
      refine ⟨(a1.trans b1).trans d1, by omega, ?_, ?_⟩
      · intro u hu
        rw [List.mem_cons, not_or] at hu
        rw [d3 u hu.2]
        funext x
        simp [System.forbid, hu.1, a2]
      · intro hF hgap hV hnd u hu
        rw [List.nodup_cons] at hnd
        by_cases huv : u = v
        · subst huv
          have hgood : ∀ x, mm x ≤ (if b < arrayMin S.numValues mm then arrayMin S.numValues mm else b) →
              ¬ A.add (if b < arrayMin S.numValues mm then arrayMin S.numValues mm else b) gap < mm x := by
            intro x hx
            rw [not_lt]
            calc mm x = A.add (mm x) 0 := (marginals_again hF hok h1 x).symm
              _ ≤ _ := A.mono hx hgap
          obtain ⟨x, hx, hm⟩ : ∃ x < S.numValues,
              mm x ≤ if b < arrayMin S.numValues mm then arrayMin S.numValues mm else b := by
            have hle : arrayMin S.numValues mm
                ≤ if b < arrayMin S.numValues mm then arrayMin S.numValues mm else b := by
              split
              · exact le_refl _
              · rename_i hb; exact not_lt.1 hb
            rcases arrayMin_attained S.numValues mm with h2 | ⟨x, hx, h2⟩
            · refine ⟨0, Nat.pos_of_ne_zero hV, le_trans ?_ hle⟩
              rw [h2]; exact le_top
            · exact ⟨x, hx, by rw [← h2]; exact hle⟩
          refine ⟨x, hx, ?_⟩
          rw [d3 u hnd.1]
          have := hgood x hm
          simp [System.forbid, this, a2]
        · have huvs : u ∈ vs := (List.mem_cons.1 hu).resolve_left huv
          have hk : (S1.forbid v fun x => decide (A.add (if b < arrayMin S.numValues mm then
              arrayMin S.numValues mm else b) gap < mm x)).numValues = S.numValues :=
            b1.values.trans a1.values
          obtain ⟨x, hx, h2⟩ := d4 hF hgap (by rw [hk]; exact hV) hnd.2 u huvs
          refine ⟨x, by rw [← hk]; exact hx, h2.trans ?_⟩
          simp [System.forbid, huv, a2]

/-- The parts of partial commitment. -/
theorem commit_cases {S S' : System} {dir : Direction} {quantile : (Nat → Nat → Cost) → Quantile}
    {strictness epsilon : ℚ} {status : CommitStatus}
    (h : Rounded.partiallyCommit A S dir quantile strictness epsilon = some (S', status)) :
    S.numKeys ≠ 0 ∧ ∃ S1 agg,
      Rounded.collectMarginals A (dir.order S.numKeys) S (fun _ _ => 0) = some (S1, agg)
      ∧ ((S' = S1 ∧ status = .needsGreedyExtract)
        ∨ ∃ (gap b' : Cost) (c' : Nat), (0 ≤ gap)
          ∧ Rounded.commitLoop A (A.mul gap strictness) (dir.order S.numKeys) S1
              (costBound S.numKeys S.numValues agg) 0 = some (S', b', c')
          ∧ (status = if c' = 0 then .stuck else .madePartialAssignment)
          ∧ ∀ q, quantile agg = .val q →
            gap = max 0 (A.add (q : Cost) (negate (costBound S.numKeys S.numValues agg)))) := by
  unfold Rounded.partiallyCommit at h
  split at h
  · cases h
  · rename_i h0
    refine ⟨h0, ?_⟩
    split at h
    · cases h
    · rename_i S1 agg h1
      refine ⟨S1, agg, h1, ?_⟩
      dsimp only at h
      split at h
      · simp only [Option.some.injEq, Prod.mk.injEq] at h
        exact .inl ⟨h.1.symm, h.2.symm⟩
      · rw [Option.map_eq_some_iff] at h
        obtain ⟨⟨S2, b2, c2⟩, h2, h3⟩ := h
        simp only [Prod.mk.injEq] at h3
        obtain ⟨rfl, rfl⟩ := h3
        rename_i hq
        exact .inr ⟨0, b2, c2, le_refl _, h2, rfl, fun q h => by rw [hq] at h; cases h⟩
      · rename_i q hq
        split at h
        · simp only [Option.some.injEq, Prod.mk.injEq] at h
          exact .inl ⟨h.1.symm, h.2.symm⟩
        · rw [Option.map_eq_some_iff] at h
          obtain ⟨⟨S2, b2, c2⟩, h2, h3⟩ := h
          simp only [Prod.mk.injEq] at h3
          obtain ⟨rfl, rfl⟩ := h3
          refine .inr ⟨_, b2, c2, le_max_left _ _, h2, rfl, fun q' h => ?_⟩
          rw [hq] at h
          obtain rfl : q = q' := by simpa using h
          rfl

end

end RUSure.Props
