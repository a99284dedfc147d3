import Verif.Lemmas.RoundedDualRun
import Verif.Props.Rounded
import Verif.Props.Dual

/-!
# The dual solver in machine arithmetic (C68)
-/

namespace RUSure.Props
open RUSure RUSure.Spec RUSure.Lemmas RUSure.Rounded

theorem exact_marginalsLoop (v : Nat) : ∀ (ss : List Sub) (t : Nat → Cost),
    Rounded.marginalsLoop exactArith v ss t = RUSure.marginalsLoop v ss t := by
  intro ss
  induction ss with
  | nil => intro t; rfl
  | cons s ss ih =>
    intro t
    unfold Rounded.marginalsLoop RUSure.marginalsLoop
    simp only [ih]
    rfl

theorem exact_averageOpen (v : Nat) : ∀ (ss : List Sub) (st : AverageState),
    Rounded.averageOpen exactArith v ss st = RUSure.averageOpen v ss st := by
  intro ss
  induction ss with
  | nil => intro t; rfl
  | cons s ss ih =>
    intro t
    unfold Rounded.averageOpen RUSure.averageOpen
    simp only [ih]
    rfl

theorem exact_newPenalty (total : Cost) (share : ℚ) (mm : Cost) :
    Rounded.newPenalty exactArith total share mm = RUSure.newPenalty total share mm := by
  unfold Rounded.newPenalty RUSure.newPenalty
  cases total using WithTop.recTopCoe with
  | top => rfl
  | coe t =>
    have e : exactArith.mul (t : Cost) share = ((t * share : ℚ) : Cost) := rfl
    have e2 : exactArith.add ((t * share : ℚ) : Cost) (negate mm)
        = ((t * share + -(mm.untopD 0) : ℚ) : Cost) := rfl
    rw [e, if_neg (WithTop.coe_ne_top), if_neg (WithTop.coe_ne_top), e2, sub_eq_add_neg]
    rfl

theorem exact_average (S : System) (v : Nat) : Rounded.average exactArith S v = S.average v := by
  have h : ∀ total W, Rounded.averageClose exactArith total W = RUSure.averageClose total W := by
    intro total W
    funext r
    unfold Rounded.averageClose RUSure.averageClose
    simp only [exact_newPenalty]
    rfl
  unfold Rounded.average System.average
  simp only [exact_averageOpen, h]
  rfl

theorem exact_improved (last : Option Cost) (new : Cost) (tol : ℚ) :
    Rounded.improved exactArith last new tol = RUSure.improved last new tol := by
  unfold Rounded.improved RUSure.improved
  cases last with
  | none => rfl
  | some l =>
    cases l using WithTop.recTopCoe with
    | top => rfl
    | coe l =>
      dsimp only
      rw [if_neg WithTop.coe_ne_top, if_neg WithTop.coe_ne_top]
      congr 1
      cases new using WithTop.recTopCoe with
      | top =>
        have e : exactArith.add ⊤ (negate (l : Cost)) = ⊤ := rfl
        rw [e, ← WithTop.coe_add]
        simp
      | coe n =>
        have e : exactArith.add (n : Cost) (negate (l : Cost)) = ((n + -l : ℚ) : Cost) := rfl
        rw [e, ← WithTop.coe_add, WithTop.coe_lt_coe, WithTop.coe_lt_coe]
        exact propext ⟨fun h => by linarith, fun h => by linarith⟩

theorem exact_runSweep (tol : ℚ) : ∀ (vs : List Nat) (st : SweepState) (c : Bool),
    Rounded.runSweep exactArith tol vs st c = RUSure.runSweep tol vs st c := by
  intro vs
  induction vs with
  | nil => intro st c; rfl
  | cons v vs ih =>
    intro st c
    unfold Rounded.runSweep RUSure.runSweep
    simp only [ih, exact_average, exact_improved]
    rfl

/-- C68: with exact arithmetic the functions are those of the exact model, to which C36-C41 refer. -/
theorem C68_exact (S : System) (v : Nat) (tol : ℚ) (late : Nat → Bool) (fuel : Nat) :
    Rounded.systemMarginals exactArith S v = S.minMarginals v
    ∧ Rounded.average exactArith S v = S.average v
    ∧ Rounded.solve exactArith S tol late fuel = S.solve tol late fuel := by
  refine ⟨?_, exact_average S v, ?_⟩
  · unfold Rounded.systemMarginals System.minMarginals
    rw [exact_marginalsLoop]
  · unfold Rounded.solve System.solve
    generalize (⟨S, none, [], [], [], []⟩ : SweepState) = st
    induction fuel generalizing st with
    | zero => rfl
    | succ fuel ih =>
      unfold Rounded.solveLoop RUSure.solveLoop
      simp only [exact_runSweep, ih]
      rfl

section
variable {K V : Type} [LinearOrder K] [DecidableEq V]

/-- A new system is in balance. -/
theorem made_ready {A : Arith} {invalid : Cost} {dags : List (PackedDag × List K × List V)}
    {weights : Option (List ℚ)} {D : DualSystem K V} (hm : makeSystem invalid dags weights = .ok D)
    (hd : ∀ d ∈ dags, GoodDag d) (hw : GoodWeights dags.length weights) :
    (∀ s ∈ D.data.subs, Rnd.RSubOK A.toMachine D.data.numKeys D.data.numValues s)
    ∧ ∀ a w, Rnd.Bal D.data a w 0 := by
  have hinv := makeSystem_inv hm hd hw
  obtain ⟨h1, h2, h3, h4, h5, h6, h7⟩ := makeSystem_ok hm
  have hsub : ∀ s ∈ D.data.subs, ∃ d ∈ dags, s.memo = emptyUnpenalizedTable invalid d.1 := by
    intro s hs
    rw [h7] at hs
    obtain ⟨⟨d, i⟩, hx, rfl⟩ := List.mem_map.1 hs
    exact ⟨d, List.fst_mem_of_mem_zipIdx hx, rfl⟩
  refine ⟨?_, ?_⟩
  · intro s hs
    refine ⟨?_, (hinv.subs s hs).2⟩
    obtain ⟨d, hdm, he⟩ := hsub s hs
    rw [he]
    exact Rnd.emptyTable_inv _ (hd d hdm).wf _ _
  · intro a w
    refine ⟨0, 0, ?_, by rw [h6]; rfl, by simp⟩
    have : ∀ c ∈ D.data.subs.map fun s => s.view.charge w (a w), c = 0 := by
      intro c hc
      obtain ⟨s, hs, rfl⟩ := List.mem_map.1 hc
      obtain ⟨d, -, he⟩ := hsub s hs
      unfold View.charge
      split
      · rfl
      · change s.memo.pen _ _ = 0
        rw [he]; rfl
    exact List.sum_eq_zero this

/-- C68: averaging any variables in any order in a new system, with an arithmetic of relative error
`u`: every bound reported is at most the cost of every joint solution, up to an error that depends on
the sizes of the numbers and of the system, not on the number of steps. -/
theorem C68_bound {A : Arith} {F : ℚ → Prop} {u τ η limit : ℚ}
    (hA : AccurateArith A F u τ limit) (hu : 0 ≤ u) (hτ : 0 ≤ τ)
    {invalid : Cost} {dags : List (PackedDag × List K × List V)} {weights : Option (List ℚ)}
    {D : DualSystem K V} (hm : makeSystem invalid dags weights = .ok D)
    (hd : ∀ d ∈ dags, GoodDag d) (hw : GoodWeights dags.length weights)
    {n : Nat} {M X : ℚ} (vs : List Nat) (hvs : ∀ v ∈ vs, v < D.data.numKeys)
    (hs : ∀ v ∈ vs, FairShares A D.data v η) (hr : RunInRange A F n M X vs D.data)
    (hl : rangeNeeded u η τ dags.length n M X ≤ limit)
    {S : System} {bs : List Cost} (he : averages A vs D.data = some (S, bs))
    {a : Nat → Nat} {paths : List (List PackedEdge)} (hj : Joint D.data a paths) :
    ∀ b ∈ bs, b ≤ jointCost D.data a paths
      + (((D.data.numKeys - 1) * imbalance u η τ dags.length n M X
        + sumError u dags.length n M X : ℚ) : Cost) := by
  obtain ⟨h1, h2⟩ := made_ready (A := A) hm hd hw
  have hlen : D.data.subs.length = dags.length := by
    rw [(makeSystem_ok hm).2.2.2.2.2.2]; simp
  intro b hb
  by_cases hJ : jointCost D.data a paths = ⊤
  · rw [hJ]; simp
  · obtain ⟨J, hJ⟩ := WithTop.ne_top_iff_exists.1 hJ
    rw [← hJ]
    have := Rnd.run_bound_start hA hu hτ h1 hj hJ.symm (fun w _ => h2 a w)
      (fun v hv => ⟨hvs v hv, hs v hv⟩) hr (by rw [hlen]; exact hl) he b hb
    rw [hlen, add_assoc, WithTop.coe_add] at this
    exact this

theorem averages_append {A : Arith} : ∀ (vs ws : List Nat) (S : System),
    averages A (vs ++ ws) S = (averages A vs S).bind fun r =>
      (averages A ws r.1).map fun r' => (r'.1, r.2 ++ r'.2) := by
  intro vs ws
  induction vs with
  | nil => intro S; simp [averages]
  | cons v vs ih =>
    intro S
    have hc : ∀ l, averages A (v :: l) S = (Rounded.average A S v).bind fun r =>
        (averages A l r.1).map fun r' => (r'.1, r.2 :: r'.2) := fun _ => rfl
    rw [List.cons_append, hc, hc]
    cases Rounded.average A S v with
    | none => rfl
    | some r =>
      simp only [Option.bind_some, ih]
      cases averages A vs r.1 with
      | none => rfl
      | some r' =>
        simp only [Option.bind_some, Option.map_some]
        cases averages A ws r'.1 <;> rfl

theorem average_keys {A : Arith} {S S' : System} {v : Nat} {b : Cost}
    (h : Rounded.average A S v = some (S', b)) : S'.numKeys = S.numKeys := by
  unfold Rounded.average at h
  rw [Option.map_eq_some_iff] at h
  obtain ⟨r, -, h⟩ := h
  simp only [Prod.mk.injEq] at h
  rw [← h.1]

/-- What the sweeps have done so far. -/
structure Swept (A : Arith) (S : System) (st : SweepState) : Prop where
  run : averages A st.variableAtStep S = some (st.system, st.objectiveAtStep)
  vars : ∀ v ∈ st.variableAtStep, v < S.numKeys
  keys : st.system.numKeys = S.numKeys

theorem runSweep_swept {A : Arith} {S : System} {tol : ℚ} : ∀ (vs : List Nat) (st st' : SweepState)
    (c c' : Bool), Swept A S st → (∀ v ∈ vs, v < S.numKeys) →
    Rounded.runSweep A tol vs st c = some (st', c') → Swept A S st' := by
  intro vs
  induction vs with
  | nil =>
    intro st st' c c' h _ he
    simp only [Rounded.runSweep, Option.some.injEq, Prod.mk.injEq] at he
    rw [← he.1]; exact h
  | cons v vs ih =>
    intro st st' c c' h hv he
    unfold Rounded.runSweep at he
    split at he
    · cases he
    · rename_i S' b hb
      refine ih _ _ _ _ ⟨?_, ?_, ?_⟩ (fun w hw => hv w (List.mem_cons_of_mem _ hw)) he
      · dsimp only
        rw [averages_append, h.run]
        simp [averages, hb]
      · intro w hw
        rcases List.mem_append.1 hw with hw | hw
        · exact h.vars w hw
        · rw [List.mem_singleton.1 hw]; exact hv v (by simp)
      · exact (average_keys hb).trans h.keys

/-- C68: the sweeps of the solver are such a run: the bounds it reports are those of averaging the
variables it reports, one after the other. -/
theorem C68_solve {A : Arith} {S : System} {tol : ℚ} {late : Nat → Bool} {fuel : Nat}
    {st : SweepState} (h : Rounded.solve A S tol late fuel = .ok st) :
    averages A st.variableAtStep S = some (st.system, st.objectiveAtStep)
    ∧ ∀ v ∈ st.variableAtStep, v < S.numKeys := by
  suffices H : ∀ (fuel : Nat) (st0 : SweepState), Swept A S st0 →
      Rounded.solveLoop A tol late fuel st0 = .ok st → Swept A S st by
    have := H fuel _ ⟨rfl, by simp, rfl⟩ h
    exact ⟨this.run, this.vars⟩
  intro fuel
  induction fuel with
  | zero => intro st0 _ he; cases he
  | succ fuel ih =>
    intro st0 h0 he
    unfold Rounded.solveLoop at he
    split at he
    · cases he
    · rename_i st1 c1 h1
      have g1 : Swept A S st1 := runSweep_swept _ _ _ _ _ h0 (by
        intro v hv
        rw [forwardVars, h0.keys] at hv
        have := List.mem_range.1 hv
        omega) h1
      have g1' : Swept A S st1.record := ⟨g1.run, g1.vars, g1.keys⟩
      dsimp only at he
      split at he
      · split at he
        · exact ih _ g1' he
        · cases he; exact g1'
      · split at he
        · cases he
        · rename_i st2 c2 h2
          have g2 : Swept A S st2 := runSweep_swept _ _ _ _ _ g1' (by
            intro v hv
            rw [reverseVars, h0.keys] at hv
            have := List.mem_range'_1.1 (List.mem_reverse.1 hv)
            omega) h2
          have g2' : Swept A S st2.record := ⟨g2.run, g2.vars, g2.keys⟩
          split at he
          · exact ih _ g2' he
          · cases he; exact g2'

end

/-! ## `float64` -/

theorem round64_limit : round64 (2 ^ 1023) = 2 ^ 1023 := by
  have hlog : Int.log 2 ((2 : ℚ) ^ 1023) = 1023 := by
    have := Int.log_zpow (R := ℚ) (b := 2) (by norm_num) 1023
    exact_mod_cast this
  unfold round64
  rw [if_pos (by norm_num)]
  unfold roundPos
  have hlp : lastPlace (2 ^ 1023) = 971 := by unfold lastPlace; rw [hlog]; rfl
  rw [hlp]
  have e1 : (2 : ℚ) ^ (971 : ℤ) = 2 ^ (971 : ℕ) := zpow_natCast 2 971
  have e0 : (2 : ℚ) ^ 1023 = ((2 ^ 52 : ℤ) : ℚ) * 2 ^ (971 : ℕ) := by
    rw [Int.cast_pow, Int.cast_ofNat, ← pow_add]
  have hp : (0 : ℚ) < 2 ^ (971 : ℕ) := pow_pos (by norm_num) _
  rw [e1, e0, mul_div_assoc, div_self hp.ne', mul_one, roundEven_int]

/-- Integers below `2^53` are not rounded. -/
theorem nearest64_nat {k : ℕ} (hk : k < 2 ^ 53) : nearest64 k = ((k : ℚ) : Cost) := by
  have hr : round64 (k : ℚ) = k := by
    unfold round64
    rw [if_pos (Nat.cast_nonneg k)]
    rcases Nat.eq_zero_or_pos k with rfl | h0
    · rw [Nat.cast_zero, roundPos_zero]
    · have hlp : lastPlace (k : ℚ) ≤ 0 := by
        unfold lastPlace
        have : Int.log 2 (k : ℚ) < 53 := by
          rw [← Int.lt_zpow_iff_log_lt (by norm_num) (by exact_mod_cast h0)]
          exact_mod_cast hk
        omega
      unfold roundPos
      have e1 : (k : ℚ) / 2 ^ lastPlace (k : ℚ)
          = (((k : ℤ) * 2 ^ (-lastPlace (k : ℚ)).toNat : ℤ) : ℚ) := by
        rw [div_eq_mul_inv, ← zpow_neg]
        push_cast
        congr 1
        rw [← zpow_natCast, Int.toNat_of_nonneg (by omega)]
      rw [e1, roundEven_int, ← e1, div_mul_cancel₀ _ (two_zpow_pos _).ne']
  unfold nearest64
  rw [hr, if_pos]
  refine lt_of_lt_of_le (show (k : ℚ) < 2 ^ 53 by exact_mod_cast hk) ?_
  exact pow_le_pow_right₀ (by norm_num) (by omega)

theorem nearest64_error {s : ℚ} (hl : |s| ≤ 2 ^ 1023) :
    ∃ r : ℚ, IsFloat64 r ∧ nearest64 s = r ∧ |r - s| ≤ 1 / 2 ^ 53 * |s| + 2 ^ (-1075 : ℤ) := by
  have key : ∀ s : ℚ, 0 ≤ s → |roundPos s - s| ≤ 1 / 2 ^ 53 * s + 2 ^ (-1075 : ℤ)
      ∧ ∃ m e : ℤ, |m| ≤ 2 ^ 53 ∧ -1074 ≤ e ∧ roundPos s = m * 2 ^ e := by
    intro s hs
    have ht : (0 : ℚ) < 2 ^ (-1075 : ℤ) := two_zpow_pos _
    rcases hs.eq_or_lt with rfl | hs
    · rw [roundPos_zero]
      refine ⟨?_, 0, 0, by norm_num, by norm_num, by simp⟩
      rw [sub_self, abs_zero, mul_zero, zero_add]
      exact ht.le
    · have hpos := two_zpow_pos (lastPlace s)
      refine ⟨?_, roundEven (s / 2 ^ lastPlace s), lastPlace s, ?_, by unfold lastPlace; omega, rfl⟩
      · have h2 := roundEven_error (s / 2 ^ lastPlace s)
        have e1 : roundPos s - s
            = ((roundEven (s / 2 ^ lastPlace s) : ℚ) - s / 2 ^ lastPlace s) * 2 ^ lastPlace s := by
          unfold roundPos
          rw [sub_mul, div_mul_cancel₀ _ hpos.ne']
        rw [e1, abs_mul, abs_of_pos hpos]
        have h3 := mul_le_mul_of_nonneg_right h2 hpos.le
        by_cases hm : -1074 < lastPlace s
        · have h1 := lastPlace_le hs hm
          rw [add_comm, zpow_add₀ (by norm_num)] at h1
          refine h3.trans (le_trans ?_ (le_add_of_nonneg_right ht.le))
          norm_num at h1 ⊢
          linarith
        · have hm' : lastPlace s = -1074 := by unfold lastPlace at *; omega
          rw [hm'] at h3 ⊢
          have e2 : (1 : ℚ) / 2 * 2 ^ (-1074 : ℤ) = 2 ^ (-1075 : ℤ) := by
            rw [show (-1074 : ℤ) = 1 + -1075 by norm_num, zpow_add₀ (by norm_num), ← mul_assoc]
            norm_num
          rw [e2] at h3
          refine h3.trans (le_add_of_nonneg_left ?_)
          exact mul_nonneg (by norm_num) hs.le
      · have h0 : (0 : ℤ) ≤ roundEven (s / 2 ^ lastPlace s) := by
          rw [← roundEven_int 0]
          apply roundEven_mono
          push_cast
          exact div_nonneg hs.le hpos.le
        rw [abs_of_nonneg h0, ← roundEven_int (2 ^ 53)]
        apply roundEven_mono
        rw [div_le_iff₀ hpos]
        have := (lt_lastPlace s).le
        rw [add_comm, zpow_add₀ (by norm_num)] at this
        exact_mod_cast this
  have hbig : round64 s < 2 ^ 1024 := by
    have h1 : round64 s ≤ round64 (2 ^ 1023) := round64_mono ((le_abs_self _).trans hl)
    have h2 : round64 (2 ^ 1023) = 2 ^ 1023 := round64_limit
    rw [h2] at h1
    exact lt_of_le_of_lt h1 (pow_lt_pow_right₀ (by norm_num) (by omega))
  refine ⟨round64 s, ?_, ?_, ?_⟩
  · unfold round64
    split <;> rename_i hn
    · obtain ⟨-, m, e, h1, h2, h3⟩ := key s hn
      exact ⟨m, e, h1, h2, h3⟩
    · push Not at hn
      obtain ⟨-, m, e, h1, h2, h3⟩ := key (-s) (by linarith)
      exact ⟨-m, e, by rw [abs_neg]; exact h1, h2, by rw [h3]; push_cast; ring⟩
  · unfold nearest64
    rw [if_pos hbig]
  · unfold round64
    split <;> rename_i hn
    · rw [abs_of_nonneg hn]
      exact (key s hn).1
    · push Not at hn
      have := (key (-s) (by linarith)).1
      rw [abs_of_neg hn]
      rw [show - roundPos (-s) - s = -(roundPos (-s) - -s) by ring, abs_neg]
      exact this

/-- C68: `float64` arithmetic is such an arithmetic, with a relative error of `2^-53` and an underflow
error of `2^-1075`, up to `2^1023`. -/
theorem C68_float64 :
    AccurateArith float64Arith IsFloat64 (1 / 2 ^ 53) (2 ^ (-1075 : ℤ)) (2 ^ 1023) := by
  refine ⟨C67_float64, ?_, ?_⟩
  · rintro a ⟨m, e, h1, h2, rfl⟩
    exact ⟨-m, e, by rw [abs_neg]; exact h1, h2, by push_cast; ring⟩
  · intro a s _ hl
    exact nearest64_error hl

/-- C68: if all update proportions are equal to one, which is the default, the shares computed in
`float64` add up to one up to `2^-52`. -/
theorem C68_shares {S : System} {v : Nat} (hw : ∀ s ∈ S.subs, s.weight = 1)
    (h0 : 0 < (participants S v).length) (h1 : (participants S v).length < 2 ^ 53) :
    FairShares float64Arith S v (1 / 2 ^ 52) := by
  have hw' : ∀ s ∈ participants S v, s.weight = 1 :=
    fun s hs => hw s (List.mem_of_mem_filter hs)
  have hfold : ∀ (l : List Sub) (k : ℕ), (∀ s ∈ l, s.weight = 1) → k + l.length < 2 ^ 53 →
      l.foldl (fun (w : ℚ) s => (float64Arith.add w s.weight).untopD 0) k = ((k + l.length : ℕ) : ℚ) := by
    intro l
    induction l with
    | nil => intro k _ _; rfl
    | cons s l ih =>
      intro k hs hk
      rw [List.length_cons] at hk
      have e : (float64Arith.add ((k : ℚ) : Cost) (s.weight : Cost)).untopD 0 = ((k + 1 : ℕ) : ℚ) := by
        rw [hs s (by simp)]
        change (nearest64 ((k : ℚ) + 1)).untopD 0 = _
        have := nearest64_nat (show k + 1 < 2 ^ 53 by omega)
        push_cast at this ⊢
        rw [this]
        rfl
      rw [List.foldl_cons, e, ih (k + 1) (fun s' h' => hs s' (List.mem_cons_of_mem _ h')) (by omega),
        List.length_cons]
      congr 1
      omega
  have hW := hfold (participants S v) 0 hw' (by omega)
  rw [Nat.cast_zero, Nat.zero_add] at hW
  generalize hN : (participants S v).length = N at *
  have hN1 : (1 : ℚ) ≤ N := by exact_mod_cast h0
  have hpos : (0 : ℚ) < 1 / N := by positivity
  have hle1 : (1 : ℚ) / N ≤ 1 := by rw [div_le_one (by linarith)]; exact hN1
  obtain ⟨r, -, r2, r3⟩ := nearest64_error (s := 1 / (N : ℚ)) (by
    rw [abs_of_pos hpos]
    exact hle1.trans (one_le_pow₀ (by norm_num)))
  have hr0 : 0 ≤ r := by
    have h9 := nearest64_mono hpos.le
    have h10 : nearest64 0 = ((0 : ℚ) : Cost) := by
      have := nearest64_nat (show 0 < 2 ^ 53 by norm_num)
      simpa using this
    rw [r2, h10] at h9
    exact WithTop.coe_le_coe.1 h9
  have hsh : machineShares float64Arith S v = List.replicate N r := by
    unfold machineShares
    rw [hW, ← hN, List.eq_replicate_iff]
    refine ⟨by simp, ?_⟩
    intro q hq
    obtain ⟨s, hs, rfl⟩ := List.mem_map.1 hq
    rw [hw' s hs, hN]
    change (nearest64 (1 / (N : ℚ))).untopD 0 = r
    rw [r2]
    rfl
  refine ⟨?_, ?_⟩
  · intro q hq
    rw [hsh] at hq
    rw [List.eq_of_mem_replicate hq]
    exact hr0
  · rw [hsh, List.sum_replicate, nsmul_eq_mul]
    have e1 : (N : ℚ) * r - 1 = N * (r - 1 / N) := by field_simp
    rw [e1, abs_mul, abs_of_pos (by linarith : (0 : ℚ) < N)]
    rw [abs_of_pos hpos] at r3
    have h9 := mul_le_mul_of_nonneg_left r3 (by linarith : (0 : ℚ) ≤ N)
    have h10 : (N : ℚ) * (1 / 2 ^ 53 * (1 / N) + 2 ^ (-1075 : ℤ))
        = 1 / 2 ^ 53 + N * 2 ^ (-1075 : ℤ) := by field_simp
    rw [h10] at h9
    have h11 : (N : ℚ) ≤ 2 ^ (53 : ℤ) := by exact_mod_cast h1.le
    have h12 : (N : ℚ) * 2 ^ (-1075 : ℤ) ≤ 2 ^ (53 : ℤ) * 2 ^ (-1075 : ℤ) :=
      mul_le_mul_of_nonneg_right h11 (two_zpow_pos _).le
    rw [← zpow_add₀ (by norm_num)] at h12
    have h13 : (2 : ℚ) ^ (53 + -1075 : ℤ) ≤ 2 ^ (-53 : ℤ) :=
      zpow_le_zpow_right₀ (by norm_num) (by norm_num)
    have h14 : (2 : ℚ) ^ (-53 : ℤ) = 1 / 2 ^ 53 := by norm_num
    rw [h14] at h13
    norm_num at h9 h12 h13 ⊢
    linarith

theorem pow_le_two {j : ℕ} (h : j ≤ 2 ^ 52) : ((1 : ℚ) + 1 / 2 ^ 53) ^ j ≤ 2 := by
  have hmin : (1 : ℚ) - j * (1 / 2 ^ 53) ≤ (1 - 1 / 2 ^ 53) ^ j := by
    have := one_add_mul_le_pow (show (-2 : ℚ) ≤ -(1 / 2 ^ 53) by norm_num) j
    rw [← sub_eq_add_neg] at this
    linarith
  have hj : (j : ℚ) ≤ 2 ^ 52 := by exact_mod_cast h
  have a1 : (1 - 1 / 2 ^ 53 : ℚ) ^ j * (1 + 1 / 2 ^ 53) ^ j ≤ 1 := by
    rw [← mul_pow]
    exact pow_le_one₀ (by norm_num) (by norm_num)
  have a0 : (0 : ℚ) ≤ (1 + 1 / 2 ^ 53) ^ j := pow_nonneg (by norm_num) _
  have a2 : (1 : ℚ) / 2 ≤ (1 - 1 / 2 ^ 53) ^ j := by
    refine le_trans ?_ hmin
    have hj' : (j : ℚ) * (1 / 2 ^ 53) ≤ 2 ^ 52 * (1 / 2 ^ 53) :=
      mul_le_mul_of_nonneg_right hj (by norm_num)
    norm_num at hj' ⊢
    linarith
  nlinarith

/-- Sums of positive `float64` numbers. -/
theorem float64_total : ∀ (l : List ℚ) (j : ℕ) (w S : ℚ), (∀ q ∈ l, IsFloat64 q ∧ 0 < q) →
    j + l.length ≤ 2 ^ 52 → IsFloat64 w → 0 ≤ S → (1 - 1 / 2 ^ 53) ^ j * S ≤ w →
    w ≤ (1 + 1 / 2 ^ 53) ^ j * S → 2 * (S + l.sum) ≤ 2 ^ 1023 →
    ∃ W : ℚ, l.foldl (fun (w : ℚ) (q : ℚ) => (float64Arith.add w q).untopD 0) w = W ∧ IsFloat64 W
      ∧ (1 - 1 / 2 ^ 53) ^ (j + l.length) * (S + l.sum) ≤ W
      ∧ W ≤ (1 + 1 / 2 ^ 53) ^ (j + l.length) * (S + l.sum) := by
  intro l
  induction l with
  | nil => intro j w S _ _ hw _ h1 h2 _; exact ⟨w, rfl, hw, by simpa using h1, by simpa using h2⟩
  | cons q l ih =>
    intro j w S hq hj hw hS h1 h2 hl
    obtain ⟨hqf, hq0⟩ := hq q (by simp)
    have hls : 0 ≤ l.sum := List.sum_nonneg fun x hx => (hq x (List.mem_cons_of_mem _ hx)).2.le
    rw [List.length_cons] at hj
    rw [List.sum_cons] at hl
    have hp2 : ((1 : ℚ) + 1 / 2 ^ 53) ^ j ≤ 2 := pow_le_two (by omega)
    have hp1 : (1 : ℚ) ≤ (1 + 1 / 2 ^ 53) ^ j := one_le_pow₀ (by norm_num)
    have hm1 : ((1 : ℚ) - 1 / 2 ^ 53) ^ j ≤ 1 := pow_le_one₀ (by norm_num) (by norm_num)
    have hm0 : (0 : ℚ) ≤ (1 - 1 / 2 ^ 53) ^ j := pow_nonneg (by norm_num) _
    have hw0 : 0 ≤ w := le_trans (mul_nonneg hm0 hS) h1
    generalize hB : (2 : ℚ) ^ 1023 = B at hl
    obtain ⟨r, r1, r2, r3⟩ := C67_float64.add w q hw hqf (by
      rw [hB, abs_of_nonneg (by linarith)]
      have : (1 + 1 / 2 ^ 53) ^ j * S ≤ 2 * S := mul_le_mul_of_nonneg_right hp2 hS
      linarith)
    have e : (float64Arith.add (w : Cost) (q : Cost)).untopD 0 = r := by
      have r2' : float64Arith.add (w : Cost) (q : Cost) = r := r2
      rw [r2']; rfl
    rw [abs_of_nonneg (by linarith : 0 ≤ w + q)] at r3
    obtain ⟨g1, g2⟩ := abs_le.1 r3
    have k1 : (1 - 1 / 2 ^ 53) ^ (j + 1) * (S + q) ≤ r := by
      rw [pow_succ]
      have a1 : (1 - 1 / 2 ^ 53) ^ j * (S + q) ≤ w + q := by nlinarith
      have a2 := mul_le_mul_of_nonneg_left a1 (by norm_num : (0 : ℚ) ≤ 1 - 1 / 2 ^ 53)
      linarith
    have k2 : r ≤ (1 + 1 / 2 ^ 53) ^ (j + 1) * (S + q) := by
      rw [pow_succ]
      have a1 : w + q ≤ (1 + 1 / 2 ^ 53) ^ j * (S + q) := by nlinarith
      have a2 := mul_le_mul_of_nonneg_left a1 (by norm_num : (0 : ℚ) ≤ 1 + 1 / 2 ^ 53)
      linarith
    obtain ⟨W, w1, w2, w3, w4⟩ := ih (j + 1) r (S + q)
      (fun x hx => hq x (List.mem_cons_of_mem _ hx)) (by omega) r1 (by linarith) k1 k2
      (by rw [hB]; linarith)
    refine ⟨W, ?_, w2, ?_, ?_⟩
    · rw [List.foldl_cons, e]; exact w1
    · rw [List.length_cons, List.sum_cons, ← add_assoc S, show j + (l.length + 1) = j + 1 + l.length by omega]
      exact w3
    · rw [List.length_cons, List.sum_cons, ← add_assoc S, show j + (l.length + 1) = j + 1 + l.length by omega]
      exact w4

/-- C68: with any positive `float64` update proportions, such as those of `build_system`, the shares
computed in `float64` add up to one up to `(N + 2) * 2^-52` for `N` participating subproblems. -/
theorem C68_shares_weighted {S : System} {v : Nat}
    (hw : ∀ s ∈ S.subs, IsFloat64 s.weight ∧ 0 < s.weight)
    (h0 : 0 < (participants S v).length) (h1 : (participants S v).length ≤ 2 ^ 51)
    (hl : 2 * ((participants S v).map Sub.weight).sum ≤ 2 ^ 1023) :
    FairShares float64Arith S v (((participants S v).length + 2) / 2 ^ 52) := by
  have hw' : ∀ q ∈ (participants S v).map Sub.weight, IsFloat64 q ∧ 0 < q := by
    intro q hq
    obtain ⟨s, hs, rfl⟩ := List.mem_map.1 hq
    exact hw s (List.mem_of_mem_filter hs)
  obtain ⟨W, w1, -, w3, w4⟩ := float64_total ((participants S v).map Sub.weight) 0 0 0 hw'
    (by rw [List.length_map]; omega) C67_float64.zero (le_refl _) (by simp) (by simp)
    (by rw [zero_add]; exact hl)
  rw [List.length_map, zero_add, zero_add] at w3 w4
  rw [List.foldl_map] at w1
  have hsh : machineShares float64Arith S v
      = ((participants S v).map Sub.weight).map fun q => float64Arith.div q W := by
    unfold machineShares
    rw [w1, List.map_map]
    rfl
  have hlen : ((participants S v).map Sub.weight).length = (participants S v).length := by simp
  rw [← hlen] at w3 w4 h0 h1 ⊢
  generalize (participants S v).map Sub.weight = l at *
  have hsum : 0 < l.sum := by
    cases l with
    | nil => simp at h0
    | cons q l =>
      rw [List.sum_cons]
      have := (hw' q (by simp)).2
      have : 0 ≤ l.sum := List.sum_nonneg fun x hx => (hw' x (List.mem_cons_of_mem _ hx)).2.le
      linarith
  have hW : 0 < W := lt_of_lt_of_le (mul_pos (pow_pos (by norm_num) _) hsum) w3
  have hmin : (1 : ℚ) - l.length * (1 / 2 ^ 53) ≤ (1 - 1 / 2 ^ 53) ^ l.length := by
    have := one_add_mul_le_pow (show (-2 : ℚ) ≤ -(1 / 2 ^ 53) by norm_num) l.length
    rw [← sub_eq_add_neg] at this
    linarith
  have hN : (l.length : ℚ) ≤ 2 ^ 51 := by exact_mod_cast h1
  have hN1 : (1 : ℚ) ≤ l.length := by exact_mod_cast h0
  have hNu : (l.length : ℚ) * (1 / 2 ^ 53) ≤ 1 / 4 := by
    have := mul_le_mul_of_nonneg_right hN (by norm_num : (0 : ℚ) ≤ 1 / 2 ^ 53)
    refine this.trans ?_
    norm_num
  have hdiv : ∀ q ∈ l, ∃ r : ℚ, float64Arith.div q W = r ∧ 0 ≤ r
      ∧ |r - q / W| ≤ 1 / 2 ^ 53 * (q / W) + 2 ^ (-1075 : ℤ) := by
    intro q hq
    have hq0 := (hw' q hq).2
    have hpos : 0 < q / W := div_pos hq0 hW
    have hqs : q ≤ l.sum := List.single_le_sum (fun x hx => (hw' x hx).2.le) q hq
    have hle : q / W ≤ 2 := by
      rw [div_le_iff₀ hW]
      have h3 : (1 : ℚ) / 2 ≤ (1 - 1 / 2 ^ 53) ^ l.length := by
        refine le_trans ?_ hmin
        linarith
      nlinarith
    obtain ⟨r, -, r2, r3⟩ := nearest64_error (s := q / W) (by
      rw [abs_of_pos hpos]
      refine hle.trans ?_
      calc (2 : ℚ) = 2 ^ 1 := by norm_num
        _ ≤ 2 ^ 1023 := pow_le_pow_right₀ (by norm_num) (by omega))
    refine ⟨r, ?_, ?_, ?_⟩
    · change (nearest64 (q / W)).untopD 0 = r
      rw [r2]; rfl
    · have h9 := nearest64_mono hpos.le
      have h10 : nearest64 0 = ((0 : ℚ) : Cost) := by
        have := nearest64_nat (show 0 < 2 ^ 53 by norm_num)
        simpa using this
      rw [r2, h10] at h9
      exact WithTop.coe_le_coe.1 h9
    · rwa [abs_of_pos hpos] at r3
  refine ⟨?_, ?_⟩
  · intro s hs
    rw [hsh] at hs
    obtain ⟨q, hq, rfl⟩ := List.mem_map.1 hs
    obtain ⟨r, r1, r2, -⟩ := hdiv q hq
    rw [r1]; exact r2
  · have hd : ∀ l' : List ℚ, (∀ q ∈ l', q ∈ l) →
        |(l'.map fun q => float64Arith.div q W).sum - l'.sum / W|
          ≤ 1 / 2 ^ 53 * (l'.sum / W) + l'.length * 2 ^ (-1075 : ℤ) := by
      intro l'
      induction l' with
      | nil => intro _; simp
      | cons q l' ih =>
        intro hq
        obtain ⟨r, r1, -, r3⟩ := hdiv q (hq q (by simp))
        have i := ih fun x hx => hq x (List.mem_cons_of_mem _ hx)
        rw [List.map_cons, List.sum_cons, List.sum_cons, List.length_cons, r1]
        have e1 : r + (l'.map fun q => float64Arith.div q W).sum - (q + l'.sum) / W
            = (r - q / W) + ((l'.map fun q => float64Arith.div q W).sum - l'.sum / W) := by
          rw [add_div]; ring
        rw [e1]
        refine (abs_add_le _ _).trans ?_
        rw [add_div]
        push_cast
        linarith
    have hd' := hd l fun _ h => h
    rw [hsh]
    have ht : (l.length : ℚ) * 2 ^ (-1075 : ℤ) ≤ 1 / 2 ^ 53 := by
      have h12 : (l.length : ℚ) * 2 ^ (-1075 : ℤ) ≤ 2 ^ (51 : ℤ) * 2 ^ (-1075 : ℤ) :=
        mul_le_mul_of_nonneg_right (by exact_mod_cast hN) (two_zpow_pos _).le
      rw [← zpow_add₀ (by norm_num)] at h12
      have h13 : (2 : ℚ) ^ (51 + -1075 : ℤ) ≤ 2 ^ (-53 : ℤ) :=
        zpow_le_zpow_right₀ (by norm_num) (by norm_num)
      have h14 : (2 : ℚ) ^ (-53 : ℤ) = 1 / 2 ^ 53 := by norm_num
      rw [← h14]
      exact h12.trans h13
    generalize (l.length : ℚ) * 2 ^ (-1075 : ℤ) = T at *
    generalize (l.map fun q => float64Arith.div q W).sum = R at *
    generalize hx : l.sum / W = x at *
    have x1 : x * (1 - l.length * (1 / 2 ^ 53)) ≤ 1 := by
      rw [← hx, div_mul_eq_mul_div, div_le_one hW]
      nlinarith
    have x2 : 1 - l.length * (1 / 2 ^ 53) ≤ x := by
      rw [← hx, le_div_iff₀ hW]
      have a1 : (1 - 1 / 2 ^ 53 : ℚ) ^ l.length * (1 + 1 / 2 ^ 53) ^ l.length ≤ 1 := by
        rw [← mul_pow]
        exact pow_le_one₀ (by norm_num) (by norm_num)
      have a0 : (0 : ℚ) ≤ (1 - 1 / 2 ^ 53) ^ l.length := pow_nonneg (by norm_num) _
      generalize (1 - 1 / 2 ^ 53 : ℚ) ^ l.length = m at *
      generalize (1 + 1 / 2 ^ 53 : ℚ) ^ l.length = p at *
      calc (1 - l.length * (1 / 2 ^ 53)) * W ≤ m * W := by nlinarith
        _ ≤ m * (p * l.sum) := mul_le_mul_of_nonneg_left w4 a0
        _ = (m * p) * l.sum := by ring
        _ ≤ l.sum := by nlinarith
    have x0 : 0 ≤ x := by rw [← hx]; exact (div_pos hsum hW).le
    generalize (l.length : ℚ) = N at *
    have x3 : x ≤ 1 + 2 * N * (1 / 2 ^ 53) := by
      have b1 : 1 ≤ (1 + 2 * N * (1 / 2 ^ 53)) * (1 - N * (1 / 2 ^ 53)) := by
        rw [mul_assoc]
        have c0 : 0 ≤ N * (1 / 2 ^ 53) := by positivity
        generalize N * (1 / 2 ^ 53) = y at *
        nlinarith
      have b2 : 0 < 1 - N * (1 / 2 ^ 53) := by linarith
      exact le_of_mul_le_mul_right (x1.trans b1) b2
    have x4 : x ≤ 3 / 2 := by linarith
    have e : (N + 2) / 2 ^ 52 = 2 * (N * (1 / 2 ^ 53)) + 4 * (1 / 2 ^ 53) := by ring
    have e3 : 2 * N * (1 / 2 ^ 53) = 2 * (N * (1 / 2 ^ 53)) := by ring
    have c0 : 0 ≤ N * (1 / 2 ^ 53) := by positivity
    have h4 : (1 / 2 ^ 53 : ℚ) * x ≤ 3 / 2 * (1 / 2 ^ 53) := by
      rw [mul_comm]; exact mul_le_mul_of_nonneg_right x4 (by norm_num)
    rw [e3] at x3
    rw [e]
    have h5 : (0 : ℚ) < 1 / 2 ^ 53 := by norm_num
    generalize (1 / 2 ^ 53 : ℚ) = y at *
    obtain ⟨d1, d2⟩ := abs_le.1 hd'
    rw [abs_le]
    constructor <;> linarith

/-! ## Concrete cases -/

/-- One path, with costs `2^53 + 2`, one and zero. -/
def upPacked : PackedDag where
  numStates := 4
  numKeys := 1
  numValues := 1
  edges := [⟨0, 1, ((9007199254740994 : ℚ) : Cost), none⟩, ⟨1, 2, 1, some (0, 0)⟩, ⟨2, 3, 0, none⟩]
  edgeBounds := [0, 1, 2, 3]
  stateBounds := [0, 2, 4]

theorem upPacked_wf : PackedWF upPacked := by
  have heb : ∀ i, upPacked.eb i = [0, 1, 2, 3].getD i 0 := fun _ => rfl
  have hsb : ∀ i, upPacked.sb i = [0, 2, 4].getD i 0 := fun _ => rfl
  have hk : upPacked.numKeys = 1 := rfl
  refine ⟨rfl, rfl, ?_, rfl, rfl, ?_, ?_, ?_, ?_, ?_, ?_⟩
  · intro i hi
    rw [hk] at hi
    rcases (by omega : i = 0 ∨ i = 1) with rfl | rfl <;> decide
  · intro i hi
    rw [hk] at hi
    rcases (by omega : i = 0 ∨ i = 1 ∨ i = 2) with rfl | rfl | rfl <;> decide
  · intro τ hτ k e h1 h2 h3
    rw [hk] at hτ
    rcases (by omega : τ = 0 ∨ τ = 1) with rfl | rfl
    · have : k = 0 := by simp [heb] at h1 h2; omega
      subst this
      simp only [upPacked, List.getElem?_cons_zero, Option.some.injEq] at h3
      subst h3
      simp [HasTag, hsb]
    · have : k = 2 := by simp [heb] at h1 h2; omega
      subst this
      simp only [upPacked, List.getElem?_cons_succ, List.getElem?_cons_zero,
        Option.some.injEq] at h3
      subst h3
      simp [HasTag, hsb]
  · intro v hv k e h1 h2 h3
    rw [hk] at hv
    have : v = 0 := by omega
    subst this
    have : k = 1 := by simp [heb] at h1 h2; omega
    subst this
    simp only [upPacked, List.getElem?_cons_succ, List.getElem?_cons_zero,
      Option.some.injEq] at h3
    subst h3
    simp [HasTag, upPacked, PackedDag.sb]
  · constructor
    · simp [TopoWeak, upPacked]
    · simp [upPacked]
  · simp [HasTag, hsb]
  · simp [HasTag, upPacked, PackedDag.sb]

theorem upPacked_complete (p : List PackedEdge) : Complete upPacked p ↔ p = upPacked.edges := by
  constructor
  · intro h
    rw [Complete, PackedWalk] at h
    cases p with
    | nil => rw [Walk.nil_iff] at h; simp [upPacked] at h
    | cons a p =>
    rw [Walk.cons_iff] at h
    obtain ⟨ha, hs, h⟩ := h
    simp only [upPacked, List.mem_cons, List.not_mem_nil, or_false] at ha
    rcases ha with rfl | rfl | rfl <;> simp only at hs
    · cases p with
      | nil => rw [Walk.nil_iff] at h; simp [upPacked] at h
      | cons b p =>
      rw [Walk.cons_iff] at h
      obtain ⟨hb, hs, h⟩ := h
      simp only [upPacked, List.mem_cons, List.not_mem_nil, or_false] at hb
      rcases hb with rfl | rfl | rfl <;> simp at hs
      cases p with
      | nil => rw [Walk.nil_iff] at h; simp [upPacked] at h
      | cons c p =>
      rw [Walk.cons_iff] at h
      obtain ⟨hc, hs, h⟩ := h
      simp only [upPacked, List.mem_cons, List.not_mem_nil, or_false] at hc
      rcases hc with rfl | rfl | rfl <;> simp at hs
      cases p with
      | nil => rfl
      | cons c p =>
      rw [Walk.cons_iff] at h
      obtain ⟨hc, hs, h⟩ := h
      simp only [upPacked, List.mem_cons, List.not_mem_nil, or_false] at hc
      rcases hc with rfl | rfl | rfl <;> simp at hs
    · simp at hs
    · simp at hs
  · rintro rfl
    rw [Complete, PackedWalk, upPacked]
    simp only [Walk.cons_iff, Walk.nil_iff]
    simp

theorem upPacked_range (pen : Penalties) (hp0 : pen 0 0 = 0) :
    InRange IsFloat64 upPacked pen 3 9007199254740995 := by
  have h0 : IsFloat64 0 := ⟨0, 0, by norm_num, by norm_num, by norm_num⟩
  have h1 : IsFloat64 1 := ⟨1, 0, by norm_num, by norm_num, by norm_num⟩
  have h2 : IsFloat64 9007199254740994 := ⟨4503599627370497, 1, by norm_num, by norm_num, by norm_num⟩
  have hp1 : PackedEdge.penalty pen ⟨1, 2, 1, some (0, 0)⟩ = ((0 : ℚ) : Cost) := by
    change pen 0 0 = _
    rw [hp0]; rfl
  refine ⟨?_, ?_, ?_⟩
  · intro e he x hx
    simp only [upPacked, List.mem_cons, List.not_mem_nil, or_false] at he
    rcases he with rfl | rfl | rfl <;> rcases hx with hx | hx
    · rw [← WithTop.coe_inj.1 hx]; exact h2
    · rw [← WithTop.coe_inj.1 (show ((0 : ℚ) : Cost) = x from hx)]; exact h0
    · rw [← WithTop.coe_inj.1 (show ((1 : ℚ) : Cost) = x from hx)]; exact h1
    · rw [hp1] at hx; rw [← WithTop.coe_inj.1 hx]; exact h0
    · rw [← WithTop.coe_inj.1 (show ((0 : ℚ) : Cost) = x from hx)]; exact h0
    · rw [← WithTop.coe_inj.1 (show ((0 : ℚ) : Cost) = x from hx)]; exact h0
  · intro p hp
    rw [(upPacked_complete p).1 hp]
    exact le_refl 3
  · intro p hp t ht
    rw [(upPacked_complete p).1 hp] at ht
    obtain ⟨l, g1, -, rfl⟩ := ht
    have : l = [9007199254740994, 0, 1, 0, 0, 0] := by
      apply List.map_injective_iff.2 (fun x y h => WithTop.coe_inj.1 h)
      refine g1.symm.trans ?_
      change [_, _, _, PackedEdge.penalty pen ⟨1, 2, 1, some (0, 0)⟩, _, _] = _
      rw [hp1]
      rfl
    rw [this]
    norm_num

/-- Two copies of it, sharing the variable. -/
def upDags : List (PackedDag × List Nat × List Nat) :=
  [(upPacked, [4], [5]), (upPacked, [4], [5])]

theorem upDags_good : ∀ d ∈ upDags, GoodDag d := by
  intro d hd
  simp only [upDags, List.mem_cons, List.not_mem_nil, or_false] at hd
  rcases hd with rfl | rfl <;> exact ⟨upPacked_wf, by simp, rfl, rfl⟩

/-- The system they make. -/
def upSystem : System where
  subs := [⟨emptyUnpenalizedTable ⊤ upPacked, indexColumn [4] [4], 1⟩,
    ⟨emptyUnpenalizedTable ⊤ upPacked, indexColumn [4] [4], 1⟩]
  extra := fun _ _ => 0
  numKeys := 1
  numValues := 1

theorem up_made : makeSystem ⊤ upDags none = .ok ⟨upSystem, [4], [5]⟩ := by
  have hk : systemKeys upDags = [4] := by
    have : firstSeen id (upDags.flatMap fun d => d.2.1) = [4] := by decide
    unfold systemKeys
    rw [this]
    exact List.mergeSort_of_pairwise (by simp)
  unfold upDags at hk ⊢
  unfold makeSystem
  dsimp only
  rw [if_neg (by simp), hk]
  rfl

theorem up_joint : Joint upSystem (fun _ => 0) [upPacked.edges, upPacked.edges]
    ∧ jointCost upSystem (fun _ => 0) [upPacked.edges, upPacked.edges]
      = ((18014398509481990 : ℚ) : Cost) := by
  refine ⟨⟨?_, ?_⟩, by decide +kernel⟩
  · intro v _
    exact Nat.zero_lt_one
  · have h : Complete upPacked upPacked.edges ∧ ∀ v k x, indexColumn [4] [4] v = some k →
        (k, x) ∈ assignments upPacked.edges → x = 0 := by
      refine ⟨(upPacked_complete _).2 rfl, ?_⟩
      intro v k x _ hx
      have : assignments upPacked.edges = [(0, 0)] := rfl
      rw [this] at hx
      simp at hx
      exact hx.2
    exact .cons h (.cons h .nil)

/-- C68: an error is possible: on two DAGs the bound reported in `float64` is greater than the cost of
a joint solution. -/
theorem C68_exceeds : ∃ D : DualSystem Nat Nat, makeSystem ⊤ upDags none = .ok D
    ∧ (∃ S, averages float64Arith [0] D.data = some (S, [((18014398509481992 : ℚ) : Cost)]))
    ∧ ∃ a paths, Joint D.data a paths
      ∧ jointCost D.data a paths = ((18014398509481990 : ℚ) : Cost) := by
  refine ⟨_, up_made, ?_, _, _, up_joint⟩
  have h : (averages float64Arith [0] upSystem).map Prod.snd
      = some [((18014398509481992 : ℚ) : Cost)] := by decide +kernel
  rw [Option.map_eq_some_iff] at h
  obtain ⟨⟨S, bs⟩, h1, rfl⟩ := h
  exact ⟨S, h1⟩

theorem up_step {S : System} (h : ∀ s ∈ S.subs, s.memo.dag = upPacked ∧ s.index 0 = some 0)
    (he : S.extra = fun _ _ => 0) : StepInRange IsFloat64 S 0 3 9007199254740995 0 := by
  refine ⟨?_, ?_⟩
  · intro s hs
    obtain ⟨h1, h2⟩ := h s hs
    rw [h1]
    apply upPacked_range
    unfold Sub.without
    rw [if_pos h2]
  · intro x c hc
    rw [he] at hc
    rw [← WithTop.coe_inj.1 (show ((0 : ℚ) : Cost) = c from hc)]
    exact ⟨⟨0, 0, by norm_num, by norm_num, by norm_num⟩, by simp⟩

/-- The hypotheses of `C68_bound` are met by this system, `float64` and any number of steps. -/
example (vs : List Nat) (hvs : ∀ v ∈ vs, v = 0) :
    AccurateArith float64Arith IsFloat64 (1 / 2 ^ 53) (2 ^ (-1075 : ℤ)) (2 ^ 1023)
    ∧ makeSystem ⊤ upDags none = .ok ⟨upSystem, [4], [5]⟩ ∧ (∀ d ∈ upDags, GoodDag d)
    ∧ GoodWeights upDags.length none ∧ (∀ v ∈ vs, v < upSystem.numKeys)
    ∧ (∀ v ∈ vs, FairShares float64Arith upSystem v (1 / 2 ^ 52))
    ∧ RunInRange float64Arith IsFloat64 3 9007199254740995 0 vs upSystem
    ∧ rangeNeeded (1 / 2 ^ 53) (1 / 2 ^ 52) (2 ^ (-1075 : ℤ)) upDags.length 3 9007199254740995 0
      ≤ 2 ^ 1023 := by
  refine ⟨C68_float64, up_made, upDags_good, (fun w hw => by cases hw), ?_, ?_, ?_, ?_⟩
  · intro v hv; rw [hvs v hv]; exact Nat.zero_lt_one
  · intro v hv
    rw [hvs v hv]
    have hp : (participants upSystem 0).length = 2 := rfl
    refine C68_shares ?_ (by rw [hp]; norm_num) (by rw [hp]; norm_num)
    intro s hs
    simp only [upSystem, List.mem_cons, List.not_mem_nil, or_false] at hs
    rcases hs with rfl | rfl <;> rfl
  · suffices H : ∀ (vs : List Nat) (S : System), (∀ v ∈ vs, v = 0) →
        (∀ s ∈ S.subs, Rnd.RSubOK float64Arith.toMachine S.numKeys S.numValues s) →
        Joint S (fun _ => 0) [upPacked.edges, upPacked.edges] →
        (∀ s ∈ S.subs, s.memo.dag = upPacked ∧ s.index 0 = some 0) → (S.extra = fun _ _ => 0) →
        RunInRange float64Arith IsFloat64 3 9007199254740995 0 vs S by
      refine H vs upSystem hvs (made_ready up_made upDags_good (fun w hw => by cases hw)).1
        up_joint.1 ?_ rfl
      intro s hs
      simp only [upSystem, List.mem_cons, List.not_mem_nil, or_false] at hs
      rcases hs with rfl | rfl <;> exact ⟨rfl, rfl⟩
    intro vs
    induction vs with
    | nil => intro S _ _ _ _ _; trivial
    | cons v vs ih =>
      intro S hv hok hj hd he
      have hv0 := hv v (by simp)
      subst hv0
      refine ⟨up_step hd he, ?_⟩
      rintro ⟨S', b⟩ ha
      obtain ⟨k1, k2, -, -, -, k6, -⟩ := Rnd.step_keep hok hj ha
      refine ih S' (fun w hw => hv w (List.mem_cons_of_mem _ hw)) k1 k2 ?_ (k6.trans he)
      intro s hs
      exact Rnd.step_dags hok ha (P := fun d i => d = upPacked ∧ i 0 = some 0) hd s hs
  · have e : upDags.length = 2 := rfl
    rw [e]
    unfold rangeNeeded
    have h1 : (2 : ℚ) ^ (-1075 : ℤ) ≤ 1 := zpow_le_one_of_nonpos₀ (by norm_num) (by norm_num)
    have h2 : (2 : ℚ) ^ 60 ≤ 2 ^ 1023 := pow_le_pow_right₀ (by norm_num) (by omega)
    have h3 : 2 * (1 + 1 / 2 ^ 52) * (1 + 1 / 2 ^ 53 : ℚ) ^ (2 * 3 + 2 + 4)
        * (((2 : ℕ) : ℚ) * 9007199254740995 + 0) + 1 ≤ 2 ^ 60 := by norm_num
    exact (add_le_add (le_refl _) h1).trans (h3.trans h2)

end RUSure.Props
