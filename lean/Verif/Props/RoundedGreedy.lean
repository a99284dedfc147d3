import Verif.Lemmas.RoundedGreedy
import Verif.Spec.RoundedGreedy
import Verif.Props.RoundedDual

/-!
# Greedy extraction in machine arithmetic (C69)
-/

namespace RUSure.Props
open RUSure RUSure.Spec RUSure.Lemmas RUSure.Rounded

/-- C69: with exact arithmetic this is the greedy extraction of C39. -/
theorem C69_exact (S : System) (dir : Direction) : Rounded.greedy exactArith S dir = S.greedy dir := by
  have h : ∀ (vs : List Nat) (S : System) (a : Nat → Nat) (c : Option Cost),
      Rounded.greedyLoop exactArith vs S a c = RUSure.greedyLoop vs S a c := by
    intro vs
    induction vs with
    | nil => intro S a c; rfl
    | cons v vs ih =>
      intro S a c
      unfold Rounded.greedyLoop RUSure.greedyLoop
      rw [(C68_exact S v 0 (fun _ => false) 0).1]
      simp only [ih]
      rfl
  unfold Rounded.greedy System.greedy
  rw [h]

section
variable {K V : Type} [LinearOrder K] [DecidableEq V]

/-- C69: greedy extraction after averaging any variables in any order in a new system, with an
arithmetic of relative error `u`: it returns one value for each variable, and a cost that differs by at
most `extractError` from the minimal cost of the joint solutions with these values. -/
theorem C69_greedy {A : Arith} {F : ℚ → Prop} {u τ η limit : ℚ}
    (hA : AccurateArith A F u τ limit) (hu : 0 ≤ u) (hτ : 0 ≤ τ) (hη : 0 ≤ η)
    {invalid : Cost} {dags : List (PackedDag × List K × List V)} {weights : Option (List ℚ)}
    {D : DualSystem K V} (hm : makeSystem invalid dags weights = .ok D)
    (hd : ∀ d ∈ dags, GoodDag d) (hw : GoodWeights dags.length weights)
    {n : Nat} {M X M' : ℚ} (hM : 0 ≤ M) (hX : 0 ≤ X) (hM' : 0 ≤ M')
    (vs : List Nat) (hvs : ∀ v ∈ vs, v < D.data.numKeys)
    (hs : ∀ v ∈ vs, FairShares A D.data v η) (hr : RunInRange A F n M X vs D.data)
    (hl : rangeNeeded u η τ dags.length n M X ≤ limit)
    {S : System} {bs : List Cost} (he : averages A vs D.data = some (S, bs))
    (hr' : ∀ s ∈ S.subs, InRange F s.memo.dag s.memo.pen n M')
    (hl' : (1 + u) ^ (2 * n + 1 + dags.length) * (dags.length * M') ≤ limit)
    {dir : Direction} {vec : List Nat} {c : Option Cost}
    (hg : Rounded.greedy A S dir = some (vec, c)) :
    vec.length = D.data.numKeys ∧ (∀ x ∈ vec, x < D.data.numValues)
    ∧ (D.data.numKeys = 0 → c = none)
    ∧ (D.data.numKeys ≠ 0 → ∃ C, c = some C
      ∧ (∀ paths, Joint D.data (fun v => vec.getD v 0) paths →
        C ≤ jointCost D.data (fun v => vec.getD v 0) paths
          + (extractError u η τ dags.length D.data.numKeys n M X M' : Cost))
      ∧ (C ≠ ⊤ → ∃ paths, Joint D.data (fun v => vec.getD v 0) paths
        ∧ jointCost D.data (fun v => vec.getD v 0) paths
          ≤ C + (extractError u η τ dags.length D.data.numKeys n M X M' : Cost))) := by
  obtain ⟨h1, h2⟩ := made_ready (A := A) hm hd hw
  have hinv := makeSystem_inv hm hd hw
  have hlen : D.data.subs.length = dags.length := by
    rw [(makeSystem_ok hm).2.2.2.2.2.2]; simp
  have hext : D.data.extra = fun _ _ => 0 := (makeSystem_ok hm).2.2.2.2.2.1
  obtain ⟨hsame, hok⟩ := Rnd.run_same vs _ _ _ h1 he
  have hlen' : S.subs.length = dags.length := by rw [← hsame.subs.length_eq, hlen]
  obtain ⟨a, rfl, g2, g3, g4⟩ := Rnd.greedy_cost hA.sums hu hM' hok hr' (by rw [hlen']; exact hl') hg
  rw [hsame.keys] at g2 g3 g4 ⊢
  rw [hsame.values] at g2
  have hag : ∀ w < D.data.numKeys, a w = ((List.range D.data.numKeys).map a).getD w 0 := by
    intro w hw
    simp [List.getD_eq_getElem?_getD, hw]
  have himb : 0 ≤ imbalance u η τ dags.length n M X :=
    Rnd.imbalance_nonneg hu hη hτ (mul_nonneg (Nat.cast_nonneg _) hM) hX
  -- the penalised cost of a joint solution
  have hnear : ∀ paths, Joint D.data a paths → ∀ J : ℚ, jointCost D.data a paths = J →
      ∃ E : ℚ, (List.zipWith (fun s p => pathCost s.memo.pen p) S.subs paths).sum = E
        ∧ |E - J| ≤ D.data.numKeys * imbalance u η τ dags.length n M X := by
    intro paths hj J hJ
    have hb := Rnd.run_bal hA hu hτ vs _ _ _ h1 hj hJ (fun w _ => by
      obtain ⟨q, e, b1, b2, b3⟩ := h2 a w
      exact ⟨q, e, b1, b2, b3.trans (by rw [hlen]; exact himb)⟩)
      (fun v hv => ⟨hvs v hv, hs v hv⟩) hr (by rw [hlen]; exact hl) he
    rw [hlen] at hb
    have := Rnd.joint_near hok (hsame.joint.2 hj) ((hsame.cost a paths).trans hJ) hb
    rwa [hsame.keys] at this
  refine ⟨by simp, ?_, g3, ?_⟩
  · intro x hx
    obtain ⟨w, hw, rfl⟩ := List.mem_map.1 hx
    exact g2 w (List.mem_range.1 hw)
  · intro h0
    obtain ⟨C, c1, c2, c3⟩ := g4 h0
    rw [hlen'] at c2 c3
    refine ⟨C, c1, ?_, ?_⟩
    · intro paths hj
      have hj' := joint_congr hinv (fun w hw => (hag w hw).symm) hj
      rw [← jointCost_congr (b := a) hag]
      cases hJ : jointCost D.data a paths using WithTop.recTopCoe with
      | top => simp
      | coe J =>
        obtain ⟨E, e1, e2⟩ := hnear paths hj' J hJ
        refine (c2 paths (hsame.joint.2 hj') E e1).trans ?_
        rw [← WithTop.coe_add]
        apply WithTop.coe_le_coe.2
        have := (abs_le.1 e2).2
        unfold extractError
        linarith
    · intro hC
      lift C to ℚ using hC
      obtain ⟨paths, p1, E, p2, p3⟩ := c3 C rfl
      have hj := hsame.joint.1 p1
      have hJ : jointCost D.data a paths ≠ ⊤ := by
        have h3 : ((List.range D.data.numKeys).map fun w => D.data.extra w (a w)).sum = 0 := by
          rw [hext]
          exact List.sum_eq_zero (by simp)
        unfold jointCost
        rw [h3, add_zero, ← lt_top_iff_ne_top, sum_lt_top]
        have h4 := p1.paths
        have h5 : (List.zipWith (fun s p => pathCost s.memo.pen p) S.subs paths).sum < ⊤ := by
          rw [p2]; exact WithTop.coe_lt_top _
        clear p1 p2 p3 hj c1 c2 c3 hnear hg he hr' hok hsame hlen'
        generalize S.subs = ss at h4 h5
        induction h4 with
        | nil => simp
        | @cons s p ss ps _ _ ih =>
          rw [List.zipWith_cons_cons, List.sum_cons, WithTop.add_lt_top] at h5
          intro c hc
          rw [List.map_cons] at hc
          rcases List.mem_cons.1 hc with rfl | hc
          · exact ((pathCost_lt_top _ _).1 h5.1).1
          · exact ih h5.2 c hc
      obtain ⟨J, hJ⟩ := WithTop.ne_top_iff_exists.1 hJ
      obtain ⟨E', e1, e2⟩ := hnear paths hj J hJ.symm
      rw [p2, WithTop.coe_inj] at e1
      refine ⟨paths, joint_congr hinv hag hj, ?_⟩
      rw [← jointCost_congr (b := a) hag, ← hJ, ← WithTop.coe_add]
      apply WithTop.coe_le_coe.2
      have := (abs_le.1 e2).1
      unfold extractError
      linarith

/-- C69: averaging and greedy extraction succeed if there are values and every DAG has a variable. -/
theorem C69_defined (A : Arith) {invalid : Cost} {dags : List (PackedDag × List K × List V)}
    {weights : Option (List ℚ)} {D : DualSystem K V} (hm : makeSystem invalid dags weights = .ok D)
    (hd : ∀ d ∈ dags, GoodDag d) (hw : GoodWeights dags.length weights)
    (hk : ∀ d ∈ dags, d.2.1 ≠ []) (hv : D.values ≠ []) (vs : List Nat) (dir : Direction) :
    ∃ S bs vec c, averages A vs D.data = some (S, bs) ∧ Rounded.greedy A S dir = some (vec, c) := by
  obtain ⟨-, -, -, -, h5, -, h7⟩ := makeSystem_ok hm
  obtain ⟨h1, -⟩ := made_ready (A := A) hm hd hw
  have hok : ∀ s ∈ D.data.subs, Rnd.RSubOK A.toMachine D.data.numKeys D.data.numValues s
      ∧ 0 < s.memo.dag.numKeys := by
    intro s hs
    refine ⟨h1 s hs, ?_⟩
    rw [h7] at hs
    obtain ⟨⟨d, i⟩, hx, rfl⟩ := List.mem_map.1 hs
    have hmem : d ∈ dags := List.fst_mem_of_mem_zipIdx hx
    have := List.length_pos_iff.2 (hk d hmem)
    rw [(hd d hmem).keys_length] at this
    exact this
  obtain ⟨⟨S, bs⟩, hr⟩ := Rnd.averages_some (A := A) vs D.data hok
  obtain ⟨g1, g2⟩ := Rnd.run_same vs _ _ _ h1 hr
  have hV : S.numValues ≠ 0 := by
    rw [g1.values, h5]
    exact fun hc => hv (List.length_eq_zero_iff.1 hc)
  obtain ⟨r, hr'⟩ := Rnd.greedyLoop_some (A := A) (dir.order S.numKeys) S (fun _ => 0) none
    (fun s hs => ⟨g2 s hs, by
      obtain ⟨s0, hs0, e1, -⟩ := Rnd.forall₂_mem_right g1.subs s hs
      rw [e1]
      exact (hok s0 hs0).2⟩) hV
  exact ⟨S, bs, _, _, hr, by unfold Rounded.greedy; rw [hr']; rfl⟩

/-- C69: if the cost extracted is at most `ε` above a bound reported on the way, then some joint
solution with the extracted values costs at most `ε` more than any joint solution, up to the errors of
the bound and of the extraction. -/
theorem C69_certificate {A : Arith} {F : ℚ → Prop} {u τ η limit : ℚ}
    (hA : AccurateArith A F u τ limit) (hu : 0 ≤ u) (hτ : 0 ≤ τ) (hη : 0 ≤ η)
    {invalid : Cost} {dags : List (PackedDag × List K × List V)} {weights : Option (List ℚ)}
    {D : DualSystem K V} (hm : makeSystem invalid dags weights = .ok D)
    (hd : ∀ d ∈ dags, GoodDag d) (hw : GoodWeights dags.length weights)
    {n : Nat} {M X M' : ℚ} (hM : 0 ≤ M) (hX : 0 ≤ X) (hM' : 0 ≤ M')
    (vs : List Nat) (hvs : ∀ v ∈ vs, v < D.data.numKeys)
    (hs : ∀ v ∈ vs, FairShares A D.data v η) (hr : RunInRange A F n M X vs D.data)
    (hl : rangeNeeded u η τ dags.length n M X ≤ limit)
    {S : System} {bs : List Cost} (he : averages A vs D.data = some (S, bs))
    (hr' : ∀ s ∈ S.subs, InRange F s.memo.dag s.memo.pen n M')
    (hl' : (1 + u) ^ (2 * n + 1 + dags.length) * (dags.length * M') ≤ limit)
    {dir : Direction} {vec : List Nat} {C b ε : ℚ}
    (hg : Rounded.greedy A S dir = some (vec, some (C : Cost))) (hb : (b : Cost) ∈ bs) (hC : C ≤ b + ε) :
    ∃ paths, Joint D.data (fun v => vec.getD v 0) paths
      ∧ ∀ a' paths', Joint D.data a' paths' →
        jointCost D.data (fun v => vec.getD v 0) paths ≤ jointCost D.data a' paths'
          + ((ε + extractError u η τ dags.length D.data.numKeys n M X M'
            + ((D.data.numKeys - 1) * imbalance u η τ dags.length n M X
              + sumError u dags.length n M X) : ℚ) : Cost) := by
  obtain ⟨-, -, g3, g4⟩ := C69_greedy hA hu hτ hη hm hd hw hM hX hM' vs hvs hs hr hl he hr' hl' hg
  obtain ⟨C', c1, -, c3⟩ := g4 fun h0 => by cases g3 h0
  obtain rfl : (C : Cost) = C' := by simpa using c1
  obtain ⟨paths, p1, p2⟩ := c3 WithTop.coe_ne_top
  refine ⟨paths, p1, ?_⟩
  intro a' paths' hj
  have h := C68_bound hA hu hτ hm hd hw vs hvs hs hr hl he hj _ hb
  cases hJ : jointCost D.data a' paths' using WithTop.recTopCoe with
  | top => simp
  | coe J =>
    refine p2.trans ?_
    rw [hJ] at h
    rw [← WithTop.coe_add] at h ⊢
    rw [← WithTop.coe_add]
    have h' := WithTop.coe_le_coe.1 h
    apply WithTop.coe_le_coe.2
    linarith

end

/-! ## Concrete cases -/

/-- C69: an error is possible: the cost returned in `float64` for this system is greater than that of a
joint solution with the values returned. -/
theorem C69_differs : Rounded.greedy float64Arith upSystem .forward
      = some ([0], some ((18014398509481992 : ℚ) : Cost))
    ∧ ∃ paths, Joint upSystem (fun _ => 0) paths
      ∧ jointCost upSystem (fun _ => 0) paths = ((18014398509481990 : ℚ) : Cost) := by
  refine ⟨?_, _, up_joint⟩
  decide +kernel

/-- The hypotheses of `C69_greedy` and `C69_certificate` are met by this system in `float64` after
averaging its variable. -/
example : ∃ S : System,
    averages float64Arith [0] upSystem = some (S, [((18014398509481992 : ℚ) : Cost)])
    ∧ Rounded.greedy float64Arith S .forward = some ([0], some ((18014398509481992 : ℚ) : Cost))
    ∧ (∀ s ∈ S.subs, InRange IsFloat64 s.memo.dag s.memo.pen 3 9007199254740995)
    ∧ RunInRange float64Arith IsFloat64 3 9007199254740995 0 [0] upSystem
    ∧ FairShares float64Arith upSystem 0 (1 / 2 ^ 52)
    ∧ (1 + 1 / 2 ^ 53 : ℚ) ^ (2 * 3 + 1 + upDags.length) * (upDags.length * 9007199254740995)
      ≤ 2 ^ 1023 := by
  have h : ((averages float64Arith [0] upSystem).bind fun r =>
      (Rounded.greedy float64Arith r.1 .forward).map fun g =>
        (r.2, g, r.1.subs.map fun s => s.memo.pen 0 0))
      = some ([((18014398509481992 : ℚ) : Cost)], ([0], some ((18014398509481992 : ℚ) : Cost)),
        [0, 0]) := by decide +kernel
  rw [Option.bind_eq_some_iff] at h
  obtain ⟨⟨S, bs⟩, h1, h2⟩ := h
  rw [Option.map_eq_some_iff] at h2
  obtain ⟨g, h2, h3⟩ := h2
  simp only [Prod.mk.injEq] at h3
  obtain ⟨rfl, rfl, h3⟩ := h3
  have hup : ∀ s ∈ upSystem.subs, s.memo.dag = upPacked ∧ s.index 0 = some 0 := by
    intro s hs
    simp only [upSystem, List.mem_cons, List.not_mem_nil, or_false] at hs
    rcases hs with rfl | rfl <;> exact ⟨rfl, rfl⟩
  obtain ⟨g1, g2⟩ := Rnd.run_same (A := float64Arith) [0] _ _ _
    (made_ready up_made upDags_good (fun w hw => by cases hw)).1 h1
  refine ⟨S, h1, h2, ?_, ⟨up_step hup rfl, fun _ _ => trivial⟩, ?_, ?_⟩
  · intro s hs
    obtain ⟨s0, hs0, e1, -⟩ := Rnd.forall₂_mem_right g1.subs s hs
    rw [e1, (hup s0 hs0).1]
    apply upPacked_range
    have hm : s.memo.pen 0 0 ∈ S.subs.map fun s => s.memo.pen 0 0 := List.mem_map.2 ⟨s, hs, rfl⟩
    rw [h3] at hm
    simpa using hm
  · have hp : (participants upSystem 0).length = 2 := rfl
    refine C68_shares ?_ (by rw [hp]; norm_num) (by rw [hp]; norm_num)
    intro s hs
    simp only [upSystem, List.mem_cons, List.not_mem_nil, or_false] at hs
    rcases hs with rfl | rfl <;> rfl
  · have e : upDags.length = 2 := rfl
    rw [e]
    have h2 : (2 : ℚ) ^ 60 ≤ 2 ^ 1023 := pow_le_pow_right₀ (by norm_num) (by omega)
    refine le_trans ?_ h2
    norm_num

end RUSure.Props
