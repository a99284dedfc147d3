import Verif.Lemmas.RoundedPrepared
import Verif.Props.RoundedConstrain

/-!
# C86: solving systems with constraints or noise in `float64`
-/

namespace RUSure.Props
open RUSure RUSure.Spec RUSure.Lemmas RUSure.Rounded

section
variable {K V : Type} [LinearOrder K] [DecidableEq V]
variable {A : Arith} {F : ℚ → Prop} {u τ η limit : ℚ} {n : Nat} {c X : ℚ}
variable {invalid : Cost} {dags : List (PackedDag × List K × List V)} {weights : Option (List ℚ)}
  {D D' : DualSystem K V}

theorem preparedSize_nonneg (hu : 0 ≤ u) (hη : 0 ≤ η) (hτ : 0 ≤ τ) (hX : 0 ≤ X) (hc : 0 ≤ c)
    (N n T : Nat) : 0 ≤ preparedSize u η τ N n c X T := by
  have hC : 0 ≤ (n : ℚ) * c + n * ((1 + u) * X + τ) :=
    add_nonneg (mul_nonneg (Nat.cast_nonneg _) hc)
      (mul_nonneg (Nat.cast_nonneg _) (add_nonneg (mul_nonneg (by linarith) hX) hτ))
  exact hC.trans (Rnd.growSize_base hu hη hτ hX hC T)

/-- C86: if the costs of the edges have at most size `c` and the extra costs at most size `X`, all
numbers of a run of at most `T` steps stay in the range in which the arithmetic is accurate, and so do
those of the system it leaves. -/
theorem C86_range (hA : AccurateArith A F u τ limit) (hS : AccurateShares A F u τ limit) (hF0 : F 0)
    (hu : 0 ≤ u) (hτ : 0 ≤ τ) (hη : 0 ≤ η) (hX : 0 ≤ X) (hc : 0 ≤ c)
    (hm : makeSystem invalid dags weights = .ok D)
    (hd : ∀ d ∈ dags, GoodDag d) (hw : GoodWeights dags.length weights)
    (hb : ∀ d ∈ dags, DagBounded F d.1 n c) (hp : Prepared A F X D D')
    {vs : List Nat} (hs : ∀ v ∈ vs, FairShares A D.data v η) {T : Nat} (hT : vs.length ≤ T)
    (hl : rangeNeeded u η τ dags.length n (preparedSize u η τ dags.length n c X T) X ≤ limit) :
    RunInRange A F n (preparedSize u η τ dags.length n c X T) X vs D'.data
    ∧ ∀ S bs, averages A vs D'.data = some (S, bs) → ∀ s ∈ S.subs,
      InRange F s.memo.dag s.memo.pen n (preparedSize u η τ dags.length n c X T) := by
  have hM := preparedSize_nonneg hu hη hτ hX hc dags.length n T
  have hok := prepared_ok hS hF0 hu hτ hη hM hX hm hd hw hp hl
  obtain ⟨p, us, g1, g2⟩ := prepared_ustart hm hd hw hF0 hX hp
  obtain ⟨-, -, hne, -, -, -, h7⟩ := makeSystem_ok hm
  have hlen : D'.data.subs.length = dags.length := by rw [hok.length, h7]; simp
  have hroom : (1 + u) * X + τ ≤ limit := (Rnd.range_room hu hη hM hX).trans hl
  have hnc : 0 ≤ (n : ℚ) * c := mul_nonneg (Nat.cast_nonneg _) hc
  have hP : 0 ≤ (1 + u) * X + τ := add_nonneg (mul_nonneg (by linarith) hX) hτ
  have hcost : ∀ s ∈ D'.data.subs, Rnd.Costed F s.memo.dag n (n * c) := by
    intro s hs
    obtain ⟨s0, hs0, e1, -⟩ := Rnd.forall₂_mem_right hok.dags s hs
    rw [e1]
    rw [h7] at hs0
    obtain ⟨⟨d, i⟩, hx, rfl⟩ := List.mem_map.1 hs0
    have hdm := List.fst_mem_of_mem_zipIdx hx
    exact Rnd.bounded_costed (hb d hdm) hc (hd d hdm).wf
  exact Rnd.run_grows hA hu hτ hη hX (N := dags.length) hnc
    (C := n * c + n * ((1 + u) * X + τ)) (by
      have := mul_nonneg (Nat.cast_nonneg (α := ℚ) n) hP
      linarith) (List.length_pos_iff.2 hne) hl vs D'.data 0 ((1 + u) * X + τ)
    (by omega) hlen hok.ok hcost hP (g1.penned hS hF0 hu hτ hX hroom g2) (le_refl _)
    (g1.extras hS hF0 hX (by nlinarith) g2)
    (fun v hv => ⟨by rw [hok.shares]; exact (hs v hv).nonneg, by rw [hok.shares]; exact (hs v hv).total⟩)

/-- C86: averaging a prepared system and extracting from it never fails. -/
theorem C86_defined (hS : AccurateShares A F u τ limit) (hF0 : F 0)
    (hu : 0 ≤ u) (hτ : 0 ≤ τ) (hX : 0 ≤ X)
    (hm : makeSystem invalid dags weights = .ok D)
    (hd : ∀ d ∈ dags, GoodDag d) (hw : GoodWeights dags.length weights)
    (hk : ∀ d ∈ dags, d.2.1 ≠ []) (hv : D.values ≠ []) (hp : Prepared A F X D D')
    (hl : (1 + u) * X + τ ≤ limit) (vs : List Nat) (dir : Direction) :
    ∃ S bs vec C, averages A vs D'.data = some (S, bs) ∧ Rounded.greedy A S dir = some (vec, C) := by
  obtain ⟨p, us, g1, g2⟩ := prepared_ustart hm hd hw hF0 hX hp
  obtain ⟨-, -, -, -, h5, -, h7⟩ := makeSystem_ok hm
  have hok : ∀ s ∈ D'.data.subs, Rnd.RSubOK A.toMachine D'.data.numKeys D'.data.numValues s
      ∧ 0 < s.memo.dag.numKeys := by
    intro s hs
    refine ⟨g1.ok s hs, ?_⟩
    obtain ⟨s0, hs0, e1, -⟩ := Rnd.forall₂_mem_right g1.subs s hs
    rw [e1]
    rw [h7] at hs0
    obtain ⟨⟨d, i⟩, hx, rfl⟩ := List.mem_map.1 hs0
    have hmem : d ∈ dags := List.fst_mem_of_mem_zipIdx hx
    have := List.length_pos_iff.2 (hk d hmem)
    rw [(hd d hmem).keys_length] at this
    exact this
  obtain ⟨⟨S, bs⟩, hr⟩ := Rnd.averages_some (A := A) vs D'.data hok
  obtain ⟨k1, k2⟩ := Rnd.run_same vs _ _ _ g1.ok hr
  have hV : S.numValues ≠ 0 := by
    rw [k1.values, g1.values, h5]
    exact fun hc => hv (List.length_eq_zero_iff.1 hc)
  obtain ⟨r, hr'⟩ := Rnd.greedyLoop_some (A := A) (dir.order S.numKeys) S (fun _ => 0) none
    (fun s hs => ⟨k2 s hs, by
      obtain ⟨s0, hs0, e1, -⟩ := Rnd.forall₂_mem_right k1.subs s hs
      rw [e1]
      exact (hok s0 hs0).2⟩) hV
  exact ⟨S, bs, _, _, hr, by unfold Rounded.greedy; rw [hr']; rfl⟩

/-- C86: if the cost extracted from a prepared system is at most `ε` above a bound reported on the way,
then some joint solution with the extracted values costs at most `ε` more than any joint solution, up
to the errors of the bound and of the extraction. Costs include those of the violated constraints, or
of the noise. -/
theorem C86_certificate (hA : AccurateArith A F u τ limit) (hS : AccurateShares A F u τ limit)
    (hF0 : F 0) (hu : 0 ≤ u) (hτ : 0 ≤ τ) (hη : 0 ≤ η) {M M' : ℚ} (hM : 0 ≤ M) (hX : 0 ≤ X)
    (hM' : 0 ≤ M') (hm : makeSystem invalid dags weights = .ok D)
    (hd : ∀ d ∈ dags, GoodDag d) (hw : GoodWeights dags.length weights) (hp : Prepared A F X D D')
    (hfin : ∀ w x, D'.data.extra w x ≠ ⊤)
    (vs : List Nat) (hvs : ∀ v ∈ vs, v < D.data.numKeys)
    (hs : ∀ v ∈ vs, FairShares A D.data v η) (hr : RunInRange A F n M X vs D'.data)
    (hl : rangeNeeded u η τ dags.length n M X ≤ limit)
    {S : System} {bs : List Cost} (he : averages A vs D'.data = some (S, bs))
    (hr' : ∀ s ∈ S.subs, InRange F s.memo.dag s.memo.pen n M')
    (hl' : (1 + u) ^ (2 * n + 1 + dags.length) * (dags.length * M') ≤ limit)
    {dir : Direction} {vec : List Nat} {C : ℚ}
    (hg : Rounded.greedy A S dir = some (vec, some (C : Cost))) :
    ∃ paths, Joint D'.data (fun v => vec.getD v 0) paths
      ∧ jointCost D'.data (fun v => vec.getD v 0) paths
        ≤ ((C + extractError u η τ dags.length D.data.numKeys n M X M' : ℚ) : Cost)
      ∧ ∀ b ε : ℚ, (b : Cost) ∈ bs → C ≤ b + ε → ∀ a' paths', Joint D'.data a' paths' →
        jointCost D'.data (fun v => vec.getD v 0) paths ≤ jointCost D'.data a' paths'
          + ((ε + extractError u η τ dags.length D.data.numKeys n M X M'
            + ((D.data.numKeys - 1) * imbalance u η τ dags.length n M X
              + sumError u dags.length n M X) : ℚ) : Cost) := by
  obtain ⟨-, -, g3, g4⟩ := C85_greedy hA hS hF0 hu hτ hη hM hX hM' hm hd hw hp hfin vs hvs hs hr hl he
    hr' hl' hg
  obtain ⟨C', c1, -, c3⟩ := g4 fun h0 => by cases g3 h0
  obtain rfl : (C : Cost) = C' := by simpa using c1
  obtain ⟨paths, p1, p2⟩ := c3 WithTop.coe_ne_top
  refine ⟨paths, p1, by rw [WithTop.coe_add]; exact p2, ?_⟩
  intro b ε hb hC a' paths' hj
  have h := C85_bound hA hS hF0 hu hτ hη hM hX hm hd hw hp vs hvs hs hr hl he hj _ hb
  cases hJ : jointCost D'.data a' paths' using WithTop.recTopCoe with
  | top => simp
  | coe J =>
    refine p2.trans ?_
    rw [hJ] at h
    rw [← WithTop.coe_add] at h ⊢
    rw [← WithTop.coe_add]
    have h' := WithTop.coe_le_coe.1 h
    apply WithTop.coe_le_coe.2
    linarith

theorem made_weights {w : List ℚ} (hm : makeSystem invalid dags (some w) = .ok D)
    (hlen : w.length = dags.length) : D.data.subs.map Sub.weight = w := by
  rw [(makeSystem_ok hm).2.2.2.2.2.2, List.map_map]
  apply List.ext_getElem?
  intro i
  rw [List.getElem?_map]
  by_cases hi : i < dags.length
  · have hi' : i < w.length := by omega
    simp [hi, hi', subWeight]
  · rw [List.getElem?_eq_none (by simpa using hi), List.getElem?_eq_none (by omega)]
    rfl

/-- C86: in `float64`, the shares with which a variable of a new system is averaged add up to one up to
an error that depends on the number of DAGs only. -/
theorem C86_shares (hm : makeSystem invalid dags weights = .ok D)
    (hd : ∀ d ∈ dags, GoodDag d) (hw : GoodWeights dags.length weights)
    (hN : dags.length ≤ 2 ^ 51)
    (hf : ∀ w, weights = some w → (∀ q ∈ w, IsFloat64 q) ∧ 2 * w.sum ≤ 2 ^ 1023)
    {v : Nat} (hv : v < D.data.numKeys) :
    FairShares float64Arith D.data v ((dags.length + 2) / 2 ^ 52) := by
  have h0 : 0 < (participants D.data v).length := by
    have := made_relevant hm hd hw hv
    exact this
  have h7 := (makeSystem_ok hm).2.2.2.2.2.2
  have hlen : D.data.subs.length = dags.length := by rw [h7]; simp
  have hle : (participants D.data v).length ≤ dags.length := by
    rw [← hlen]
    exact List.length_filter_le _ _
  have hmono : ∀ η : ℚ, FairShares float64Arith D.data v η → η ≤ (dags.length + 2) / 2 ^ 52 →
      FairShares float64Arith D.data v ((dags.length + 2) / 2 ^ 52) :=
    fun η h hη => ⟨h.nonneg, h.total.trans hη⟩
  cases weights with
  | none =>
    refine hmono _ (C68_shares ?_ h0 (by omega)) ?_
    · intro s hs
      rw [h7] at hs
      obtain ⟨⟨d, i⟩, -, rfl⟩ := List.mem_map.1 hs
      rfl
    · have : (0 : ℚ) ≤ dags.length := Nat.cast_nonneg _
      gcongr
      linarith
  | some w =>
    obtain ⟨w1, w2⟩ := hw w rfl
    obtain ⟨f1, f2⟩ := hf w rfl
    have hmw := made_weights hm w1
    have hin : ∀ s ∈ D.data.subs, s.weight ∈ w := by
      intro s hs
      rw [← hmw]
      exact List.mem_map.2 ⟨s, hs, rfl⟩
    refine hmono _ (C68_shares_weighted (fun s hs => ⟨f1 _ (hin s hs), w2 _ (hin s hs)⟩) h0
      (by omega) ?_) ?_
    · refine le_trans ?_ f2
      have : ((participants D.data v).map Sub.weight).sum ≤ w.sum := by
        have hsub : ((participants D.data v).map Sub.weight).Sublist w := by
          have := (List.filter_sublist (p := fun s : Sub => (s.index v).isSome)
            (l := D.data.subs)).map Sub.weight
          rw [hmw] at this
          exact this
        exact List.Sublist.sum_le_sum hsub fun q hq => (w2 q hq).le
      linarith
    · have : ((participants D.data v).length : ℚ) ≤ dags.length := by exact_mod_cast hle
      gcongr

/-- C86: the solver in `float64` on a new system with constraints for a finite penalty, or with noise,
without assumptions about the run other than the number of its steps. Extraction succeeds, its cost is
that of the best joint solution with the extracted values up to the error, and these values are optimal
up to the gap to any reported bound and the errors. -/
theorem C86_float64 (hX : 0 ≤ X) (hc : 0 ≤ c) (hm : makeSystem invalid dags weights = .ok D)
    (hd : ∀ d ∈ dags, GoodDag d) (hw : GoodWeights dags.length weights)
    (hk : ∀ d ∈ dags, d.2.1 ≠ []) (hv : D.values ≠ []) (hN : dags.length ≤ 2 ^ 51)
    (hf : ∀ w, weights = some w → (∀ q ∈ w, IsFloat64 q) ∧ 2 * w.sum ≤ 2 ^ 1023)
    (hb : ∀ d ∈ dags, DagBounded IsFloat64 d.1 n c) (hp : Prepared float64Arith IsFloat64 X D D')
    (hfin : ∀ w x, D'.data.extra w x ≠ ⊤)
    {tol : ℚ} {late : Nat → Bool} {fuel : Nat} {st : SweepState}
    (hs : Rounded.solve float64Arith D'.data tol late fuel = .ok st)
    {T : Nat} (hT : st.variableAtStep.length ≤ T)
    (hl : preparedRange dags.length n c X T ≤ 2 ^ 1023) (dir : Direction) :
    ∃ vec C, Rounded.greedy float64Arith st.system dir = some (vec, some C)
      ∧ vec.length = D.data.numKeys ∧ (∀ x ∈ vec, x < D.data.numValues)
      ∧ (∀ paths, Joint D'.data (fun v => vec.getD v 0) paths →
        C ≤ jointCost D'.data (fun v => vec.getD v 0) paths
          + (preparedCostError dags.length D.data.numKeys n c X T : Cost))
      ∧ ∀ q : ℚ, C = q → ∃ paths, Joint D'.data (fun v => vec.getD v 0) paths
        ∧ jointCost D'.data (fun v => vec.getD v 0) paths
          ≤ ((q + preparedCostError dags.length D.data.numKeys n c X T : ℚ) : Cost)
        ∧ ∀ b : ℚ, (b : Cost) ∈ st.objectiveAtStep → ∀ a' paths', Joint D'.data a' paths' →
          (b : Cost) ≤ jointCost D'.data a' paths'
            + (preparedBoundError dags.length D.data.numKeys n c X T : Cost)
          ∧ jointCost D'.data (fun v => vec.getD v 0) paths ≤ jointCost D'.data a' paths'
            + (((q - b) + preparedCostError dags.length D.data.numKeys n c X T
              + preparedBoundError dags.length D.data.numKeys n c X T : ℚ) : Cost) := by
  have hu : (0 : ℚ) ≤ 1 / 2 ^ 53 := by norm_num
  have hτ : (0 : ℚ) ≤ 2 ^ (-1075 : ℤ) := zpow_nonneg (by norm_num) _
  have hη : (0 : ℚ) ≤ (dags.length + 2) / 2 ^ 52 :=
    div_nonneg (add_nonneg (Nat.cast_nonneg _) (by norm_num)) (by norm_num)
  have h0 : IsFloat64 0 := C67_float64.zero
  have hM := preparedSize_nonneg hu hη hτ hX hc dags.length n T
  obtain ⟨he, hvs'⟩ := C68_solve hs
  have hok := prepared_ok C85_float64 h0 hu hτ hη hM hX hm hd hw hp hl
  have hvs : ∀ v ∈ st.variableAtStep, v < D.data.numKeys := by
    intro v hv
    rw [← hok.keys]
    exact hvs' v hv
  have hsh := fun v hv => C86_shares hm hd hw hN hf (hvs v hv)
  obtain ⟨r1, r2⟩ := C86_range C68_float64 C85_float64 h0 hu hτ hη hX hc hm hd hw hb hp hsh hT hl
  have hroom := (Rnd.range_room (τ := (2 : ℚ) ^ (-1075 : ℤ)) (N := dags.length) (n := n) hu hη hM hX).trans hl
  obtain ⟨S, bs, vec, C0, a1, a2⟩ := C86_defined C85_float64 h0 hu hτ hX hm hd hw hk hv hp hroom
    st.variableAtStep dir
  rw [he] at a1
  simp only [Option.some.injEq, Prod.mk.injEq] at a1
  obtain ⟨rfl, rfl⟩ := a1
  have hl' : (1 + 1 / 2 ^ 53 : ℚ) ^ (2 * n + 1 + dags.length) * (dags.length
      * preparedSize (1 / 2 ^ 53) ((dags.length + 2) / 2 ^ 52) (2 ^ (-1075 : ℤ)) dags.length n c X T)
      ≤ 2 ^ 1023 := by
    refine le_trans ?_ hl
    unfold preparedRange rangeNeeded
    generalize preparedSize (1 / 2 ^ 53) ((dags.length + 2) / 2 ^ 52) (2 ^ (-1075 : ℤ)) dags.length n c X T
      = M at hM ⊢
    clear hl hroom r1 r2 hok
    generalize (2 : ℚ) ^ (-1075 : ℤ) = τ at *
    generalize (1 / 2 ^ 53 : ℚ) = u at *
    generalize ((dags.length : ℚ) + 2) / 2 ^ 52 = η at *
    have q1 := Rnd.pow_mono hu (show 2 * n + 1 + dags.length ≤ 2 * n + dags.length + 4 by omega)
    have hNM : 0 ≤ (dags.length : ℚ) * M := mul_nonneg (Nat.cast_nonneg _) hM
    have q2 := mul_le_mul q1 (le_add_of_nonneg_right hX : (dags.length : ℚ) * M ≤ dags.length * M + X) hNM
      (pow_nonneg (by linarith) _)
    refine q2.trans ?_
    rw [mul_assoc (2 * (1 + η))]
    have q3 : 0 ≤ (1 + u) ^ (2 * n + dags.length + 4) * (dags.length * M + X) :=
      mul_nonneg (pow_nonneg (by linarith) _) (by linarith)
    have q4 := mul_nonneg hη q3
    linarith
  obtain ⟨g1, g2, g3, g4⟩ := C85_greedy C68_float64 C85_float64 h0 hu hτ hη hM hX hM hm hd hw hp hfin
    st.variableAtStep hvs hsh r1 hl he (r2 _ _ he) hl' a2
  have hK : D.data.numKeys ≠ 0 := by
    obtain ⟨k1, -, hne, k4, -⟩ := makeSystem_ok hm
    obtain ⟨d, hdm⟩ := List.exists_mem_of_ne_nil _ hne
    obtain ⟨k, hkm⟩ := List.exists_mem_of_ne_nil _ (hk d hdm)
    rw [k4, k1]
    intro hz
    have : k ∈ systemKeys dags := by
      have := (mem_systemKeys (dags := dags) (k := k)).2 ⟨d, hdm, hkm⟩
      exact this
    rw [List.length_eq_zero_iff.1 hz] at this
    cases this
  obtain ⟨C, rfl, c1, -⟩ := g4 hK
  refine ⟨vec, C, a2, g1, g2, c1, ?_⟩
  rintro q rfl
  obtain ⟨paths, p1, p2, p3⟩ := C86_certificate C68_float64 C85_float64 h0 hu hτ hη hM hX hM hm hd hw hp
    hfin st.variableAtStep hvs hsh r1 hl he (r2 _ _ he) hl' a2
  refine ⟨paths, p1, p2, fun b hb a' paths' hj => ⟨?_, ?_⟩⟩
  · exact C85_bound C68_float64 C85_float64 h0 hu hτ hη hM hX hm hd hw hp st.variableAtStep hvs hsh r1 hl
      he hj _ hb
  · exact p3 b (q - b) hb (by linarith) a' paths' hj

end

/-! ## A concrete case -/

theorem apart_size (t : Nat) : growSize (1 / 2 ^ 53) (((2 : ℕ) + 2) / 2 ^ 52) (2 ^ (-1075 : ℤ)) 2 3
    ((3 : ℕ) * 9007199254740994 + (3 : ℕ) * ((1 + 1 / 2 ^ 53) * 6 + 2 ^ (-1075 : ℤ))) 6 t
      ≤ 2 ^ (60 + 8 * t) := by
  have h1 : (2 : ℚ) ^ (-1075 : ℤ) ≤ 1 := zpow_le_one_of_nonpos₀ (by norm_num) (by norm_num)
  have hC : ((3 : ℕ) : ℚ) * 9007199254740994 + (3 : ℕ) * ((1 + 1 / 2 ^ 53) * 6 + 2 ^ (-1075 : ℤ))
      ≤ 2 ^ 60 := by
    have h2 : ((3 : ℕ) : ℚ) * 9007199254740994 + (3 : ℕ) * ((1 + 1 / 2 ^ 53) * 6 + 1) ≤ 2 ^ 60 := by norm_num
    refine le_trans ?_ h2
    push_cast
    linarith
  generalize ((3 : ℕ) : ℚ) * 9007199254740994 + (3 : ℕ) * ((1 + 1 / 2 ^ 53) * 6 + 2 ^ (-1075 : ℤ)) = C at hC ⊢
  induction t with
  | zero => exact hC
  | succ t ih =>
    rw [growSize]
    generalize growSize (1 / 2 ^ 53) (((2 : ℕ) + 2) / 2 ^ 52) (2 ^ (-1075 : ℤ)) 2 3 C 6 t = g at ih ⊢
    unfold rangeNeeded
    generalize (2 : ℚ) ^ (-1075 : ℤ) = τ at h1 ⊢
    have hp : (2 : ℚ) ^ (60 + 8 * (t + 1)) = 256 * 2 ^ (60 + 8 * t) := by
      rw [show 60 + 8 * (t + 1) = 8 + (60 + 8 * t) by omega, pow_add]; norm_num
    have hq : (2 : ℚ) ^ 60 ≤ 2 ^ (60 + 8 * t) := pow_le_pow_right₀ (by norm_num) (by omega)
    rw [hp]
    generalize (2 : ℚ) ^ (60 + 8 * t) = z at ih hq ⊢
    have hk : 2 * (1 + ((2 : ℕ) + 2) / 2 ^ 52) * (1 + 1 / 2 ^ 53 : ℚ) ^ (2 * 3 + 2 + 4) ≤ 3 := by norm_num
    have hk0 : 0 ≤ 2 * (1 + ((2 : ℕ) + 2) / 2 ^ 52) * (1 + 1 / 2 ^ 53 : ℚ) ^ (2 * 3 + 2 + 4) := by norm_num
    generalize 2 * (1 + ((2 : ℕ) + 2) / 2 ^ 52) * (1 + 1 / 2 ^ 53 : ℚ) ^ (2 * 3 + 2 + 4) = k at hk hk0 ⊢
    have hz : (2 : ℚ) ^ 60 ≤ z := hq
    norm_num at hz hC
    have e1 : k * (((2 : ℕ) : ℚ) * g + 6) ≤ 3 * (2 * z + 6) := by
      refine (mul_le_mul_of_nonneg_left (b := ((2 : ℕ) : ℚ) * g + 6) (c := 2 * z + 6) ?_ hk0).trans ?_
      · push_cast; linarith
      · exact mul_le_mul_of_nonneg_right hk (by linarith)
    have e2 : (1 + 1 / 2 ^ 53 : ℚ) * (k * (((2 : ℕ) : ℚ) * g + 6) + τ) ≤ 2 * (3 * (2 * z + 6) + 1) := by
      refine (mul_le_mul_of_nonneg_left (add_le_add e1 h1) (by norm_num)).trans ?_
      exact mul_le_mul_of_nonneg_right (by norm_num) (by linarith)
    push_cast at e2 ⊢
    linarith

/-- The hypotheses of `C86_float64` are met by two DAGs with one variable each, noise, and a run of the
solver that takes four steps. -/
example : ∃ st,
    makeSystem ⊤ apartDags none = .ok ⟨apartSystem, [4, 6], [5]⟩
    ∧ Prepared float64Arith IsFloat64 6 (⟨apartSystem, [4, 6], [5]⟩ : DualSystem Nat Nat)
      ⟨Rounded.breakSymmetry float64Arith apartSystem upNoise, [4, 6], [5]⟩
    ∧ (∀ d ∈ apartDags, DagBounded IsFloat64 d.1 3 9007199254740994)
    ∧ (∀ w x, (Rounded.breakSymmetry float64Arith apartSystem upNoise).extra w x ≠ ⊤)
    ∧ Rounded.solve float64Arith (Rounded.breakSymmetry float64Arith apartSystem upNoise) 1000
      (fun _ => false) 3 = .ok st
    ∧ st.variableAtStep = [0, 1, 0, 1]
    ∧ preparedRange apartDags.length 3 9007199254740994 6 100 ≤ 2 ^ 1023 := by
  have h6 : IsFloat64 6 := ⟨6, 0, by norm_num, by norm_num, by norm_num⟩
  have hsolve : (match Rounded.solve float64Arith (Rounded.breakSymmetry float64Arith apartSystem upNoise)
      1000 (fun _ => false) 3 with
      | .error _ => none
      | .ok st => some st.variableAtStep) = some [0, 1, 0, 1] := by decide +kernel
  split at hsolve
  · cases hsolve
  rename_i st hst
  have hp : Prepared float64Arith IsFloat64 6 (⟨apartSystem, [4, 6], [5]⟩ : DualSystem Nat Nat)
      ⟨Rounded.breakSymmetry float64Arith apartSystem upNoise, [4, 6], [5]⟩ :=
    .noisy upNoise (fun v x => ⟨h6, by norm_num [upNoise]⟩)
  refine ⟨st, apart_made, hp, ?_, ?_, hst, by simpa using hsolve, ?_⟩
  · intro d hd
    have hd1 : d.1 = upPacked := by
      simp only [apartDags, List.mem_cons, List.not_mem_nil, or_false] at hd
      rcases hd with rfl | rfl <;> rfl
    rw [hd1]
    refine ⟨?_, by decide⟩
    intro e he x hx
    simp only [upPacked, List.mem_cons, List.not_mem_nil, or_false] at he
    rcases he with rfl | rfl | rfl
    · rw [← WithTop.coe_inj.1 hx]
      exact ⟨⟨4503599627370497, 1, by norm_num, by norm_num, by norm_num⟩, by norm_num⟩
    · rw [← WithTop.coe_inj.1 (show ((1 : ℚ) : Cost) = x from hx)]
      exact ⟨⟨1, 0, by norm_num, by norm_num, by norm_num⟩, by norm_num⟩
    · rw [← WithTop.coe_inj.1 (show ((0 : ℚ) : Cost) = x from hx)]
      exact ⟨C67_float64.zero, by norm_num⟩
  · intro w x hx
    have hn := Rnd.noise_start (noise := upNoise) (List.range apartSystem.numKeys) apartSystem []
      (made_ustart (A := float64Arith) apart_made (fun d hd => (apartDags_good d hd).1)
        (fun w hw => by cases hw) _) (by simpa using List.nodup_range)
    have hx' : (Rounded.breakSymmetry float64Arith apartSystem upNoise).extra w x = ⊤ := hx
    by_cases hw : w ∈ [] ++ List.range apartSystem.numKeys
    · have h2 := hn.extra w hw x
      have h3 : (Rounded.breakSymmetry float64Arith apartSystem upNoise).extra w x
          = float64Arith.add 0 ((6 : ℚ) : Cost) := h2
      rw [h3] at hx'
      have h4 : float64Arith.add 0 ((6 : ℚ) : Cost) ≠ ⊤ := by decide +kernel
      exact h4 hx'
    · have h2 := (hn.rest w hw).1 x
      have h3 : (Rounded.breakSymmetry float64Arith apartSystem upNoise).extra w x = 0 := h2
      rw [h3] at hx'
      exact absurd hx' WithTop.coe_ne_top
  · have e : apartDags.length = 2 := rfl
    rw [e]
    unfold preparedRange preparedSize
    have h := apart_size 100
    generalize growSize (1 / 2 ^ 53) (((2 : ℕ) + 2) / 2 ^ 52) (2 ^ (-1075 : ℤ)) 2 3
      ((3 : ℕ) * 9007199254740994 + (3 : ℕ) * ((1 + 1 / 2 ^ 53) * 6 + 2 ^ (-1075 : ℤ))) 6 100 = g at h ⊢
    unfold rangeNeeded
    have h1 : (2 : ℚ) ^ (-1075 : ℤ) ≤ 1 := zpow_le_one_of_nonpos₀ (by norm_num) (by norm_num)
    generalize (2 : ℚ) ^ (-1075 : ℤ) = τ at h1 ⊢
    have hk : 2 * (1 + ((2 : ℕ) + 2) / 2 ^ 52) * (1 + 1 / 2 ^ 53 : ℚ) ^ (2 * 3 + 2 + 4) ≤ 3 := by norm_num
    have hk0 : 0 ≤ 2 * (1 + ((2 : ℕ) + 2) / 2 ^ 52) * (1 + 1 / 2 ^ 53 : ℚ) ^ (2 * 3 + 2 + 4) := by norm_num
    generalize 2 * (1 + ((2 : ℕ) + 2) / 2 ^ 52) * (1 + 1 / 2 ^ 53 : ℚ) ^ (2 * 3 + 2 + 4) = k at hk hk0 ⊢
    have hz : (2 : ℚ) ^ 8 ≤ 2 ^ (60 + 8 * 100) := pow_le_pow_right₀ (by norm_num) (by omega)
    have hw : (2 : ℚ) ^ (60 + 8 * 100) * 16 ≤ 2 ^ 1023 := by
      rw [show (16 : ℚ) = 2 ^ 4 by norm_num, ← pow_add]
      exact pow_le_pow_right₀ (by norm_num) (by omega)
    generalize (2 : ℚ) ^ (60 + 8 * 100) = z at h hz hw
    refine le_trans ?_ hw
    rw [show (2 : ℚ) ^ 8 = 256 by norm_num] at hz
    have e1 : k * (((2 : ℕ) : ℚ) * g + 6) ≤ 3 * (2 * z + 6) := by
      refine (mul_le_mul_of_nonneg_left (b := ((2 : ℕ) : ℚ) * g + 6) (c := 2 * z + 6) ?_ hk0).trans ?_
      · rw [Nat.cast_ofNat]; linarith
      · exact mul_le_mul_of_nonneg_right hk (by linarith)
    linarith

end RUSure.Props
