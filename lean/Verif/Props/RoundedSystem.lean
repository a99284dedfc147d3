import Verif.Lemmas.RoundedGrowth
import Verif.Lemmas.RoundedParts
import Verif.Lemmas.RoundedValues
import Verif.Props.RoundedGreedy
import Verif.Props.System

/-!
# The suggestion for a prototype and targets in machine arithmetic (C72)
-/

namespace RUSure.Props
open RUSure RUSure.Spec RUSure.Lemmas RUSure.Rounded

/-! ## Any way to make utility DAGs -/

section
variable {A : Arith} {F : ℚ → Prop} {u τ η limit : ℚ}
  {T E S I M : Type} [DecidableEq S] {total : List ℚ → ℚ} {invalid : Cost}
  {make : T → Except E (Dag S DecisionKey DecisionValue I)} {proto : List (Node M)}
  {l : List (T × ℚ)} {w : ℚ} {B B0 : BuiltSystem S I}

theorem rbuilt_count (_ : Rnd.RBuilt A invalid make proto l w B B0) :
    (B.utilities.map (entry A) ++ [entry A B.constraint]).length = dagCount B := by
  simp [dagCount]

theorem rbuilt_subs (h : Rnd.RBuilt A invalid make proto l w B B0) {n : Nat} {size : ℚ}
    (hr : PartsInRange F limit B n size) : B0.system.data.subs.length = dagCount B := by
  obtain ⟨-, -, -, h4⟩ := h.near hr
  have := h.exact.parts.length_eq
  rw [h.utilities] at this
  rw [h4, this, dagCount]

/-- Reported bounds. -/
theorem rbuilt_bound (hA : AccurateArith A F u τ limit) (hu : 0 ≤ u) (hτ : 0 ≤ τ)
    (h : Rnd.RBuilt A invalid make proto l w B B0) {vs : List Nat} {n : Nat} {size Mx : ℚ}
    (hr : SolvesInRange A F u τ η limit B vs n size Mx) {D : System} {bs : List Cost}
    (he : averages A vs B.system.data = some (D, bs)) {β : DecisionKey → DecisionValue}
    (hβ : WellFormedRegions β proto) {y : ℚ}
    (hy : WeightedTotal (LeastPath make (seqKeys 0 proto) β) l y) :
    ∀ b ∈ bs, b ≤ ((y + boundError u η τ B n size Mx : ℚ) : Cost) := by
  obtain ⟨hn, -, -, -⟩ := h.near hr.parts
  rcases (h.exact.minimum .start (h.exact.vector .start β) hβ hy).attained with h' | ⟨ps0, j1, j2⟩
  · exact absurd h' WithTop.coe_ne_top
  obtain ⟨ps1, k1, k2⟩ := (hn.joint hA hu hτ _).1 ps0 j1
  intro b hb
  have hb' := C68_bound hA hu hτ h.system (fun d hd => (h.good d hd).1) h.weights vs hr.vars hr.shares
    hr.run (by rw [rbuilt_count h]; exact hr.limit) he k1 b hb
  have k3 := k2.right_le
  rw [j2, rbuilt_subs h hr.parts] at k3
  rw [rbuilt_count h] at hb'
  refine hb'.trans ((add_le_add_left k3 _).trans ?_)
  rw [← WithTop.coe_add, ← WithTop.coe_add]
  apply WithTop.coe_le_coe.2
  unfold boundError
  linarith

/-- Greedy extraction. -/
theorem rbuilt_greedy (hA : AccurateArith A F u τ limit) (hu : 0 ≤ u) (hτ : 0 ≤ τ) (hη : 0 ≤ η)
    (h : Rnd.RBuilt A invalid make proto l w B B0) {vs : List Nat} {n : Nat} {size Mx My : ℚ}
    (hMx : 0 ≤ Mx) (hMy : 0 ≤ My) (hr : SolvesInRange A F u τ η limit B vs n size Mx)
    {D : System} {bs : List Cost} (he : averages A vs B.system.data = some (D, bs))
    (hx : ExtractsInRange F u limit B D n My) (hk : seqKeys 0 proto ≠ []) (dir : Direction) :
    ∃ (vec : List Nat) (α : DecisionKey → DecisionValue) (C x : ℚ),
      Rounded.greedy A D dir = some (vec, some (C : Cost))
      ∧ assignmentPairs B.system.keys B.system.values vec
        = some ((seqKeys 0 proto).map fun k => (k, α k))
      ∧ WellFormedRegions α proto
      ∧ WeightedTotal (LeastPath make (seqKeys 0 proto) α) l x
      ∧ |C - x| ≤ suggestionError u η τ B n size Mx My := by
  have hgood := fun d hd => (h.good d hd).1
  obtain ⟨hn, hkeys, hvals, -⟩ := h.near hr.parts
  obtain ⟨k1, k2, k3, k4, -⟩ := h.exact.keys
  obtain ⟨-, -, -, d4, d5, -⟩ := makeSystem_ok h.system
  have hK : B.system.data.numKeys = (seqKeys 0 proto).length := by rw [d4, hkeys, k1]
  have hV : B.system.data.numValues = 3 := by rw [d5, hvals, k2]; rfl
  have hcnt := rbuilt_count h
  obtain ⟨h1, h2⟩ := made_ready (A := A) h.system hgood h.weights
  obtain ⟨hsame, hok⟩ := Rnd.run_same vs _ _ _ h1 he
  have hlen : B.system.data.subs.length = dagCount B := by
    rw [← hn.subs.length_eq, rbuilt_subs h hr.parts]
  have hlen' : D.subs.length = dagCount B := by rw [← hsame.subs.length_eq, hlen]
  -- it succeeds
  obtain ⟨vec, c, hg⟩ : ∃ vec c, Rounded.greedy A D dir = some (vec, c) := by
    obtain ⟨D', bs', vec, c, g1, g2⟩ := C69_defined A h.system hgood h.weights
      (fun d hd => by rw [(h.good d hd).2.1]; exact hk) (by rw [hvals, k2]; simp) vs dir
    rw [he] at g1
    simp only [Option.some.injEq, Prod.mk.injEq] at g1
    rw [← g1.1] at g2
    exact ⟨vec, c, g2⟩
  obtain ⟨g1, g2, -, g4⟩ := C69_greedy hA hu hτ hη h.system hgood h.weights hMx (le_refl 0) hMy vs
    hr.vars hr.shares hr.run (by rw [hcnt]; exact hr.limit) he hx.subs (by rw [hcnt]; exact hx.limit)
    hg
  have hK0 : B.system.data.numKeys ≠ 0 := by
    rw [hK]; exact fun hc => hk (List.length_eq_zero_iff.1 hc)
  obtain ⟨C, rfl, c1, c2⟩ := g4 hK0
  rw [hcnt] at c1 c2
  -- a joint solution with the extracted values
  have hinv := makeSystem_inv h.system hgood h.weights
  have hjoint : ∃ paths, Joint B.system.data (fun v => vec.getD v 0) paths
      ∧ jointCost B.system.data (fun v => vec.getD v 0) paths < ⊤ := by
    obtain ⟨wv, hw, hgd⟩ := h.exact.guards .start
    obtain ⟨s1, hs1, hgd1⟩ := hn.guards hA hu hτ hw hgd
    obtain ⟨a0, p0, f1, f2⟩ := h.exact.feasible .start
    obtain ⟨p1, f3, f4⟩ := (hn.joint hA hu hτ a0).1 p0 f1
    have f5 := f4.lt_top.1 f2
    have himb : 0 ≤ imbalance u η τ (dagCount B) n Mx 0 :=
      Rnd.imbalance_nonneg hu hη hτ (mul_nonneg (Nat.cast_nonneg _) hMx) (le_refl 0)
    -- the guard after averaging
    have hsame2 : List.Forall₂ (fun s s' : Sub => s = s') D.subs D.subs :=
      List.forall₂_same.2 fun _ _ => rfl
    obtain ⟨s2, -, hs2, -, ⟨e1, e2⟩, -⟩ := Rnd.forall₂_triple hsame.subs hsame2 s1 hs1
    have hgd2 : Guards D s2.view := by
      refine ⟨?_, ?_⟩
      · intro v hv
        change ∃ k, s2.index v = some k
        rw [e2]
        exact hgd1.total v (by rw [← hsame.keys]; exact hv)
      · intro b p hb hp hf hbp
        have hp' : Complete s1.view.dag p := by
          change Complete s1.memo.dag p
          rw [← e1]; exact hp
        obtain ⟨q, q1, q2⟩ := hgd1.extends_ b p (by rw [← hsame.keys, ← hsame.values]; exact hb)
          hp' hf (by
            intro v k x hk hx
            refine hbp v k x ?_ hx
            change s2.index v = some k
            rw [e2]; exact hk)
        exact ⟨q, hsame.joint.2 q1, by rw [hsame.cost]; exact q2⟩
    have hready : Rnd.GuardReady A F u limit n My D := by
      refine ⟨hMy, hok, hx.subs, by rw [hlen']; exact hx.limit, ?_⟩
      intro b paths hj hf
      have hj' := hsame.joint.1 hj
      rw [hsame.cost] at hf
      obtain ⟨J, hJ⟩ := WithTop.ne_top_iff_exists.1 hf.ne
      have hb := Rnd.run_bal hA hu hτ vs _ _ _ h1 hj' hJ.symm (fun w _ => by
        obtain ⟨q, e, b1, b2, b3⟩ := h2 b w
        exact ⟨q, e, b1, b2, b3.trans (by rw [hlen]; exact himb)⟩)
        (fun v hv => ⟨hr.vars v hv, hr.shares v hv⟩) hr.run (by rw [hlen]; exact hr.limit) he
      obtain ⟨Ep, e1, -⟩ := Rnd.joint_near hok hj ((hsame.cost b paths).trans hJ.symm) hb
      rw [e1]
      exact WithTop.coe_lt_top _
    obtain ⟨b, paths, hb, hj, hf⟩ := Rnd.guard_greedy hA.sums hu hready hs2 hgd2
      (hsame.joint.2 f3) (by rw [hsame.cost]; exact f5) hg
    rw [hsame.keys] at hb
    have hj' := hsame.joint.1 hj
    rw [hsame.cost] at hf
    refine ⟨paths, joint_congr hinv hb hj', ?_⟩
    rw [← jointCost_congr hb]
    exact hf
  obtain ⟨paths, hj, hjf⟩ := hjoint
  have hC : C ≠ ⊤ := by
    have := c1 paths hj
    intro hc
    rw [hc] at this
    have h3 : jointCost B.system.data (fun v => vec.getD v 0) paths
        + (extractError u η τ (dagCount B) B.system.data.numKeys n Mx 0 My : Cost) < ⊤ :=
      WithTop.add_lt_top.2 ⟨hjf, WithTop.coe_lt_top _⟩
    exact absurd (top_le_iff.1 this) h3.ne
  lift C to ℚ using hC
  have hvlt : ∀ v < (seqKeys 0 proto).length, vec.getD v 0 < 3 := by
    intro v hv
    rw [← hK, ← g1] at hv
    rw [List.getD_eq_getElem?_getD, List.getElem?_eq_getElem hv]
    have := g2 _ (List.getElem_mem hv)
    rw [hV] at this
    exact this
  have hmean := h.exact.meaning .start hvlt
  obtain ⟨ps0, j0, -⟩ := (hn.joint hA hu hτ _).2 paths hj
  have hwf := ((h.exact.joint .start hmean _).1 ⟨ps0, j0, rfl⟩).1
  obtain ⟨x, hx'⟩ := h.exact.least hwf
  have hmin := h.exact.minimum .start hmean hwf hx'
  refine ⟨vec, _, C, x, hg, ?_, hwf, hx', ?_⟩
  · obtain ⟨pairs, p1, p2, p3⟩ := C39_assignment_pairs B.system.keys B.system.values vec
      (by rw [g1, d4]) (by
        intro y hy
        have := g2 y hy
        rw [d5] at this
        exact this)
    rw [p1]
    congr 1
    rw [hkeys, k1] at p2
    apply List.ext_getElem?
    intro i
    have hkey := congrArg (fun l => l[i]?) p2
    simp only [List.getElem?_map] at hkey
    rw [List.getElem?_map]
    cases hi : pairs[i]? with
    | none => rw [hi] at hkey; rw [← hkey]; rfl
    | some kv =>
      rw [hi] at hkey
      rw [← hkey]
      obtain ⟨y, y1, y2⟩ := p3 i kv hi
      have hm := hmean i kv.1 (by rw [k1, ← hkey]; rfl)
      have : vec.getD i 0 = y := by rw [List.getD_eq_getElem?_getD, y1]; rfl
      dsimp only at hm
      rw [this, ← hvals, y2] at hm
      simp only [Option.map_some, Option.some.injEq]
      rw [← Option.some.inj hm]
  · rw [abs_le]
    constructor
    · -- the cost is not too small
      obtain ⟨q1, r1, r2⟩ := c2 WithTop.coe_ne_top
      obtain ⟨q0, s1, s2⟩ := (hn.joint hA hu hτ _).2 q1 r1
      have s3 := (hmin.le q0 s1).trans s2.left_le
      rw [rbuilt_subs h hr.parts] at s3
      have s4 := s3.trans (add_le_add_left r2 _)
      rw [← WithTop.coe_add, ← WithTop.coe_add] at s4
      have := WithTop.coe_le_coe.1 s4
      unfold suggestionError
      linarith
    · rcases hmin.attained with h' | ⟨q0, r1, r2⟩
      · exact absurd h' WithTop.coe_ne_top
      obtain ⟨q1, s1, s2⟩ := (hn.joint hA hu hτ _).1 q0 r1
      have s3 := s2.right_le
      rw [r2, rbuilt_subs h hr.parts] at s3
      have s4 := (c1 q1 s1).trans (add_le_add_left s3 _)
      rw [← WithTop.coe_add, ← WithTop.coe_add] at s4
      have := WithTop.coe_le_coe.1 s4
      unfold suggestionError
      linarith

/-- What is assumed about ranges holds if the costs are not too large for the number of steps. -/
theorem rbuilt_range (hA : AccurateArith A F u τ limit) (hu : 0 ≤ u) (hτ : 0 ≤ τ) (hη : 0 ≤ η)
    (h : Rnd.RBuilt A invalid make proto l w B B0) {n : Nat} {c : ℚ} (hc : 0 ≤ c) (hcl : c ≤ limit)
    (hb : ∀ p ∈ B.utilities, PartBounded F p n c) (hb' : PartBounded F B.constraint n c)
    {vs : List Nat} (hvs : ∀ v ∈ vs, v < B.system.data.numKeys)
    (hs : ∀ v ∈ vs, FairShares A B.system.data v η) {T : Nat} (hT : vs.length ≤ T)
    (hl : rangeNeeded u η τ (dagCount B) n
      (pathSize u η τ (dagCount B) n ((1 + u) * (n * c) + n * τ) T) 0 ≤ limit) :
    SolvesInRange A F u τ η limit B vs n (n * c)
      (pathSize u η τ (dagCount B) n ((1 + u) * (n * c) + n * τ) T)
    ∧ ∀ D bs, averages A vs B.system.data = some (D, bs) → ExtractsInRange F u limit B D n
      (pathSize u η τ (dagCount B) n ((1 + u) * (n * c) + n * τ) T) := by
  have hgood := fun d hd => (h.good d hd).1
  have hnc : 0 ≤ (n : ℚ) * c := mul_nonneg (Nat.cast_nonneg _) hc
  have hC : 0 ≤ (1 + u) * (n * c) + n * τ :=
    add_nonneg (mul_nonneg (by linarith) hnc) (mul_nonneg (Nat.cast_nonneg _) hτ)
  have hparts : PartsInRange F limit B n (n * c) := by
    refine ⟨fun p hp => Rnd.bounded_scale (A := A) (hb p hp) hc hcl ?_,
      Rnd.bounded_scale (A := A) hb' hc hcl ?_⟩
    · exact (hgood (entry A p) (List.mem_append_left _ (List.mem_map.2 ⟨p, hp, rfl⟩))).wf
    · exact (hgood (entry A B.constraint) (by simp)).wf
  obtain ⟨h1, -⟩ := made_ready (A := A) h.system hgood h.weights
  obtain ⟨-, -, -, -, -, d6, d7⟩ := makeSystem_ok h.system
  have hsub : ∀ s ∈ B.system.data.subs, s.memo.pen = (fun _ _ => 0)
      ∧ Rnd.Costed F s.memo.dag n ((1 + u) * (n * c) + n * τ) := by
    intro s hs
    rw [d7] at hs
    obtain ⟨⟨d, i⟩, hx, rfl⟩ := List.mem_map.1 hs
    refine ⟨rfl, ?_⟩
    change Rnd.Costed F d.1 n _
    rcases List.mem_append.1 (List.fst_mem_of_mem_zipIdx hx) with hd | hd
    · obtain ⟨p, hp, rfl⟩ := List.mem_map.1 hd
      exact Rnd.scaled_costed hA hu hτ (hparts.utilities p hp)
    · obtain rfl : d = _ := List.mem_singleton.1 hd
      exact Rnd.scaled_costed hA hu hτ hparts.constraint
  have hlen : B.system.data.subs.length = dagCount B := by
    obtain ⟨hn, -⟩ := h.near hparts
    rw [← hn.subs.length_eq, rbuilt_subs h hparts]
  obtain ⟨r1, r2⟩ := Rnd.run_penned hA hu hτ hη hC (by unfold dagCount; omega) hl vs
    B.system.data 0 0 (by omega) hlen h1 (fun s hs => (hsub s hs).2) (le_refl 0)
    (fun s hs k x q hq => by
      rw [(hsub s hs).1] at hq
      obtain rfl : (0 : ℚ) = q := WithTop.coe_inj.1 hq
      exact ⟨hA.sums.zero, by simp⟩) (by simp [pathSize]) d6 hs
  refine ⟨⟨hvs, hs, hparts, r1, hl⟩, fun D bs he => ⟨r2 D bs he, le_trans ?_ hl⟩⟩
  have hM := hC.trans (Rnd.pathSize_base hu hη hτ (N := dagCount B) (n := n) hC T)
  unfold rangeNeeded
  generalize pathSize u η τ (dagCount B) n ((1 + u) * (n * c) + n * τ) T = M at *
  have q1 := Rnd.pow_mono hu (show 2 * n + 1 + dagCount B ≤ 2 * n + dagCount B + 4 by omega)
  have hNM : 0 ≤ (dagCount B : ℚ) * M := mul_nonneg (Nat.cast_nonneg _) hM
  have q2 := mul_le_mul_of_nonneg_right q1 hNM
  have q3 : 0 ≤ (1 + u) ^ (2 * n + dagCount B + 4) * (dagCount B * M) :=
    mul_nonneg (pow_nonneg (by linarith) _) hNM
  have q4 : 0 ≤ η * ((1 + u) ^ (2 * n + dagCount B + 4) * (dagCount B * M)) := mul_nonneg hη q3
  linarith

/-- Runs do not fail and report numbers. -/
theorem rbuilt_values (hA : AccurateArith A F u τ limit) (hu : 0 ≤ u) (hτ : 0 ≤ τ) (hη : 0 ≤ η)
    (h : Rnd.RBuilt A invalid make proto l w B B0) {n : Nat} {c : ℚ} (hc : 0 ≤ c) (hcl : c ≤ limit)
    (hb : ∀ p ∈ B.utilities, PartBounded F p n c) (hb' : PartBounded F B.constraint n c)
    {vs : List Nat} (hvs : ∀ v ∈ vs, v < B.system.data.numKeys)
    (hs : ∀ v ∈ vs, FairShares A B.system.data v η) {T : Nat} (hT : vs.length ≤ T)
    (hl : rangeNeeded u η τ (dagCount B) n
      (pathSize u η τ (dagCount B) n ((1 + u) * (n * c) + n * τ) T) 0 ≤ limit)
    (hk : seqKeys 0 proto ≠ []) :
    ∃ D bs, averages A vs B.system.data = some (D, bs) ∧ ∀ b ∈ bs, ∃ q : ℚ, b = q ∧ F q
      ∧ |q| ≤ rangeNeeded u η τ (dagCount B) n
        (pathSize u η τ (dagCount B) n ((1 + u) * (n * c) + n * τ) T) 0 := by
  have hgood := fun d hd => (h.good d hd).1
  have hC : 0 ≤ (1 + u) * (n * c) + n * τ :=
    add_nonneg (mul_nonneg (by linarith) (mul_nonneg (Nat.cast_nonneg _) hc))
      (mul_nonneg (Nat.cast_nonneg _) hτ)
  have hM := hC.trans (Rnd.pathSize_base hu hη hτ (N := dagCount B) (n := n) hC T)
  obtain ⟨r1, -⟩ := rbuilt_range hA hu hτ hη h hc hcl hb hb' hvs hs hT hl
  obtain ⟨e1, e2⟩ := rbuilt_range hA hu hτ hη h hc hcl hb hb' (vs := []) (by simp) (by simp)
    (Nat.zero_le T) hl
  obtain ⟨h1, -⟩ := made_ready (A := A) h.system hgood h.weights
  obtain ⟨-, -, -, -, -, -, d7⟩ := makeSystem_ok h.system
  have hlen : B.system.data.subs.length = dagCount B := by
    rw [d7, ← rbuilt_count h]; simp
  have hpos : ∀ s ∈ B.system.data.subs, 0 < s.memo.dag.numKeys := by
    intro s hsm
    rw [d7] at hsm
    obtain ⟨⟨d, i⟩, hx, rfl⟩ := List.mem_map.1 hsm
    obtain ⟨g1, g2, -⟩ := h.good d (List.fst_mem_of_mem_zipIdx hx)
    change 0 < d.1.numKeys
    rw [← g1.keys_length, g2]
    exact List.length_pos_of_ne_nil hk
  obtain ⟨D, bs, g1, g2⟩ := Rnd.run_size hA.sums hu hη hτ hM vs B.system.data h1 hpos
    (by rw [hlen]; unfold dagCount; omega) r1.run (by rw [hlen]; exact hl)
  obtain ⟨-, α, -, x, -, -, w1, w2, -⟩ := rbuilt_greedy hA hu hτ hη h hM hM e1 rfl (e2 _ _ rfl) hk .forward
  refine ⟨D, bs, g1, fun b hbm => ?_⟩
  have hfin := rbuilt_bound hA hu hτ h r1 g1 w1 w2 b hbm
  obtain ⟨q, hq⟩ := WithTop.ne_top_iff_exists.1 (lt_of_le_of_lt hfin (WithTop.coe_lt_top _)).ne
  have := g2 b hbm q hq.symm
  rw [hlen] at this
  exact ⟨q, hq.symm, this⟩

end

/-! ## The sweeps -/

section
variable {A : Arith} {F : ℚ → Prop} {u limit : ℚ} {S : System} {T : Nat} {R tol : ℚ}
  {late : Nat → Bool} {τ : ℚ}

/-- Runs of at most `T` steps do not fail and report numbers of at most size `R`. -/
def RunsWell (A : Arith) (F : ℚ → Prop) (R : ℚ) (T : Nat) (S : System) : Prop :=
  ∀ vs : List Nat, (∀ v ∈ vs, v < S.numKeys) → vs.length ≤ T →
    ∃ D bs, averages A vs S = some (D, bs) ∧ ∀ b ∈ bs, ∃ q : ℚ, b = q ∧ F q ∧ |q| ≤ R

/-- The last bound is a number. -/
def LastGood (F : ℚ → Prop) (R : ℚ) (st : SweepState) : Prop :=
  ∃ q : ℚ, st.last = some (q : Cost) ∧ F q ∧ |q| ≤ R

theorem runSweep_total (hS : RunsWell A F R T S) : ∀ (vs : List Nat) (st : SweepState) (c : Bool),
    Swept A S st → (∀ v ∈ vs, v < S.numKeys) → st.variableAtStep.length + vs.length ≤ T →
    ∃ st' c', Rounded.runSweep A tol vs st c = some (st', c') ∧ Swept A S st'
      ∧ st'.variableAtStep.length = st.variableAtStep.length + vs.length
      ∧ (vs ≠ [] → LastGood F R st') ∧ (vs = [] → c' = c ∧ st'.last = st.last) := by
  intro vs
  induction vs with
  | nil => intro st c h _ _; exact ⟨st, c, rfl, h, rfl, by simp, by simp⟩
  | cons v vs ih =>
    intro st c h hv hT
    have hT' : st.variableAtStep.length + 1 + vs.length ≤ T := by
      rw [List.length_cons] at hT; omega
    obtain ⟨D, bs, g1, g2⟩ := hS (st.variableAtStep ++ [v]) (by
      intro w hw
      rcases List.mem_append.1 hw with hw | hw
      · exact h.vars w hw
      · rw [List.mem_singleton.1 hw]; exact hv v (by simp)) (by simp; omega)
    rw [averages_append, h.run, Option.bind_some] at g1
    cases hb : Rounded.average A st.system v with
    | none => simp [averages, hb] at g1
    | some r =>
      obtain ⟨S', b⟩ := r
      simp only [averages, hb, Option.bind_some, Option.map_some, Option.some.injEq,
        Prod.mk.injEq] at g1
      obtain ⟨-, rfl⟩ := g1
      obtain ⟨q, rfl, q1, q2⟩ := g2 b (by simp)
      have hsw : Swept A S { st with
          system := S'
          last := some (q : Cost)
          objectiveAtStep := st.objectiveAtStep ++ [(q : Cost)]
          variableAtStep := st.variableAtStep ++ [v] } := by
        refine ⟨?_, ?_, (average_keys hb).trans h.keys⟩
        · dsimp only
          rw [averages_append, h.run]
          simp [averages, hb]
        · intro w hw
          rcases List.mem_append.1 hw with hw | hw
          · exact h.vars w hw
          · rw [List.mem_singleton.1 hw]; exact hv v (by simp)
      obtain ⟨st', c', k1, k2, k3, k4, k5⟩ := ih _ (c || Rounded.improved A st.last q tol) hsw
        (fun w hw => hv w (List.mem_cons_of_mem _ hw)) (by
          simp only [List.length_append, List.length_singleton]; exact hT')
      refine ⟨st', c', ?_, k2, ?_, fun _ => ?_, by simp⟩
      · unfold Rounded.runSweep
        rw [hb]
        exact k1
      · rw [k3]; simp; omega
      · by_cases hvs : vs = []
        · exact ⟨q, (k5 hvs).2, q1, q2⟩
        · exact k4 hvs

theorem runSweep_quiet (hA : AccurateArith A F u τ limit) (hu : u ≤ 1) (hl : 2 * R ≤ limit)
    (htol : 4 * R ≤ tol) (hS : RunsWell A F R T S) :
    ∀ (vs : List Nat) (st st' : SweepState) (c c' : Bool), LastGood F R st →
    Swept A S st → (∀ v ∈ vs, v < S.numKeys) → st.variableAtStep.length + vs.length ≤ T →
    Rounded.runSweep A tol vs st c = some (st', c') → c' = c := by
  intro vs
  induction vs with
  | nil =>
    intro st st' c c' _ _ _ _ he
    simp only [Rounded.runSweep, Option.some.injEq, Prod.mk.injEq] at he
    exact he.2.symm
  | cons v vs ih =>
    intro st st' c c' hlast h hv hT he
    have hT' : st.variableAtStep.length + 1 + vs.length ≤ T := by
      rw [List.length_cons] at hT; omega
    obtain ⟨st1, c1, k1, k2, k3, k4, -⟩ := runSweep_total (tol := tol) hS [v] st c h
      (fun w hw => by rw [List.mem_singleton.1 hw]; exact hv v (by simp)) (by simp; omega)
    unfold Rounded.runSweep at he k1
    split at he
    · cases he
    · rename_i S' b hb
      rw [hb] at k1
      simp only [Rounded.runSweep, Option.some.injEq, Prod.mk.injEq] at k1
      obtain ⟨rfl, rfl⟩ := k1
      have hl1 := k4 (by simp)
      have := ih _ _ _ _ hl1 k2 (fun w hw => hv w (List.mem_cons_of_mem _ hw)) (by
        simp only [List.length_append, List.length_singleton]; exact hT') he
      rw [this]
      obtain ⟨q, e1, q1, q2⟩ := hlast
      obtain ⟨q', e2, q3, q4⟩ := hl1
      obtain rfl : b = (q' : Cost) := by simpa using e2
      have hnot : Rounded.improved A st.last (q' : Cost) tol = false := by
        rw [e1]
        unfold Rounded.improved
        dsimp only
        rw [if_neg WithTop.coe_ne_top]
        have hneg : negate (q : Cost) = ((-q : ℚ) : Cost) := rfl
        rw [hneg]
        have hab : |q' + -q| ≤ 2 * R := by
          refine (abs_add_le _ _).trans ?_
          rw [abs_neg]
          linarith
        obtain ⟨r, -, r1, r2⟩ := hA.sums.add q' (-q) q3 (hA.neg q q1) (hab.trans hl)
        have r1' : A.add (q' : Cost) ((-q : ℚ) : Cost) = r := r1
        rw [r1', decide_eq_false_iff_not, not_lt]
        apply WithTop.coe_le_coe.2
        have h3 := (abs_le.1 r2).2
        have h4 : u * |q' + -q| ≤ 1 * |q' + -q| := mul_le_mul_of_nonneg_right hu (abs_nonneg _)
        have h5 := le_abs_self (q' + -q)
        linarith
      rw [hnot, Bool.or_false]

theorem forward_lt {K : Nat} : ∀ v ∈ forwardVars K, v < K := by
  intro v hv
  have := List.mem_range.1 hv
  omega

theorem reverse_lt {K : Nat} : ∀ v ∈ reverseVars K, v < K := by
  intro v hv
  have := List.mem_range'_1.1 (List.mem_reverse.1 hv)
  omega

theorem solveLoop_total (hS : RunsWell A F R T S) : ∀ (fuel : Nat) (st : SweepState),
    Swept A S st → st.variableAtStep.length + 2 * fuel * (S.numKeys - 1) ≤ T →
    Rounded.solveLoop A tol late fuel st ≠ .error .assertion := by
  intro fuel
  induction fuel with
  | zero => intro st _ _ h; cases h
  | succ fuel ih =>
    intro st h hT
    have e : 2 * (fuel + 1) * (S.numKeys - 1)
        = 2 * fuel * (S.numKeys - 1) + (S.numKeys - 1) + (S.numKeys - 1) := by ring
    have lf : (forwardVars S.numKeys).length = S.numKeys - 1 := by simp [forwardVars]
    have lr : (reverseVars S.numKeys).length = S.numKeys - 1 := by simp [reverseVars]
    obtain ⟨st1, c1, k1, k2, k3, -⟩ := runSweep_total (tol := tol) hS (forwardVars S.numKeys) st false h
      forward_lt (by rw [lf]; omega)
    have k2' : Swept A S st1.record := ⟨k2.run, k2.vars, k2.keys⟩
    have k3' : st1.record.variableAtStep.length = st.variableAtStep.length + (S.numKeys - 1) := by
      rw [← lf]; exact k3
    obtain ⟨st2, c2, m1, m2, m3, -⟩ := runSweep_total (tol := tol) hS (reverseVars S.numKeys)
      st1.record c1 k2' reverse_lt (by rw [lr]; omega)
    have m3' : st2.record.variableAtStep.length
        = st.variableAtStep.length + (S.numKeys - 1) + (S.numKeys - 1) := by
      rw [lr, k3'] at m3
      exact m3
    unfold Rounded.solveLoop
    rw [h.keys, k1]
    dsimp only
    split
    · split
      · exact ih _ k2' (by omega)
      · intro h; cases h
    · rw [m1]
      dsimp only
      split
      · exact ih _ ⟨m2.run, m2.vars, m2.keys⟩ (by omega)
      · intro h; cases h

/-- With a large tolerance, the sweeps end after the second pass. -/
theorem solve_stops (hA : AccurateArith A F u τ limit) (hu : u ≤ 1) (hl : 2 * R ≤ limit)
    (htol : 4 * R ≤ tol) (hS : RunsWell A F R T S) (hT : 4 * (S.numKeys - 1) ≤ T) :
    ∃ st, Rounded.solve A S tol (fun _ => false) 2 = .ok st ∧ st.variableAtStep.length ≤ 4 * (S.numKeys - 1) := by
  have lf : (forwardVars S.numKeys).length = S.numKeys - 1 := by simp [forwardVars]
  have lr : (reverseVars S.numKeys).length = S.numKeys - 1 := by simp [reverseVars]
  have h0 : Swept A S ⟨S, none, [], [], [], []⟩ := ⟨rfl, by simp, rfl⟩
  obtain ⟨st1, c1, k1, k2, k3, k4, k5⟩ := runSweep_total (tol := tol) hS (forwardVars S.numKeys) _ false
    h0 forward_lt (by simp [lf]; omega)
  have k2' : Swept A S st1.record := ⟨k2.run, k2.vars, k2.keys⟩
  have k3' : st1.record.variableAtStep.length = S.numKeys - 1 := by
    have : st1.variableAtStep.length = (forwardVars S.numKeys).length := by simpa using k3
    rw [← lf]; exact this
  obtain ⟨st2, c2, m1, m2, m3, m4, m5⟩ := runSweep_total (tol := tol) hS (reverseVars S.numKeys)
    st1.record c1 k2' reverse_lt (by rw [lr]; omega)
  have m2' : Swept A S st2.record := ⟨m2.run, m2.vars, m2.keys⟩
  have m3' : st2.record.variableAtStep.length = (S.numKeys - 1) + (S.numKeys - 1) := by
    rw [lr, k3'] at m3
    exact m3
  unfold Rounded.solve
  unfold Rounded.solveLoop
  dsimp only
  rw [k1]
  dsimp only
  rw [if_neg (by simp), m1]
  dsimp only
  split
  · rename_i hc2
    have hne : reverseVars S.numKeys ≠ [] := by
      intro hnil
      have hk0 : S.numKeys - 1 = 0 := by rw [← lr, hnil]; rfl
      have hf : forwardVars S.numKeys = [] := List.length_eq_zero_iff.1 (by rw [lf, hk0])
      rw [(m5 hnil).1, (k5 hf).1] at hc2
      cases hc2
    obtain ⟨q, q1, q2⟩ := m4 hne
    have hgood : LastGood F R st2.record := ⟨q, q1, q2⟩
    obtain ⟨st3, c3, p1, p2, p3, p4, p5⟩ := runSweep_total (tol := tol) hS (forwardVars S.numKeys)
      st2.record false m2' forward_lt (by rw [lf]; omega)
    have p2' : Swept A S st3.record := ⟨p2.run, p2.vars, p2.keys⟩
    have p3' : st3.record.variableAtStep.length = (S.numKeys - 1) + (S.numKeys - 1) + (S.numKeys - 1) := by
      rw [lf, m3'] at p3
      exact p3
    have hc3 := runSweep_quiet hA hu hl htol hS _ _ _ _ _ hgood m2' forward_lt
      (by rw [lf]; omega) p1
    have hgood3 : LastGood F R st3.record := by
      by_cases hf : forwardVars S.numKeys = []
      · exact ⟨q, by rw [← q1]; exact (p5 hf).2, q2⟩
      · exact p4 hf
    obtain ⟨st4, c4, r1, r2, r3, r4, r5⟩ := runSweep_total (tol := tol) hS (reverseVars S.numKeys)
      st3.record c3 p2' reverse_lt (by rw [lr]; omega)
    have hc4 := runSweep_quiet hA hu hl htol hS _ _ _ _ _ hgood3 p2' reverse_lt
      (by rw [lr]; omega) r1
    unfold Rounded.solveLoop
    rw [m2'.keys, p1]
    dsimp only
    rw [if_neg (by simp), r1]
    dsimp only
    rw [hc4, hc3, if_neg (by simp)]
    refine ⟨_, rfl, ?_⟩
    rw [lr, p3'] at r3
    change st4.variableAtStep.length ≤ _
    omega
  · refine ⟨_, rfl, ?_⟩
    omega

end

/-! ## Exact arithmetic -/

theorem exact_entry {S I : Type} (p : Part S I) : Rounded.entry exactArith p = p.entry := rfl

theorem exact_build {T E S I M : Type} [DecidableEq S] (invalid : Cost)
    (make : T → Except E (Dag S DecisionKey DecisionValue I)) (proto : List (Node M))
    (targets : List T) (factors : Option (List ℚ)) :
    Rounded.buildSystem exactArith List.sum invalid make proto targets factors
      = RUSure.buildSystem invalid make proto targets factors := rfl

section
variable {M : Type} [DecidableEq M]

/-- C72: with exact arithmetic, this is `build_system` of C59. -/
theorem C72_exact (invalid : Cost) (prm : Params) (f : SelUtility M) (proto : List (Node M))
    (targets : List (List (Node M))) (factors : Option (List ℚ)) :
    Rounded.buildEditSystem exactArith List.sum invalid prm proto targets factors
        = RUSure.buildEditSystem invalid prm proto targets factors
    ∧ Rounded.buildSelectionSystem exactArith List.sum invalid f proto targets factors
        = RUSure.buildSelectionSystem invalid f proto targets factors :=
  ⟨exact_build _ _ _ _ _, exact_build _ _ _ _ _⟩

/-! ## Edit distances -/

section
variable {A : Arith} {F : ℚ → Prop} {u τ η limit : ℚ} {total : List ℚ → ℚ} {invalid : Cost}
  {prm : Params} {proto : List (Node M)} {targets : List (List (Node M))}
  {factors : Option (List ℚ)} {B : BuiltSystem EditState (Option EditInfo)}

/-- C72: `build_system` never fails in machine arithmetic, if the targets contain no decisions. -/
theorem C72_builds (A : Arith) (total : List ℚ → ℚ) (invalid : Cost) (prm : Params)
    (proto : List (Node M)) (targets : List (List (Node M))) (factors : Option (List ℚ))
    (ht : ∀ t ∈ targets, DecisionFree t) (hf : factors = none → targets ≠ []) :
    ∃ B, Rounded.buildEditSystem A total invalid prm proto targets factors = .ok B :=
  Rnd.rbuild_total hf (fun t htm => by
    obtain ⟨d, hd⟩ := C46_builds prm proto t
    exact ⟨d, hd, edit_good prm proto t (ht t htm) d hd⟩)

theorem edit_rbuilt (hB : Rounded.buildEditSystem A total invalid prm proto targets factors = .ok B)
    (ht : ∀ t ∈ targets, DecisionFree t) (hf : MachineFactors A total targets factors) :
    ∃ B0, Rnd.RBuilt A invalid (constructEditDag prm proto) proto
      (targets.zip (machineWeights A targets.length factors))
      (total (machineWeights A targets.length factors)) B B0 :=
  Rnd.rbuilt_of hf.positive hf.total (fun t htm d hd => edit_good prm proto t (ht t htm) d hd) hB

/-- C72: a bound reported by the solver in machine arithmetic exceeds the cost of no well-formed
decisions by more than the error. The cost of decisions is the weighted total of the prices of the
cheapest edit scripts to the targets, with the weights of the machine. -/
theorem C72_bound (hA : AccurateArith A F u τ limit) (hu : 0 ≤ u) (hτ : 0 ≤ τ)
    (hB : Rounded.buildEditSystem A total invalid prm proto targets factors = .ok B)
    (ht : ∀ t ∈ targets, DecisionFree t) (hf : MachineFactors A total targets factors)
    {vs : List Nat} {n : Nat} {size Mx : ℚ} (hr : SolvesInRange A F u τ η limit B vs n size Mx)
    {D : System} {bs : List Cost} (he : averages A vs B.system.data = some (D, bs))
    {β : DecisionKey → DecisionValue} (hβ : WellFormedRegions β proto) {y : ℚ}
    (hy : WeightedTotal (LeastEditCost prm proto β)
      (targets.zip (machineWeights A targets.length factors)) y) :
    ∀ b ∈ bs, b ≤ ((y + boundError u η τ B n size Mx : ℚ) : Cost) := by
  obtain ⟨B0, h⟩ := edit_rbuilt hB ht hf
  exact rbuilt_bound hA hu hτ h hr he hβ (edit_total.2 hy)

/-- C72: after solving in machine arithmetic, greedy extraction returns well-formed decisions for the
whole prototype, and a cost that is theirs up to the error. -/
theorem C72_greedy (hA : AccurateArith A F u τ limit) (hu : 0 ≤ u) (hτ : 0 ≤ τ) (hη : 0 ≤ η)
    (hB : Rounded.buildEditSystem A total invalid prm proto targets factors = .ok B)
    (ht : ∀ t ∈ targets, DecisionFree t) (hf : MachineFactors A total targets factors)
    {vs : List Nat} {n : Nat} {size Mx My : ℚ} (hMx : 0 ≤ Mx) (hMy : 0 ≤ My)
    (hr : SolvesInRange A F u τ η limit B vs n size Mx)
    {D : System} {bs : List Cost} (he : averages A vs B.system.data = some (D, bs))
    (hx : ExtractsInRange F u limit B D n My) (hk : seqKeys 0 proto ≠ []) (dir : Direction) :
    ∃ (vec : List Nat) (α : DecisionKey → DecisionValue) (C x : ℚ),
      Rounded.greedy A D dir = some (vec, some (C : Cost))
      ∧ assignmentPairs B.system.keys B.system.values vec
        = some ((seqKeys 0 proto).map fun k => (k, α k))
      ∧ WellFormedRegions α proto
      ∧ WeightedTotal (LeastEditCost prm proto α)
          (targets.zip (machineWeights A targets.length factors)) x
      ∧ |C - x| ≤ suggestionError u η τ B n size Mx My := by
  obtain ⟨B0, h⟩ := edit_rbuilt hB ht hf
  obtain ⟨vec, α, C, x, h1, h2, h3, h4, h5⟩ := rbuilt_greedy hA hu hτ hη h hMx hMy hr he hx hk dir
  exact ⟨vec, α, C, x, h1, h2, h3, edit_total.1 h4, h5⟩

/-- C72: if the solver ends in machine arithmetic, the decisions extracted are optimal up to the gap
between the returned cost and any of the reported bounds, and up to the errors. -/
theorem C72_solve (hA : AccurateArith A F u τ limit) (hu : 0 ≤ u) (hτ : 0 ≤ τ) (hη : 0 ≤ η)
    (hB : Rounded.buildEditSystem A total invalid prm proto targets factors = .ok B)
    (ht : ∀ t ∈ targets, DecisionFree t) (hf : MachineFactors A total targets factors)
    {tol : ℚ} {late : Nat → Bool} {fuel : Nat} {st : SweepState}
    (hs : Rounded.solve A B.system.data tol late fuel = .ok st)
    {n : Nat} {size Mx My : ℚ} (hMx : 0 ≤ Mx) (hMy : 0 ≤ My)
    (hr : SolvesInRange A F u τ η limit B st.variableAtStep n size Mx)
    (hx : ExtractsInRange F u limit B st.system n My) (hk : seqKeys 0 proto ≠ []) (dir : Direction) :
    ∃ (vec : List Nat) (α : DecisionKey → DecisionValue) (C x : ℚ),
      Rounded.greedy A st.system dir = some (vec, some (C : Cost))
      ∧ assignmentPairs B.system.keys B.system.values vec
        = some ((seqKeys 0 proto).map fun k => (k, α k))
      ∧ WellFormedRegions α proto
      ∧ WeightedTotal (LeastEditCost prm proto α)
          (targets.zip (machineWeights A targets.length factors)) x
      ∧ |C - x| ≤ suggestionError u η τ B n size Mx My
      ∧ ∀ b : ℚ, (b : Cost) ∈ st.objectiveAtStep → ∀ β, WellFormedRegions β proto → ∀ y,
          WeightedTotal (LeastEditCost prm proto β)
            (targets.zip (machineWeights A targets.length factors)) y →
          x ≤ y + (C - b) + suggestionError u η τ B n size Mx My + boundError u η τ B n size Mx := by
  have he := (C68_solve hs).1
  obtain ⟨vec, α, C, x, h1, h2, h3, h4, h5⟩ := C72_greedy hA hu hτ hη hB ht hf hMx hMy hr he hx hk dir
  refine ⟨vec, α, C, x, h1, h2, h3, h4, h5, fun b hb β hβ y hy => ?_⟩
  have h6 := WithTop.coe_le_coe.1 (C72_bound hA hu hτ hB ht hf hr he hβ hy b hb)
  have h7 := (abs_le.1 h5).1
  linarith

/-- C72: if the costs of all steps of edit scripts have at most size `c0`, the weights times `c0` are
at most `c` and the trees are small enough, the costs and numbers of states of all DAGs are bounded. -/
theorem C72_parts
    (hB : Rounded.buildEditSystem A total invalid prm proto targets factors = .ok B)
    (ht : ∀ t ∈ targets, DecisionFree t) (hf : MachineFactors A total targets factors)
    {n : Nat} {c0 c : ℚ} (hF : F 0) (hc : 0 ≤ c)
    (hcost : ∀ t ∈ targets, StepCosts (fun x => F x ∧ |x| ≤ c0) prm proto t)
    (hw : ∀ f ∈ machineWeights A targets.length factors, c0 * f ≤ c)
    (hn : ∀ t ∈ targets, editStates (seqSize proto) (seqKeys 0 proto).length (seqSize t) ≤ n + 1)
    (hn' : constraintStates (seqSize proto) (seqKeys 0 proto).length ≤ n + 1) :
    (∀ p ∈ B.utilities, PartBounded F p n c) ∧ PartBounded F B.constraint n c := by
  obtain ⟨B0, h⟩ := edit_rbuilt hB ht hf
  have hzero : ∀ {x s : ℚ} {y : Cost}, y = 0 → y = (x : Cost) → F x ∧ |x * s| ≤ c := by
    intro x s y h0 hx
    rw [h0] at hx
    rw [← WithTop.coe_inj.1 (show ((0 : ℚ) : Cost) = x from hx), zero_mul, abs_zero]
    exact ⟨hF, hc⟩
  constructor
  · intro p hp
    rw [← h.utilities] at hp
    obtain ⟨ts, hts, d, c', hd, hconv, rfl⟩ := forall₂_mem_right' h.exact.parts hp
    have hg := h.exact.good ts hts d hd
    have htopo := prune_topo d hg.topo
    obtain ⟨h1, h2⟩ := List.of_mem_zip hts
    rw [constructEditDag_ok] at hd
    cases hd
    refine ⟨?_, ?_⟩
    · intro e he x hx
      rcases Rnd.convert_costs htopo hconv e he with h0 | ⟨e0, he0, h0⟩
      · exact hzero h0 hx
      · obtain ⟨q, hq, hF', hq'⟩ := Rnd.editEdges_cost (hcost _ h1) e0 (List.mem_of_mem_filter he0)
        rw [h0, hq] at hx
        obtain rfl := WithTop.coe_inj.1 hx
        refine ⟨hF', ?_⟩
        have hpos := hf.positive _ h2
        rw [abs_mul, abs_of_pos hpos]
        exact (mul_le_mul_of_nonneg_right hq' hpos.le).trans (hw _ h2)
    · refine (Rnd.convert_states htopo hconv).trans (le_trans ?_ (hn _ h1))
      rw [hg.keys _ hconv]
      refine Nat.mul_le_mul_right _ ?_
      have a := Rnd.editEdges_length prm proto ts.1
      have b : (Dag.prune ⟨editInitial, editEdges prm proto ts.1,
        EditState.final⟩).edges.length ≤ (editEdges prm proto ts.1).length := List.length_filter_le _ _
      omega
  · obtain ⟨dc, cc, hd, hconv, hB'⟩ := h.exact.constraint
    rw [← h.constraint, hB']
    rw [constructConstraintDag_ok] at hd
    cases hd
    have hg := C45_constraint proto _ (constructConstraintDag_ok proto)
    have htopo := prune_topo _ hg.1
    refine ⟨?_, ?_⟩
    · intro e he x hx
      rcases Rnd.convert_costs htopo hconv e he with h0 | ⟨e0, he0, h0⟩
      · exact hzero h0 hx
      · rw [constraintEdges_cost proto e0 (List.mem_of_mem_filter he0)] at h0
        exact hzero h0 hx
    · refine (Rnd.convert_states htopo hconv).trans (le_trans ?_ hn')
      have hk : cc.keys = seqKeys 0 proto := by
        have := (h.good (entry A B.constraint) (by simp)).2.1
        rw [← h.constraint, hB'] at this
        exact this
      rw [hk]
      refine Nat.mul_le_mul_right _ ?_
      have a := Rnd.constraintEdges_length proto
      have b : (Dag.prune ⟨constraintInitial, constraintEdges proto,
        ConstraintState.final⟩).edges.length ≤ (constraintEdges proto).length :=
        List.length_filter_le _ _
      omega

end

/-! ## Selections -/

section
variable {A : Arith} {F : ℚ → Prop} {u τ η limit : ℚ} {total : List ℚ → ℚ} {invalid : Cost}
  {f : SelUtility M} {proto : List (Node M)} {targets : List (List (Node M))}
  {factors : Option (List ℚ)} {B : BuiltSystem SelState (Option SelInfo)}

/-- C72: for selections, `build_system` never fails in machine arithmetic, if the prototype has no
early exit and does not begin with the end of a region. -/
theorem C72_selection_builds (A : Arith) (total : List ℚ → ℚ) (invalid : Cost) (f : SelUtility M)
    (proto : List (Node M)) (targets : List (List (Node M))) (factors : Option (List ℚ))
    (hx : ¬ Occurs proto .exit) (hs : ∀ i, (items 0 proto).head? ≠ some (.stop i))
    (hf : factors = none → targets ≠ []) :
    ∃ B, Rounded.buildSelectionSystem A total invalid f proto targets factors = .ok B :=
  Rnd.rbuild_total hf (fun t _ => by
    obtain ⟨d, hd⟩ := (C50_builds f proto t).1.2 hs
    exact ⟨d, hd, selection_good f proto t hx d hd⟩)

/-- C72: for selections, the same about bounds, extracted decisions and their optimality. -/
theorem C72_selection_solve (hA : AccurateArith A F u τ limit) (hu : 0 ≤ u) (hτ : 0 ≤ τ) (hη : 0 ≤ η)
    (hex : ¬ Occurs proto .exit) (hst : ∀ i, (items 0 proto).head? ≠ some (.stop i))
    (hB : Rounded.buildSelectionSystem A total invalid f proto targets factors = .ok B)
    (hf : MachineFactors A total targets factors)
    {tol : ℚ} {late : Nat → Bool} {fuel : Nat} {st : SweepState}
    (hs : Rounded.solve A B.system.data tol late fuel = .ok st)
    {n : Nat} {size Mx My : ℚ} (hMx : 0 ≤ Mx) (hMy : 0 ≤ My)
    (hr : SolvesInRange A F u τ η limit B st.variableAtStep n size Mx)
    (hx : ExtractsInRange F u limit B st.system n My) (hk : seqKeys 0 proto ≠ []) (dir : Direction) :
    ∃ (vec : List Nat) (α : DecisionKey → DecisionValue) (C x : ℚ),
      Rounded.greedy A st.system dir = some (vec, some (C : Cost))
      ∧ assignmentPairs B.system.keys B.system.values vec
        = some ((seqKeys 0 proto).map fun k => (k, α k))
      ∧ WellFormedRegions α proto
      ∧ WeightedTotal (LeastLookupCost f proto α)
          (targets.zip (machineWeights A targets.length factors)) x
      ∧ |C - x| ≤ suggestionError u η τ B n size Mx My
      ∧ ∀ b ∈ st.objectiveAtStep, ∀ β, WellFormedRegions β proto → ∀ y,
          WeightedTotal (LeastLookupCost f proto β)
            (targets.zip (machineWeights A targets.length factors)) y →
          b ≤ ((y + boundError u η τ B n size Mx : ℚ) : Cost)
          ∧ ∀ b' : ℚ, b = b' →
            x ≤ y + (C - b') + suggestionError u η τ B n size Mx My + boundError u η τ B n size Mx := by
  have he := (C68_solve hs).1
  obtain ⟨B0, h⟩ := Rnd.rbuilt_of hf.positive hf.total
    (fun t _ d hd => selection_good f proto t hex d hd) hB
  obtain ⟨vec, α, C, x, h1, h2, h3, h4, h5⟩ := rbuilt_greedy hA hu hτ hη h hMx hMy hr he hx hk dir
  refine ⟨vec, α, C, x, h1, h2, h3, (selection_total hst).1 h4, h5, fun b hb β hβ y hy => ?_⟩
  have h6 := rbuilt_bound hA hu hτ h hr he hβ ((selection_total hst).2 hy) b hb
  refine ⟨h6, ?_⟩
  rintro b' rfl
  have h6 := WithTop.coe_le_coe.1 h6
  have h7 := (abs_le.1 h5).1
  linarith

theorem selection_rbuilt
    (hB : Rounded.buildSelectionSystem A total invalid f proto targets factors = .ok B)
    (hex : ¬ Occurs proto .exit) (hf : MachineFactors A total targets factors) :
    ∃ B0, Rnd.RBuilt A invalid (fun t => constructSelectionDag f (pack proto) (pack t)) proto
      (targets.zip (machineWeights A targets.length factors))
      (total (machineWeights A targets.length factors)) B B0 :=
  Rnd.rbuilt_of hf.positive hf.total (fun t _ d hd => selection_good f proto t hex d hd) hB

/-- C72: sizes and costs of the parts of systems for selections. -/
theorem C72_selection_parts
    (hB : Rounded.buildSelectionSystem A total invalid f proto targets factors = .ok B)
    (hex : ¬ Occurs proto .exit) (hf : MachineFactors A total targets factors)
    {n : Nat} {c0 c : ℚ} (hF : F 0) (hc : 0 ≤ c)
    (hcost : LookupCosts (fun x => F x ∧ |x| ≤ c0) f proto)
    (hw : ∀ f ∈ machineWeights A targets.length factors, c0 * f ≤ c)
    (hn : ∀ t ∈ targets, selectionStates (seqSize proto) (seqKeys 0 proto).length (seqSize t) ≤ n + 1)
    (hn' : constraintStates (seqSize proto) (seqKeys 0 proto).length ≤ n + 1) :
    (∀ p ∈ B.utilities, PartBounded F p n c) ∧ PartBounded F B.constraint n c := by
  obtain ⟨B0, h⟩ := selection_rbuilt hB hex hf
  have hzero : ∀ {x s : ℚ} {y : Cost}, y = 0 → y = (x : Cost) → F x ∧ |x * s| ≤ c := by
    intro x s y h0 hx
    rw [h0] at hx
    rw [← WithTop.coe_inj.1 (show ((0 : ℚ) : Cost) = x from hx), zero_mul, abs_zero]
    exact ⟨hF, hc⟩
  constructor
  · intro p hp
    rw [← h.utilities] at hp
    obtain ⟨ts, hts, d, c', hd, hconv, rfl⟩ := forall₂_mem_right' h.exact.parts hp
    have hg := h.exact.good ts hts d hd
    have htopo := prune_topo d hg.topo
    obtain ⟨h1, h2⟩ := List.of_mem_zip hts
    obtain ⟨-, rfl⟩ := selection_built f proto ts.1 d hd
    refine ⟨?_, ?_⟩
    · intro e he x hx
      rcases Rnd.convert_costs htopo hconv e he with h0 | ⟨e0, he0, h0⟩
      · exact hzero h0 hx
      · obtain ⟨q, hq, hF', hq'⟩ := Rnd.goodEdges_cost hcost ts.1 e0 (List.mem_of_mem_filter he0)
        rw [h0, hq] at hx
        obtain rfl := WithTop.coe_inj.1 hx
        refine ⟨hF', ?_⟩
        have hpos := hf.positive _ h2
        rw [abs_mul, abs_of_pos hpos]
        exact (mul_le_mul_of_nonneg_right hq' hpos.le).trans (hw _ h2)
    · refine (Rnd.convert_states htopo hconv).trans (le_trans ?_ (hn _ h1))
      rw [hg.keys _ hconv]
      refine Nat.mul_le_mul_right _ ?_
      have a := Rnd.goodEdges_length (f := f) proto ts.1
      have b : (Dag.prune ⟨selInitial, goodEdges f (items 0 proto) (items 0 ts.1),
        SelState.final⟩).edges.length ≤ (goodEdges f (items 0 proto) (items 0 ts.1)).length :=
        List.length_filter_le _ _
      omega
  · obtain ⟨dc, cc, hd, hconv, hB'⟩ := h.exact.constraint
    rw [← h.constraint, hB']
    rw [constructConstraintDag_ok] at hd
    cases hd
    have hg := C45_constraint proto _ (constructConstraintDag_ok proto)
    have htopo := prune_topo _ hg.1
    refine ⟨?_, ?_⟩
    · intro e he x hx
      rcases Rnd.convert_costs htopo hconv e he with h0 | ⟨e0, he0, h0⟩
      · exact hzero h0 hx
      · rw [constraintEdges_cost proto e0 (List.mem_of_mem_filter he0)] at h0
        exact hzero h0 hx
    · refine (Rnd.convert_states htopo hconv).trans (le_trans ?_ hn')
      have hk : cc.keys = seqKeys 0 proto := by
        have := (h.good (entry A B.constraint) (by simp)).2.1
        rw [← h.constraint, hB'] at this
        exact this
      rw [hk]
      refine Nat.mul_le_mul_right _ ?_
      have a := Rnd.constraintEdges_length proto
      have b : (Dag.prune ⟨constraintInitial, constraintEdges proto,
        ConstraintState.final⟩).edges.length ≤ (constraintEdges proto).length :=
        List.length_filter_le _ _
      omega

end

end

/-! ## `float64` -/

theorem zipIdx_snd {α β : Type} (f : Nat → β) : ∀ (l : List α) (k : Nat),
    (l.zipIdx k).map (fun x => f x.2) = (List.range' k l.length).map f := by
  intro l
  induction l with
  | nil => intro k; rfl
  | cons a l ih => intro k; simp [List.zipIdx_cons, ih, List.range'_succ]

theorem zip_snd {α β : Type} : ∀ (l : List α) (l' : List β), (l.zip l').map Prod.snd = l'.take l.length := by
  intro l
  induction l with
  | nil => simp
  | cons a l ih =>
    intro l'
    cases l' with
    | nil => simp
    | cons b l' => simp [ih l']

section
variable {A : Arith} {T E S I M : Type} [DecidableEq S] {invalid : Cost}
  {make : T → Except E (Dag S DecisionKey DecisionValue I)} {proto : List (Node M)}
  {l : List (T × ℚ)} {w : ℚ} {B B0 : BuiltSystem S I}

/-- The update proportions of a built system. -/
theorem rbuilt_weights (h : Rnd.RBuilt A invalid make proto l w B B0) :
    B.system.data.subs.map Sub.weight = l.map Prod.snd ++ [w] := by
  obtain ⟨-, -, -, -, -, -, d7⟩ := makeSystem_ok h.system
  have hsc : B.utilities.map Part.scale = l.map Prod.snd := by
    have := h.exact.parts
    rw [h.utilities] at this
    generalize B.utilities = ps at this
    clear h d7
    induction this with
    | nil => rfl
    | cons h1 _ ih =>
      obtain ⟨d, c, -, -, rfl⟩ := h1
      rw [List.map_cons, List.map_cons, ih]
  have hlen : (B.utilities.map (entry A) ++ [entry A B.constraint]).length
      = (B.utilities.map Part.scale ++ [w]).length := by simp
  rw [← hsc, d7, List.map_map]
  generalize B.utilities.map (entry A) ++ [entry A B.constraint] = L at hlen
  generalize B.utilities.map Part.scale ++ [w] = ws at hlen
  have := zipIdx_snd (fun i => subWeight (some ws) i) L 0
  refine Eq.trans (b := (L.zipIdx.map fun x => subWeight (some ws) x.2)) rfl ?_
  rw [this, hlen]
  apply List.ext_getElem?
  intro i
  rw [List.getElem?_map]
  by_cases hi : i < ws.length
  · rw [List.getElem?_range' hi]
    simp [subWeight, hi]
  · rw [List.getElem?_eq_none (by simpa using hi), List.getElem?_eq_none (by omega)]
    rfl

end

/-- C72: adding up from left to right is sound. -/
theorem C72_left_sum : SoundSum (leftSum float64Arith) := by
  intro fs hne hlen hf hs
  have hpos : 0 < fs.sum := by
    cases fs with
    | nil => exact absurd rfl hne
    | cons f fs =>
      have h1 := (hf f (by simp)).2
      have h2 : 0 ≤ fs.sum := List.sum_nonneg fun x hx => (hf x (List.mem_cons_of_mem _ hx)).2.le
      rw [List.sum_cons]
      linarith
  obtain ⟨W, w1, w2, w3, w4⟩ := float64_total fs 0 0 0 hf (by omega) C67_float64.zero (le_refl _)
    (by simp) (by simp) (by
      rw [zero_add]
      refine le_trans ?_ hs
      linarith)
  rw [zero_add, zero_add] at w3 w4
  have e : leftSum float64Arith fs = W := w1
  rw [e]
  refine ⟨w2, lt_of_lt_of_le (mul_pos (pow_pos (by norm_num) _) hpos) w3, w4.trans ?_⟩
  exact mul_le_mul_of_nonneg_right (pow_le_two (by omega)) hpos.le

/-- The machine's weights in `float64`. -/
theorem float_uniform {n : Nat} (h0 : n ≠ 0) (h1 : n ≤ 2 ^ 50) :
    IsFloat64 (float64Arith.div 1 n) ∧ |float64Arith.div 1 n - 1 / n| ≤ 1 / n / 2 ^ 52 := by
  have hn : (1 : ℚ) ≤ n := by exact_mod_cast Nat.one_le_iff_ne_zero.2 h0
  have hn2 : (n : ℚ) ≤ 2 ^ 50 := by exact_mod_cast h1
  have hi0 : (0 : ℚ) < 1 / n := by positivity
  have hi1 : (1 : ℚ) / n ≤ 1 := by rw [div_le_one (by linarith)]; exact hn
  have hi2 : (1 : ℚ) / 2 ^ 50 ≤ 1 / n := one_div_le_one_div_of_le (by linarith) hn2
  obtain ⟨r, r1, r2, r3⟩ := nearest64_error (s := 1 / (n : ℚ)) (by
    rw [abs_of_pos hi0]
    exact hi1.trans (one_le_pow₀ (by norm_num)))
  have e : float64Arith.div 1 n = r := by
    change (nearest64 (1 / (n : ℚ))).untopD 0 = r
    rw [r2]; rfl
  rw [e]
  refine ⟨r1, r3.trans ?_⟩
  rw [abs_of_pos hi0]
  have hτ : (2 : ℚ) ^ (-1075 : ℤ) ≤ 1 / 2 ^ 50 * (1 / 2 ^ 53) := by
    have : (1 : ℚ) / 2 ^ 50 * (1 / 2 ^ 53) = 2 ^ (-103 : ℤ) := by norm_num
    rw [this]
    exact zpow_le_zpow_right₀ (by norm_num) (by norm_num)
  have h3 : (1 : ℚ) / 2 ^ 50 * (1 / 2 ^ 53) ≤ 1 / n * (1 / 2 ^ 53) :=
    mul_le_mul_of_nonneg_right hi2 (by norm_num)
  have h4 := hτ.trans h3
  generalize (2 : ℚ) ^ (-1075 : ℤ) = y at *
  generalize (1 : ℚ) / n = z at *
  norm_num at h4 ⊢
  linarith

theorem float_weights {T : Type} {targets : List T} {factors : Option (List ℚ)}
    (hf : FloatFactors targets factors) :
    machineWeights float64Arith targets.length factors ≠ []
    ∧ (machineWeights float64Arith targets.length factors).length ≤ 2 ^ 50
    ∧ (∀ f ∈ machineWeights float64Arith targets.length factors, IsFloat64 f ∧ 0 < f)
    ∧ 8 * (machineWeights float64Arith targets.length factors).sum ≤ 2 ^ 1023 := by
  cases factors with
  | some fs => exact hf.given fs rfl
  | none =>
    obtain ⟨h1, h2⟩ := hf.uniform rfl
    have h0 : targets.length ≠ 0 := fun hc => h1 (List.length_eq_zero_iff.1 hc)
    have hn : (1 : ℚ) ≤ targets.length := by exact_mod_cast Nat.one_le_iff_ne_zero.2 h0
    have hn2 : (targets.length : ℚ) ≤ 2 ^ 50 := by exact_mod_cast h2
    obtain ⟨g1, g2⟩ := float_uniform h0 h2
    have hi0 : (0 : ℚ) < 1 / targets.length := by positivity
    have hi1 : (1 : ℚ) / targets.length ≤ 1 := by rw [div_le_one (by linarith)]; exact hn
    obtain ⟨g3, g4⟩ := abs_le.1 g2
    change List.replicate _ _ ≠ [] ∧ (List.replicate _ _).length ≤ _ ∧ (∀ f ∈ List.replicate _ _, _)
      ∧ 8 * (List.replicate _ _).sum ≤ _
    generalize float64Arith.div 1 (targets.length : ℚ) = r at *
    have hr0 : 0 < r := by
      generalize (1 : ℚ) / targets.length = z at *
      norm_num at g3
      linarith
    have hr2 : r ≤ 2 := by
      generalize (1 : ℚ) / targets.length = z at *
      norm_num at g4
      linarith
    refine ⟨by simpa using h0, by simpa using h2, ?_, ?_⟩
    · intro f hfm
      rw [(List.mem_replicate.1 hfm).2]
      exact ⟨g1, hr0⟩
    · rw [List.sum_replicate, nsmul_eq_mul]
      have h5 : 8 * ((targets.length : ℚ) * r) ≤ 2 ^ 54 := by nlinarith
      exact h5.trans (pow_le_pow_right₀ (by norm_num) (by omega))

/-- C72: such scale factors work. -/
theorem C72_factors {T : Type} {total : List ℚ → ℚ} {targets : List T} {factors : Option (List ℚ)}
    (ht : SoundSum total) (hf : FloatFactors targets factors) :
    MachineFactors float64Arith total targets factors := by
  obtain ⟨h1, h2, h3, h4⟩ := float_weights hf
  exact ⟨fun hn => (hf.uniform hn).1, fun f hfm => (h3 f hfm).2, (ht _ h1 h2 h3 h4).2.1⟩

section
variable {T E S I M : Type} [DecidableEq S] {invalid : Cost}
  {make : T → Except E (Dag S DecisionKey DecisionValue I)} {proto : List (Node M)}
  {l : List (T × ℚ)} {w : ℚ} {B B0 : BuiltSystem S I}

theorem rbuilt_shares (h : Rnd.RBuilt float64Arith invalid make proto l w B B0)
    (hlen : l.length ≤ 2 ^ 50) (hl : ∀ q ∈ l.map Prod.snd, IsFloat64 q ∧ 0 < q)
    (hw : IsFloat64 w ∧ 0 < w) (hs : 2 * ((l.map Prod.snd).sum + w) ≤ 2 ^ 1023)
    {v : Nat} (hv : v < B.system.data.numKeys) :
    FairShares float64Arith B.system.data v (floatShares B) := by
  have hws := rbuilt_weights h
  have hcount : B.system.data.subs.length = dagCount B := by
    rw [(makeSystem_ok h.system).2.2.2.2.2.2, ← rbuilt_count h]
    simp
  have hl1 : dagCount B = l.length + 1 := by
    rw [← hcount]
    have := congrArg List.length hws
    simpa using this
  have hmem : ∀ s ∈ B.system.data.subs, IsFloat64 s.weight ∧ 0 < s.weight := by
    intro s hs
    have := List.mem_map_of_mem (f := Sub.weight) hs
    rw [hws] at this
    rcases List.mem_append.1 this with hq | hq
    · exact hl _ hq
    · rw [List.mem_singleton.1 hq]
      exact hw
  have hsub : (participants B.system.data v).Sublist B.system.data.subs := List.filter_sublist
  have hple : (participants B.system.data v).length ≤ dagCount B := by
    rw [← hcount]; exact hsub.length_le
  have hpos : 0 < (participants B.system.data v).length := by
    obtain ⟨x, hx, k, hk⟩ :=
      (makeSystem_inv h.system (fun d hd => (h.good d hd).1) h.weights).inv.2 v hv
    obtain ⟨s, hs, rfl⟩ := List.mem_map.1 hx
    refine List.length_pos_of_mem (a := s) (List.mem_filter.2 ⟨hs, ?_⟩)
    have hk : s.index v = some k := hk
    rw [hk]
    rfl
  have hsum : ((participants B.system.data v).map Sub.weight).sum ≤ (l.map Prod.snd).sum + w := by
    have e : (l.map Prod.snd).sum + w = (B.system.data.subs.map Sub.weight).sum := by
      rw [hws]; simp
    rw [e]
    exact List.Sublist.sum_le_sum (hsub.map _) (by
      intro q hq
      obtain ⟨s, hs, rfl⟩ := List.mem_map.1 hq
      exact (hmem s hs).2.le)
  obtain ⟨f1, f2⟩ := C68_shares_weighted hmem hpos (by omega) (le_trans (by linarith) hs)
  refine ⟨f1, f2.trans ?_⟩
  unfold floatShares
  have : ((participants B.system.data v).length : ℚ) ≤ dagCount B := by exact_mod_cast hple
  apply div_le_div_of_nonneg_right (by linarith) (by norm_num)

end

section
variable {M : Type} [DecidableEq M] {total : List ℚ → ℚ} {invalid : Cost} {proto : List (Node M)}
  {targets : List (List (Node M))} {factors : Option (List ℚ)}

omit [DecidableEq M] in
theorem float_shares {S I : Type} [DecidableEq S] {E : Type}
    {make : List (Node M) → Except E (Dag S DecisionKey DecisionValue I)} {B B0 : BuiltSystem S I}
    (hsum : SoundSum total) (hf : FloatFactors targets factors)
    (h : Rnd.RBuilt float64Arith invalid make proto
      (targets.zip (machineWeights float64Arith targets.length factors))
      (total (machineWeights float64Arith targets.length factors)) B B0)
    {v : Nat} (hv : v < B.system.data.numKeys) :
    FairShares float64Arith B.system.data v (floatShares B) := by
  obtain ⟨h1, h2, h3, h4⟩ := float_weights hf
  obtain ⟨t1, t2, t3⟩ := hsum _ h1 h2 h3 h4
  generalize machineWeights float64Arith targets.length factors = fs at *
  have hsub : ((targets.zip fs).map Prod.snd).Sublist fs := by
    rw [zip_snd]; exact List.take_sublist _ _
  have hle : ((targets.zip fs).map Prod.snd).sum ≤ fs.sum :=
    List.Sublist.sum_le_sum hsub fun q hq => (h3 q hq).2.le
  have hpos : 0 ≤ fs.sum := List.sum_nonneg fun q hq => (h3 q hq).2.le
  refine rbuilt_shares h ?_ (fun q hq => h3 q (hsub.subset hq)) ⟨t1, t2⟩ ?_ hv
  · rw [List.length_zip]
    exact (Nat.min_le_right _ _).trans h2
  · refine le_trans ?_ h4
    linarith

/-- C72: in `float64`, the shares with which a variable of a built system is averaged add up to one up
to `floatShares`. -/
theorem C72_shares {prm : Params} {B : BuiltSystem EditState (Option EditInfo)}
    (hsum : SoundSum total)
    (hB : Rounded.buildEditSystem float64Arith total invalid prm proto targets factors = .ok B)
    (ht : ∀ t ∈ targets, DecisionFree t) (hf : FloatFactors targets factors) {v : Nat}
    (hv : v < B.system.data.numKeys) : FairShares float64Arith B.system.data v (floatShares B) := by
  obtain ⟨B0, h⟩ := edit_rbuilt hB ht (C72_factors hsum hf)
  exact float_shares hsum hf h hv

theorem floatShares_nonneg {S I : Type} (B : BuiltSystem S I) : 0 ≤ floatShares B := by
  unfold floatShares
  positivity

theorem floatSize_nonneg {S I : Type} (B : BuiltSystem S I) {n : Nat} {c : ℚ} (hc : 0 ≤ c) (T : Nat) :
    0 ≤ floatSize B n c T := by
  have hnc : 0 ≤ (n : ℚ) * c := mul_nonneg (Nat.cast_nonneg _) hc
  have hτ : (0 : ℚ) ≤ 2 ^ (-1075 : ℤ) := zpow_nonneg (by norm_num) _
  have hC : (0 : ℚ) ≤ (1 + 1 / 2 ^ 53) * (n * c) + n * 2 ^ (-1075 : ℤ) :=
    add_nonneg (mul_nonneg (by norm_num) hnc) (mul_nonneg (Nat.cast_nonneg _) hτ)
  exact hC.trans (Rnd.pathSize_base (by norm_num) (floatShares_nonneg B) hτ hC T)

/-- C72: the solver in `float64`, without assumptions about the run other than the number of its steps:
if the costs of the edges are `float64` numbers, of size at most `c` when scaled, there are at most
`n + 1` states, the solver averages variables at most `T` times and `floatRange` is at most `2^1023`,
greedy extraction returns well-formed decisions and a cost that is theirs up to `floatCostError`; these
decisions are optimal up to the gap between the returned cost and any of the reported bounds, and up to
the errors. -/
theorem C72_float64 {prm : Params} {B : BuiltSystem EditState (Option EditInfo)}
    (hsum : SoundSum total)
    (hB : Rounded.buildEditSystem float64Arith total invalid prm proto targets factors = .ok B)
    (ht : ∀ t ∈ targets, DecisionFree t) (hf : FloatFactors targets factors)
    {n : Nat} {c : ℚ} (hc : 0 ≤ c) (hcl : c ≤ 2 ^ 1023)
    (hb : ∀ p ∈ B.utilities, PartBounded IsFloat64 p n c)
    (hb' : PartBounded IsFloat64 B.constraint n c)
    {tol : ℚ} {late : Nat → Bool} {fuel : Nat} {st : SweepState}
    (hs : Rounded.solve float64Arith B.system.data tol late fuel = .ok st)
    {T : Nat} (hT : st.variableAtStep.length ≤ T) (hl : floatRange B n c T ≤ 2 ^ 1023)
    (hk : seqKeys 0 proto ≠ []) (dir : Direction) :
    ∃ (vec : List Nat) (α : DecisionKey → DecisionValue) (C x : ℚ),
      Rounded.greedy float64Arith st.system dir = some (vec, some (C : Cost))
      ∧ assignmentPairs B.system.keys B.system.values vec
        = some ((seqKeys 0 proto).map fun k => (k, α k))
      ∧ WellFormedRegions α proto
      ∧ WeightedTotal (LeastEditCost prm proto α)
          (targets.zip (machineWeights float64Arith targets.length factors)) x
      ∧ |C - x| ≤ floatCostError B n c T
      ∧ ∀ b : ℚ, (b : Cost) ∈ st.objectiveAtStep → ∀ β, WellFormedRegions β proto → ∀ y,
          WeightedTotal (LeastEditCost prm proto β)
            (targets.zip (machineWeights float64Arith targets.length factors)) y →
          b ≤ y + floatBoundError B n c T
          ∧ x ≤ y + (C - b) + floatCostError B n c T + floatBoundError B n c T := by
  have hu : (0 : ℚ) ≤ 1 / 2 ^ 53 := by norm_num
  have hτ : (0 : ℚ) ≤ 2 ^ (-1075 : ℤ) := zpow_nonneg (by norm_num) _
  have hmf := C72_factors hsum hf
  obtain ⟨B0, h⟩ := edit_rbuilt hB ht hmf
  obtain ⟨he, hvs⟩ := C68_solve hs
  obtain ⟨r1, r2⟩ := rbuilt_range C68_float64 hu hτ (floatShares_nonneg B) h hc hcl hb hb' hvs
    (fun v hv => float_shares hsum hf h (hvs v hv)) hT hl
  obtain ⟨vec, α, C, x, g1, g2, g3, g4, g5, g6⟩ := C72_solve C68_float64 hu hτ (floatShares_nonneg B) hB ht
    hmf hs (floatSize_nonneg B hc T) (floatSize_nonneg B hc T) r1 (r2 _ _ he) hk dir
  refine ⟨vec, α, C, x, g1, g2, g3, g4, g5, fun b hbm β hβ y hy => ⟨?_, g6 b hbm β hβ y hy⟩⟩
  exact WithTop.coe_le_coe.1 (C72_bound C68_float64 hu hτ hB ht hmf r1 he hβ hy b hbm)

/-- C72: the same for selections. -/
theorem C72_selection_float64 {f : SelUtility M} {B : BuiltSystem SelState (Option SelInfo)}
    (hsum : SoundSum total)
    (hex : ¬ Occurs proto .exit) (hst : ∀ i, (items 0 proto).head? ≠ some (.stop i))
    (hB : Rounded.buildSelectionSystem float64Arith total invalid f proto targets factors = .ok B)
    (hf : FloatFactors targets factors)
    {n : Nat} {c : ℚ} (hc : 0 ≤ c) (hcl : c ≤ 2 ^ 1023)
    (hb : ∀ p ∈ B.utilities, PartBounded IsFloat64 p n c)
    (hb' : PartBounded IsFloat64 B.constraint n c)
    {tol : ℚ} {late : Nat → Bool} {fuel : Nat} {st : SweepState}
    (hs : Rounded.solve float64Arith B.system.data tol late fuel = .ok st)
    {T : Nat} (hT : st.variableAtStep.length ≤ T) (hl : floatRange B n c T ≤ 2 ^ 1023)
    (hk : seqKeys 0 proto ≠ []) (dir : Direction) :
    ∃ (vec : List Nat) (α : DecisionKey → DecisionValue) (C x : ℚ),
      Rounded.greedy float64Arith st.system dir = some (vec, some (C : Cost))
      ∧ assignmentPairs B.system.keys B.system.values vec
        = some ((seqKeys 0 proto).map fun k => (k, α k))
      ∧ WellFormedRegions α proto
      ∧ WeightedTotal (LeastLookupCost f proto α)
          (targets.zip (machineWeights float64Arith targets.length factors)) x
      ∧ |C - x| ≤ floatCostError B n c T
      ∧ ∀ b : ℚ, (b : Cost) ∈ st.objectiveAtStep → ∀ β, WellFormedRegions β proto → ∀ y,
          WeightedTotal (LeastLookupCost f proto β)
            (targets.zip (machineWeights float64Arith targets.length factors)) y →
          b ≤ y + floatBoundError B n c T
          ∧ x ≤ y + (C - b) + floatCostError B n c T + floatBoundError B n c T := by
  have hu : (0 : ℚ) ≤ 1 / 2 ^ 53 := by norm_num
  have hτ : (0 : ℚ) ≤ 2 ^ (-1075 : ℤ) := zpow_nonneg (by norm_num) _
  have hmf := C72_factors hsum hf
  obtain ⟨B0, h⟩ := Rnd.rbuilt_of hmf.positive hmf.total
    (fun t _ d hd => selection_good f proto t hex d hd) hB
  obtain ⟨he, hvs⟩ := C68_solve hs
  obtain ⟨r1, r2⟩ := rbuilt_range C68_float64 hu hτ (floatShares_nonneg B) h hc hcl hb hb' hvs
    (fun v hv => float_shares hsum hf h (hvs v hv)) hT hl
  obtain ⟨vec, α, C, x, g1, g2, g3, g4, g5, g6⟩ := C72_selection_solve C68_float64 hu hτ
    (floatShares_nonneg B) hex hst hB hmf hs (floatSize_nonneg B hc T) (floatSize_nonneg B hc T) r1
    (r2 _ _ he) hk dir
  refine ⟨vec, α, C, x, g1, g2, g3, g4, g5, fun b hbm β hβ y hy => ?_⟩
  obtain ⟨k1, k2⟩ := g6 _ hbm β hβ y hy
  exact ⟨WithTop.coe_le_coe.1 k1, k2 b rfl⟩

theorem rbuilt_sizes {T E S I M : Type} [DecidableEq S] {invalid : Cost} {A : Arith}
    {make : T → Except E (Dag S DecisionKey DecisionValue I)} {proto : List (Node M)}
    {l : List (T × ℚ)} {w : ℚ} {B B0 : BuiltSystem S I}
    (h : Rnd.RBuilt A invalid make proto l w B B0) :
    dagCount B = l.length + 1 ∧ B.system.data.numKeys = (seqKeys 0 proto).length := by
  constructor
  · have := h.exact.parts.length_eq
    rw [h.utilities] at this
    rw [dagCount, this]
  · obtain ⟨-, -, -, d4, -⟩ := makeSystem_ok h.system
    rw [d4, h.keys, h.exact.keys.1]

theorem float_runs {E S I M : Type} [DecidableEq S] {invalid : Cost} {total : List ℚ → ℚ}
    {make : List (Node M) → Except E (Dag S DecisionKey DecisionValue I)} {proto : List (Node M)}
    {targets : List (List (Node M))} {factors : Option (List ℚ)} {B B0 : BuiltSystem S I} (hsum : SoundSum total)
    (hf : FloatFactors targets factors)
    (h : Rnd.RBuilt float64Arith invalid make proto
      (targets.zip (machineWeights float64Arith targets.length factors))
      (total (machineWeights float64Arith targets.length factors)) B B0)
    {n : Nat} {c : ℚ} (hc : 0 ≤ c) (hcl : c ≤ 2 ^ 1023)
    (hb : ∀ p ∈ B.utilities, PartBounded IsFloat64 p n c)
    (hb' : PartBounded IsFloat64 B.constraint n c)
    {t : Nat} (hl : floatRange B n c t ≤ 2 ^ 1023) (hk : seqKeys 0 proto ≠ []) :
    RunsWell float64Arith IsFloat64 (floatRange B n c t) t B.system.data :=
  fun _ hvs hT => rbuilt_values C68_float64 (by norm_num) (zpow_nonneg (by norm_num) _)
    (floatShares_nonneg B) h hc hcl hb hb' hvs (fun v hv => float_shares hsum hf h (hvs v hv)) hT hl hk

/-- C72: in range, no averaging step fails, whatever variables are averaged in whatever order, and
every bound reported is a `float64` number: neither infinite nor NaN. The solver does not fail either. -/
theorem C72_no_failure {M : Type} [DecidableEq M] {total : List ℚ → ℚ} {invalid : Cost}
    {proto : List (Node M)} {targets : List (List (Node M))} {factors : Option (List ℚ)}
    {prm : Params} {B : BuiltSystem EditState (Option EditInfo)}
    (hsum : SoundSum total)
    (hB : Rounded.buildEditSystem float64Arith total invalid prm proto targets factors = .ok B)
    (ht : ∀ t ∈ targets, DecisionFree t) (hf : FloatFactors targets factors)
    {n : Nat} {c : ℚ} (hc : 0 ≤ c) (hcl : c ≤ 2 ^ 1023)
    (hb : ∀ p ∈ B.utilities, PartBounded IsFloat64 p n c)
    (hb' : PartBounded IsFloat64 B.constraint n c)
    {T : Nat} (hl : floatRange B n c T ≤ 2 ^ 1023) (hk : seqKeys 0 proto ≠ []) :
    (∀ vs : List Nat, (∀ v ∈ vs, v < (seqKeys 0 proto).length) → vs.length ≤ T →
      ∃ D bs, averages float64Arith vs B.system.data = some (D, bs)
        ∧ ∀ b ∈ bs, ∃ q : ℚ, b = q ∧ IsFloat64 q ∧ |q| ≤ floatRange B n c T)
    ∧ ∀ tol late fuel, 2 * fuel * ((seqKeys 0 proto).length - 1) ≤ T →
      Rounded.solve float64Arith B.system.data tol late fuel ≠ .error .assertion := by
  obtain ⟨B0, h⟩ := edit_rbuilt hB ht (C72_factors hsum hf)
  have hr := float_runs hsum hf h hc hcl hb hb' hl hk
  have hK := (rbuilt_sizes h).2
  constructor
  · intro vs hvs hT
    exact hr vs (by rw [hK]; exact hvs) hT
  · intro tol late fuel hfu
    refine solveLoop_total hr fuel _ ⟨rfl, by simp, rfl⟩ ?_
    rw [hK]
    simpa using hfu

/-! ### Explicit bounds -/

theorem pow_sub_one {j : ℕ} (h : j ≤ 2 ^ 52) : ((1 : ℚ) + 1 / 2 ^ 53) ^ j - 1 ≤ j / 2 ^ 52 := by
  have h2 := pow_le_two h
  have hmin : (1 : ℚ) - j * (1 / 2 ^ 53) ≤ (1 - 1 / 2 ^ 53) ^ j := by
    have := one_add_mul_le_pow (show (-2 : ℚ) ≤ -(1 / 2 ^ 53) by norm_num) j
    rw [← sub_eq_add_neg] at this
    linarith
  have hx0 : (0 : ℚ) ≤ (1 + 1 / 2 ^ 53) ^ j := pow_nonneg (by norm_num) _
  have a1 : (1 - 1 / 2 ^ 53 : ℚ) ^ j * (1 + 1 / 2 ^ 53) ^ j ≤ 1 := by
    rw [← mul_pow]
    exact pow_le_one₀ (by norm_num) (by norm_num)
  have hj : (0 : ℚ) ≤ j := Nat.cast_nonneg _
  generalize ((1 : ℚ) + 1 / 2 ^ 53) ^ j = x at *
  generalize ((1 : ℚ) - 1 / 2 ^ 53) ^ j = y at *
  have a2 : (1 - (j : ℚ) * (1 / 2 ^ 53)) * x ≤ y * x := mul_le_mul_of_nonneg_right hmin hx0
  have a3 : (j : ℚ) * (1 / 2 ^ 53) * x ≤ (j : ℚ) * (1 / 2 ^ 53) * 2 :=
    mul_le_mul_of_nonneg_left h2 (mul_nonneg hj (by norm_num))
  have a4 : (j : ℚ) * (1 / 2 ^ 53) * 2 = j / 2 ^ 52 := by ring
  rw [a4] at a3
  linarith

theorem tiny_nonneg : (0 : ℚ) ≤ 2 ^ (-1075 : ℤ) := zpow_nonneg (by norm_num) _

theorem tiny_le : (2 : ℚ) ^ (-1075 : ℤ) ≤ 1 := zpow_le_one_of_nonpos₀ (by norm_num) (by norm_num)

section
variable {S I : Type} {B : BuiltSystem S I} {n : Nat} {c : ℚ}

theorem floatShares_le (h : dagCount B + 2 * n + 4 ≤ 2 ^ 52) : floatShares B ≤ 1 := by
  have : ((dagCount B + 2 : ℕ) : ℚ) ≤ ((2 ^ 52 : ℕ) : ℚ) := Nat.cast_le.2 (by omega)
  push_cast at this
  unfold floatShares
  rw [div_le_one (by norm_num)]
  exact this

theorem range_le (h : dagCount B + 2 * n + 4 ≤ 2 ^ 52) {M : ℚ} (hM : 0 ≤ M) :
    rangeNeeded (1 / 2 ^ 53) (floatShares B) (2 ^ (-1075 : ℤ)) (dagCount B) n M 0
      ≤ 8 * dagCount B * M + 1 := by
  unfold rangeNeeded
  have h1 := floatShares_le h
  have h0 := floatShares_nonneg B
  have h2 : ((1 : ℚ) + 1 / 2 ^ 53) ^ (2 * n + dagCount B + 4) ≤ 2 := pow_le_two (by omega)
  have h2' : (0 : ℚ) ≤ (1 + 1 / 2 ^ 53) ^ (2 * n + dagCount B + 4) := pow_nonneg (by norm_num) _
  have h3 : (0 : ℚ) ≤ dagCount B * M := mul_nonneg (Nat.cast_nonneg _) hM
  have h4 := tiny_le
  generalize ((1 : ℚ) + 1 / 2 ^ 53) ^ (2 * n + dagCount B + 4) = x at *
  generalize (2 : ℚ) ^ (-1075 : ℤ) = y at *
  have h5 : 2 * (1 + floatShares B) * x ≤ 2 * (1 + 1) * 2 :=
    mul_le_mul (by linarith) h2 h2' (by norm_num)
  have h6 := mul_le_mul_of_nonneg_right h5 h3
  rw [add_zero]
  linarith

/-- C72: the numbers added up along a path are bounded explicitly. -/
theorem C72_size (h : dagCount B + 2 * n + 4 ≤ 2 ^ 52) (hc : 0 ≤ c) (T : Nat) :
    floatSize B n c T ≤ sizeBound (dagCount B) n c T := by
  have hn : (0 : ℚ) ≤ n := Nat.cast_nonneg _
  have hN : (0 : ℚ) ≤ dagCount B := Nat.cast_nonneg _
  have hnc : (0 : ℚ) ≤ n * c := mul_nonneg hn hc
  have hD : (0 : ℚ) ≤ 2 * n * c + 3 * n := by nlinarith
  have hK : (1 : ℚ) ≤ 16 * dagCount B * n + 1 := by nlinarith [mul_nonneg hN hn]
  have hC : ((1 : ℚ) + 1 / 2 ^ 53) * (n * c) + n * 2 ^ (-1075 : ℤ) ≤ 2 * n * c + n := by
    have a := mul_le_mul_of_nonneg_left tiny_le hn
    have b := mul_le_mul_of_nonneg_right (show (1 : ℚ) + 1 / 2 ^ 53 ≤ 2 by norm_num) hnc
    linarith
  induction T with
  | zero =>
    unfold sizeBound
    rw [pow_zero, one_mul]
    change ((1 : ℚ) + 1 / 2 ^ 53) * (n * c) + n * 2 ^ (-1075 : ℤ) ≤ _
    linarith
  | succ T ih =>
    have hS := floatSize_nonneg B (n := n) hc T
    have hr := range_le h hS
    have hp : (1 : ℚ) ≤ (16 * dagCount B * n + 1) ^ T := one_le_pow₀ hK
    have e : floatSize B n c (T + 1) = ((1 : ℚ) + 1 / 2 ^ 53) * (n * c) + n * 2 ^ (-1075 : ℤ)
        + n * ((1 + 1 / 2 ^ 53) * rangeNeeded (1 / 2 ^ 53) (floatShares B) (2 ^ (-1075 : ℤ))
          (dagCount B) n (floatSize B n c T) 0) := rfl
    rw [e]
    have hr0 : (0 : ℚ) ≤ rangeNeeded (1 / 2 ^ 53) (floatShares B) (2 ^ (-1075 : ℤ)) (dagCount B) n
        (floatSize B n c T) 0 :=
      Rnd.rangeNeeded_nonneg (by norm_num) (floatShares_nonneg B) tiny_nonneg hS
    generalize rangeNeeded (1 / 2 ^ 53) (floatShares B) (2 ^ (-1075 : ℤ)) (dagCount B) n
        (floatSize B n c T) 0 = R at *
    have h1 : ((1 : ℚ) + 1 / 2 ^ 53) * R ≤ 2 * R :=
      mul_le_mul_of_nonneg_right (by norm_num) hr0
    have h2 : (n : ℚ) * ((1 + 1 / 2 ^ 53) * R) ≤ n * (2 * (8 * dagCount B * floatSize B n c T + 1)) :=
      mul_le_mul_of_nonneg_left (by linarith) hn
    have h3 : 16 * dagCount B * n * floatSize B n c T
        ≤ 16 * dagCount B * n * sizeBound (dagCount B) n c T :=
      mul_le_mul_of_nonneg_left ih (by linarith)
    have h4 : 2 * n * c + 3 * n ≤ sizeBound (dagCount B) n c T := by
      unfold sizeBound
      have := mul_le_mul_of_nonneg_right hp hD
      linarith
    have h5 : sizeBound (dagCount B) n c (T + 1)
        = 16 * dagCount B * n * sizeBound (dagCount B) n c T + sizeBound (dagCount B) n c T := by
      unfold sizeBound
      ring
    rw [h5]
    linarith

/-- C72: intermediate results are bounded explicitly. -/
theorem C72_range (h : dagCount B + 2 * n + 4 ≤ 2 ^ 52) (hc : 0 ≤ c) (T : Nat) :
    floatRange B n c T ≤ 8 * dagCount B * sizeBound (dagCount B) n c T + 1 := by
  have h1 := range_le h (floatSize_nonneg B (n := n) hc T)
  have h2 := mul_le_mul_of_nonneg_left (C72_size h hc T)
    (show (0 : ℚ) ≤ 8 * dagCount B from mul_nonneg (by norm_num) (Nat.cast_nonneg _))
  unfold floatRange
  linarith

theorem imbalance_le (h : dagCount B + 2 * n + 4 ≤ 2 ^ 52) {M : ℚ} (hM : 0 ≤ M) :
    imbalance (1 / 2 ^ 53) (floatShares B) (2 ^ (-1075 : ℤ)) (dagCount B) n M 0
      ≤ dagCount B * M * (6 * dagCount B + 20) / 2 ^ 52 + dagCount B * (2 * 2 ^ (-1075 : ℤ)) := by
  have hN : (0 : ℚ) ≤ dagCount B := Nat.cast_nonneg _
  have h1 := floatShares_le h
  have h0 := floatShares_nonneg B
  have p1 : ((1 : ℚ) + 1 / 2 ^ 53) ^ (2 * n + 1) ≤ 2 := pow_le_two (by omega)
  have p1' : (0 : ℚ) ≤ (1 + 1 / 2 ^ 53) ^ (2 * n + 1) := pow_nonneg (by norm_num) _
  have p2 : ((1 : ℚ) + 1 / 2 ^ 53) ^ (dagCount B + 4) - 1 ≤ ((dagCount B + 4 : ℕ) : ℚ) / 2 ^ 52 :=
    pow_sub_one (by omega)
  have p3 : (1 : ℚ) ≤ (1 + 1 / 2 ^ 53) ^ (dagCount B + 4) := one_le_pow₀ (by norm_num)
  have hsh : floatShares B = (dagCount B + 2) / 2 ^ 52 := rfl
  unfold imbalance
  have hNM : (0 : ℚ) ≤ dagCount B * M := mul_nonneg hN hM
  push_cast at p2
  rw [add_zero]
  have hτ := tiny_nonneg
  generalize ((1 : ℚ) + 1 / 2 ^ 53) ^ (2 * n + 1) = x at *
  generalize ((1 : ℚ) + 1 / 2 ^ 53) ^ (dagCount B + 4) = y at *
  generalize (2 : ℚ) ^ (-1075 : ℤ) = τ at *
  generalize hη : floatShares B = η at *
  generalize (dagCount B : ℚ) = N at *
  have a1 : (1 + η) * y - 1 ≤ (3 * N + 10) / 2 ^ 52 := by
    have : (1 + η) * y - 1 = η + (1 + η) * (y - 1) := by ring
    rw [this]
    have b1 : (1 + η) * (y - 1) ≤ 2 * ((N + 4) / 2 ^ 52) :=
      mul_le_mul (by linarith) p2 (by linarith) (by norm_num)
    calc η + (1 + η) * (y - 1) ≤ (N + 2) / 2 ^ 52 + 2 * ((N + 4) / 2 ^ 52) := by rw [hsh] at *; linarith
      _ = (3 * N + 10) / 2 ^ 52 := by ring
  have a0 : 0 ≤ (1 + η) * y - 1 := by nlinarith
  have a2 : x * (N * M) ≤ 2 * (N * M) := mul_le_mul_of_nonneg_right p1 hNM
  have a3 : ((1 + η) * y - 1) * (x * (N * M)) ≤ (3 * N + 10) / 2 ^ 52 * (2 * (N * M)) :=
    mul_le_mul a1 a2 (mul_nonneg p1' hNM) (by positivity)
  have a4 : (3 * N + 10) / 2 ^ 52 * (2 * (N * M)) = N * M * (6 * N + 20) / 2 ^ 52 := by ring
  have a5 : N * (τ * (1 + 1 / 2 ^ 53)) ≤ N * (2 * τ) := by
    refine mul_le_mul_of_nonneg_left ?_ hN
    rw [mul_comm]
    exact mul_le_mul_of_nonneg_right (by norm_num) hτ
  linarith

theorem error_le (h : dagCount B + 2 * n + 4 ≤ 2 ^ 52) (hc : 0 ≤ c) (T : Nat) {k' : ℚ} {j k : Nat}
    (hk : k' ≤ k) (hj : j ≤ 2 * n + dagCount B + 3) :
    k' * imbalance (1 / 2 ^ 53) (floatShares B) (2 ^ (-1075 : ℤ)) (dagCount B) n (floatSize B n c T) 0
      + ((1 + 1 / 2 ^ 53) ^ j - 1) * (dagCount B * floatSize B n c T)
      + scaleError (1 / 2 ^ 53) (2 ^ (-1075 : ℤ)) (dagCount B) n (n * c)
      ≤ errorBound (dagCount B) k n c T := by
  have hS0 := floatSize_nonneg B (n := n) hc T
  have hS := C72_size h hc T
  have hi := imbalance_le h hS0
  have hi0 : 0 ≤ imbalance (1 / 2 ^ 53) (floatShares B) (2 ^ (-1075 : ℤ)) (dagCount B) n
      (floatSize B n c T) 0 :=
    Rnd.imbalance_nonneg (by norm_num) (floatShares_nonneg B) tiny_nonneg
      (mul_nonneg (Nat.cast_nonneg _) hS0) (le_refl _)
  have hp : ((1 : ℚ) + 1 / 2 ^ 53) ^ j - 1 ≤ (j : ℚ) / 2 ^ 52 := pow_sub_one (by omega)
  have hnc : (n : ℚ) * c ≤ sizeBound (dagCount B) n c T := by
    refine le_trans ?_ hS
    have hb : (0 : ℚ) ≤ (1 + 1 / 2 ^ 53) * (n * c) + n * 2 ^ (-1075 : ℤ) := by
      have := tiny_nonneg
      positivity
    have := Rnd.pathSize_base (u := 1 / 2 ^ 53) (η := floatShares B) (N := dagCount B) (n := n)
      (by norm_num) (floatShares_nonneg B) tiny_nonneg hb T
    refine le_trans ?_ this
    have a := mul_nonneg (Nat.cast_nonneg (α := ℚ) n) tiny_nonneg
    have b : (0 : ℚ) ≤ n * c := mul_nonneg (Nat.cast_nonneg _) hc
    linarith
  have hjq : (j : ℚ) ≤ 2 * n + dagCount B + 3 := by exact_mod_cast hj
  unfold scaleError errorBound
  have hτ := tiny_nonneg
  have hN : (0 : ℚ) ≤ dagCount B := Nat.cast_nonneg _
  have hk0 : (0 : ℚ) ≤ k := Nat.cast_nonneg _
  have hn0 : (0 : ℚ) ≤ n := Nat.cast_nonneg _
  generalize imbalance (1 / 2 ^ 53) (floatShares B) (2 ^ (-1075 : ℤ)) (dagCount B) n
      (floatSize B n c T) 0 = Y at *
  generalize ((1 : ℚ) + 1 / 2 ^ 53) ^ j - 1 = P at *
  generalize floatSize B n c T = s at *
  generalize sizeBound (dagCount B) n c T = Z at *
  generalize (2 : ℚ) ^ (-1075 : ℤ) = τ at *
  generalize (dagCount B : ℚ) = N at *
  generalize (k : ℚ) = K at *
  generalize (n : ℚ) = m at *
  have hNs : 0 ≤ N * s := mul_nonneg hN hS0
  have hNZ : N * s ≤ N * Z := mul_le_mul_of_nonneg_left hS hN
  have b1 : k' * Y ≤ K * (N * Z * (6 * N + 20) / 2 ^ 52 + N * (2 * τ)) := by
    refine (mul_le_mul_of_nonneg_right hk hi0).trans (mul_le_mul_of_nonneg_left (hi.trans ?_) hk0)
    have : N * s * (6 * N + 20) / 2 ^ 52 ≤ N * Z * (6 * N + 20) / 2 ^ 52 :=
      div_le_div_of_nonneg_right (mul_le_mul_of_nonneg_right hNZ (by linarith)) (by norm_num)
    linarith
  have b2 : P * (N * s) ≤ (2 * m + N + 3) / 2 ^ 52 * (N * Z) := by
    have hP : P ≤ (2 * m + N + 3) / 2 ^ 52 :=
      hp.trans (div_le_div_of_nonneg_right hjq (by norm_num))
    refine (mul_le_mul_of_nonneg_right hP hNs).trans (mul_le_mul_of_nonneg_left hNZ ?_)
    positivity
  have b3 : N * (1 / 2 ^ 53 * (m * c) + m * τ) ≤ N * (1 / 2 ^ 52 * Z + m * τ) := by
    refine mul_le_mul_of_nonneg_left ?_ hN
    have hZ0 : 0 ≤ Z := hS0.trans hS
    have : 1 / 2 ^ 53 * (m * c) ≤ 1 / 2 ^ 53 * Z := mul_le_mul_of_nonneg_left hnc (by norm_num)
    have h2 : 1 / 2 ^ 53 * Z ≤ 1 / 2 ^ 52 * Z := mul_le_mul_of_nonneg_right (by norm_num) hZ0
    linarith
  refine (add_le_add (add_le_add b1 b2) b3).trans (le_of_eq ?_)
  ring

/-- C72: the errors are bounded explicitly. -/
theorem C72_errors (h : dagCount B + 2 * n + 4 ≤ 2 ^ 52) (hc : 0 ≤ c) (T : Nat) :
    floatCostError B n c T ≤ errorBound (dagCount B) B.system.data.numKeys n c T
    ∧ floatBoundError B n c T ≤ errorBound (dagCount B) B.system.data.numKeys n c T := by
  constructor
  · have := error_le h hc T (k' := B.system.data.numKeys) (k := B.system.data.numKeys)
      (j := 2 * n + 1 + dagCount B) (le_refl _) (by omega)
    unfold floatCostError suggestionError extractError
    exact this
  · have := error_le h hc T (k' := (B.system.data.numKeys : ℚ) - 1) (k := B.system.data.numKeys)
      (j := 2 * n + dagCount B + 3) (by linarith) (by omega)
    unfold floatBoundError boundError sumError
    rw [add_zero]
    exact this

end

/-- C72: if `float64` is used all the way, all that is needed is known before the system is built. -/
theorem C72_inputs {M : Type} [DecidableEq M] {total : List ℚ → ℚ} {invalid : Cost} {prm : Params}
    {proto : List (Node M)} {targets : List (List (Node M))} {factors : Option (List ℚ)}
    {B : BuiltSystem EditState (Option EditInfo)} (hsum : SoundSum total)
    (hB : Rounded.buildEditSystem float64Arith total invalid prm proto targets factors = .ok B)
    (ht : ∀ t ∈ targets, DecisionFree t) (hf : FloatFactors targets factors)
    {n : Nat} {c0 c : ℚ} (hc : 0 ≤ c) (hcl : c ≤ 2 ^ 1023)
    (hcost : ∀ t ∈ targets, StepCosts (fun x => IsFloat64 x ∧ |x| ≤ c0) prm proto t)
    (hw : ∀ f ∈ machineWeights float64Arith targets.length factors, c0 * f ≤ c)
    (hn : ∀ t ∈ targets, editStates (seqSize proto) (seqKeys 0 proto).length (seqSize t) ≤ n + 1)
    (hn' : constraintStates (seqSize proto) (seqKeys 0 proto).length ≤ n + 1)
    {N : Nat} (hN : N = (targets.zip (machineWeights float64Arith targets.length factors)).length + 1)
    (hNn : N + 2 * n + 4 ≤ 2 ^ 52)
    {tol : ℚ} {late : Nat → Bool} {fuel : Nat} {st : SweepState}
    (hs : Rounded.solve float64Arith B.system.data tol late fuel = .ok st)
    {T : Nat} (hT : st.variableAtStep.length ≤ T)
    (hl : 8 * N * sizeBound N n c T + 1 ≤ 2 ^ 1023)
    (hk : seqKeys 0 proto ≠ []) (dir : Direction) :
    ∃ (vec : List Nat) (α : DecisionKey → DecisionValue) (C x : ℚ),
      Rounded.greedy float64Arith st.system dir = some (vec, some (C : Cost))
      ∧ assignmentPairs B.system.keys B.system.values vec
        = some ((seqKeys 0 proto).map fun k => (k, α k))
      ∧ WellFormedRegions α proto
      ∧ WeightedTotal (LeastEditCost prm proto α)
          (targets.zip (machineWeights float64Arith targets.length factors)) x
      ∧ |C - x| ≤ errorBound N (seqKeys 0 proto).length n c T
      ∧ ∀ b : ℚ, (b : Cost) ∈ st.objectiveAtStep → ∀ β, WellFormedRegions β proto → ∀ y,
          WeightedTotal (LeastEditCost prm proto β)
            (targets.zip (machineWeights float64Arith targets.length factors)) y →
          b ≤ y + errorBound N (seqKeys 0 proto).length n c T
          ∧ x ≤ y + (C - b) + 2 * errorBound N (seqKeys 0 proto).length n c T := by
  have hmf := C72_factors hsum hf
  obtain ⟨B0, h⟩ := edit_rbuilt hB ht hmf
  obtain ⟨z1, z2⟩ := rbuilt_sizes h
  rw [← hN] at z1
  obtain ⟨p1, p2⟩ := C72_parts hB ht hmf (F := IsFloat64)
    ⟨0, 0, by norm_num, by norm_num, by norm_num⟩ hc hcost hw hn hn'
  subst z1
  have hr := (C72_range (B := B) hNn hc T).trans hl
  obtain ⟨e1, e2⟩ := C72_errors (B := B) hNn hc T
  rw [z2] at e1 e2
  obtain ⟨vec, α, C, x, g1, g2, g3, g4, g5, g6⟩ :=
    C72_float64 hsum hB ht hf hc hcl p1 p2 hs hT hr hk dir
  refine ⟨vec, α, C, x, g1, g2, g3, g4, g5.trans e1, fun b hb β hβ y hy => ?_⟩
  obtain ⟨q1, q2⟩ := g6 b hb β hβ y hy
  constructor <;> linarith

/-- C72: the same for selections. -/
theorem C72_selection_inputs {M : Type} [DecidableEq M] {total : List ℚ → ℚ} {invalid : Cost}
    {f : SelUtility M} {proto : List (Node M)} {targets : List (List (Node M))}
    {factors : Option (List ℚ)} {B : BuiltSystem SelState (Option SelInfo)} (hsum : SoundSum total)
    (hex : ¬ Occurs proto .exit) (hst : ∀ i, (items 0 proto).head? ≠ some (.stop i))
    (hB : Rounded.buildSelectionSystem float64Arith total invalid f proto targets factors = .ok B)
    (hf : FloatFactors targets factors)
    {n : Nat} {c0 c : ℚ} (hc : 0 ≤ c) (hcl : c ≤ 2 ^ 1023)
    (hcost : LookupCosts (fun x => IsFloat64 x ∧ |x| ≤ c0) f proto)
    (hw : ∀ f ∈ machineWeights float64Arith targets.length factors, c0 * f ≤ c)
    (hn : ∀ t ∈ targets, selectionStates (seqSize proto) (seqKeys 0 proto).length (seqSize t) ≤ n + 1)
    (hn' : constraintStates (seqSize proto) (seqKeys 0 proto).length ≤ n + 1)
    {N : Nat} (hN : N = (targets.zip (machineWeights float64Arith targets.length factors)).length + 1)
    (hNn : N + 2 * n + 4 ≤ 2 ^ 52)
    {tol : ℚ} {late : Nat → Bool} {fuel : Nat} {st : SweepState}
    (hs : Rounded.solve float64Arith B.system.data tol late fuel = .ok st)
    {T : Nat} (hT : st.variableAtStep.length ≤ T)
    (hl : 8 * N * sizeBound N n c T + 1 ≤ 2 ^ 1023)
    (hk : seqKeys 0 proto ≠ []) (dir : Direction) :
    ∃ (vec : List Nat) (α : DecisionKey → DecisionValue) (C x : ℚ),
      Rounded.greedy float64Arith st.system dir = some (vec, some (C : Cost))
      ∧ assignmentPairs B.system.keys B.system.values vec
        = some ((seqKeys 0 proto).map fun k => (k, α k))
      ∧ WellFormedRegions α proto
      ∧ WeightedTotal (LeastLookupCost f proto α)
          (targets.zip (machineWeights float64Arith targets.length factors)) x
      ∧ |C - x| ≤ errorBound N (seqKeys 0 proto).length n c T
      ∧ ∀ b : ℚ, (b : Cost) ∈ st.objectiveAtStep → ∀ β, WellFormedRegions β proto → ∀ y,
          WeightedTotal (LeastLookupCost f proto β)
            (targets.zip (machineWeights float64Arith targets.length factors)) y →
          b ≤ y + errorBound N (seqKeys 0 proto).length n c T
          ∧ x ≤ y + (C - b) + 2 * errorBound N (seqKeys 0 proto).length n c T := by
  have hmf := C72_factors hsum hf
  obtain ⟨B0, h⟩ := selection_rbuilt hB hex hmf
  obtain ⟨z1, z2⟩ := rbuilt_sizes h
  rw [← hN] at z1
  obtain ⟨p1, p2⟩ := C72_selection_parts hB hex hmf (F := IsFloat64)
    ⟨0, 0, by norm_num, by norm_num, by norm_num⟩ hc hcost hw hn hn'
  subst z1
  have hr := (C72_range (B := B) hNn hc T).trans hl
  obtain ⟨e1, e2⟩ := C72_errors (B := B) hNn hc T
  rw [z2] at e1 e2
  obtain ⟨vec, α, C, x, g1, g2, g3, g4, g5, g6⟩ :=
    C72_selection_float64 hsum hex hst hB hf hc hcl p1 p2 hs hT hr hk dir
  refine ⟨vec, α, C, x, g1, g2, g3, g4, g5.trans e1, fun b hb β hβ y hy => ?_⟩
  obtain ⟨q1, q2⟩ := g6 b hb β hβ y hy
  constructor <;> linarith

end

/-! ## Examples -/

section Examples

theorem float_small (m : ℤ) (h : |m| ≤ 2 ^ 53 := by norm_num) : IsFloat64 (m / 2) :=
  ⟨m, -1, h, by norm_num, by rw [zpow_neg_one]; ring⟩

theorem sysProto_tok {txt : List Char} {mt : String} (h : Occurs sysProto (.tok txt mt)) :
    txt.length = 1 := by
  simp only [sysProto, occurs_cons, not_occurs_nil, or_false, reduceCtorEq, false_or, false_and,
    exists_false, Node.tok.injEq] at h
  rcases h with ⟨rfl, -⟩ | ⟨rfl, -⟩ <;> rfl

theorem sysTargets_tok {t : List (Node String)} (ht : t ∈ sysTargets) {txt : List Char} {mt : String}
    (h : Occurs t (.tok txt mt)) : txt.length = 1 := by
  simp only [sysTargets, List.mem_cons, List.not_mem_nil, or_false] at ht
  rcases ht with rfl | rfl <;>
  · simp only [occurs_cons, not_occurs_nil, or_false, reduceCtorEq, false_or, false_and,
      exists_false, Node.tok.injEq] at h
    rcases h with ⟨rfl, -⟩ | ⟨rfl, -⟩ <;> rfl

theorem sys_steps : ∀ t ∈ sysTargets,
    StepCosts (fun x => IsFloat64 x ∧ |x| ≤ 5) sysParams sysProto t := by
  intro t ht
  have hp : ∀ m : ℤ, |m| ≤ 10 → IsFloat64 ((m : ℚ) / 2) ∧ |(m : ℚ) / 2| ≤ 5 := by
    intro m hm
    refine ⟨float_small m (hm.trans (by norm_num)), ?_⟩
    have : |(m : ℚ)| ≤ 10 := by exact_mod_cast hm
    rw [abs_div, abs_of_pos (by norm_num : (0 : ℚ) < 2)]
    linarith
  have h0 := hp 0 (by norm_num)
  have h2 := hp 2 (by norm_num)
  have h10 := hp 10 (by norm_num)
  have h4 := hp 4 (by norm_num)
  have h1 := hp 1 (by norm_num)
  have hm1 := hp (-1) (by norm_num)
  have hm2 := hp (-2) (by norm_num)
  norm_num at h0 h2 h10 h4 h1 hm1 hm2
  refine ⟨?_, ?_, ?_, ?_, ?_, ?_, ?_⟩
  · simpa using h0
  · simpa [sysParams] using h2
  · simpa [sysParams] using h10
  · simp only [sysParams]
    norm_num
    exact h4
  · intro txt mt h
    rw [sysProto_tok h]
    simp only [sysParams, Nat.cast_one, mul_one]
    norm_num
    exact ⟨h2, h1⟩
  · intro txt mt h
    rw [sysProto_tok h]
    simp only [sysParams, Nat.cast_one, mul_one]
    norm_num
    exact ⟨hm2, hm1⟩
  · intro txt mt h
    rw [sysTargets_tok ht h]
    simpa [sysParams] using h0

theorem sysTargets_float : FloatFactors sysTargets none :=
  ⟨fun _ => ⟨by simp [sysTargets], by simp [sysTargets]⟩, by simp⟩

theorem sys_weights : ∀ f ∈ machineWeights float64Arith sysTargets.length none, 5 * f ≤ 5 := by
  intro f hf
  have hl : sysTargets.length = 2 := rfl
  rw [hl] at hf
  obtain ⟨-, rfl⟩ := List.mem_replicate.1 (show f ∈ List.replicate 2 _ from hf)
  obtain ⟨-, h⟩ := float_uniform (n := 2) (by norm_num) (by norm_num)
  have := (abs_le.1 h).2
  norm_num at this
  norm_num
  linarith

theorem sysTargets_size : ∀ t ∈ sysTargets, seqSize t = 2 := by
  intro t ht
  simp only [sysTargets, List.mem_cons, List.not_mem_nil, or_false] at ht
  rcases ht with rfl | rfl <;> simp [seqSize, nodeSize]

theorem sysProto_size : seqSize sysProto = 4 := by simp [sysProto, seqSize, nodeSize]

theorem sys_bound : 2 * (8 * (3 : ℕ) * sizeBound 3 4959 5 12 + 1) ≤ (2 : ℚ) ^ 1023 := by
  refine le_trans ?_ (pow_le_pow_right₀ (by norm_num : (1 : ℚ) ≤ 2) (by norm_num : 250 ≤ 1023))
  unfold sizeBound
  norm_num

/-- C72 on an example: all hypotheses of `C72_inputs` and `C72_no_failure` are met by runs of the
solver with at most twelve steps, and there is one. -/
example : ∃ B, Rounded.buildEditSystem float64Arith (leftSum float64Arith) 0 sysParams sysProto
      sysTargets none = .ok B
    ∧ (∃ tol st, Rounded.solve float64Arith B.system.data tol (fun _ => false) 2 = .ok st
      ∧ st.variableAtStep.length ≤ 12)
    ∧ ∀ tol late fuel st, Rounded.solve float64Arith B.system.data tol late fuel = .ok st →
      st.variableAtStep.length ≤ 12 →
      ∃ (vec : List Nat) (α : DecisionKey → DecisionValue) (C x : ℚ),
        Rounded.greedy float64Arith st.system .forward = some (vec, some (C : Cost))
        ∧ WellFormedRegions α sysProto
        ∧ WeightedTotal (LeastEditCost sysParams sysProto α)
            (sysTargets.zip (machineWeights float64Arith 2 none)) x
        ∧ |C - x| ≤ errorBound 3 4 4959 5 12 := by
  obtain ⟨B, hB⟩ := C72_builds float64Arith (leftSum float64Arith) 0 sysParams sysProto sysTargets none
    sysTargets_free (by simp [sysTargets])
  have hmf := C72_factors C72_left_sum sysTargets_float
  have hk : seqKeys 0 sysProto ≠ [] := by rw [sysProto_keys]; simp
  have hkl : (seqKeys 0 sysProto).length = 4 := by rw [sysProto_keys]; rfl
  have hn : ∀ t ∈ sysTargets,
      editStates (seqSize sysProto) (seqKeys 0 sysProto).length (seqSize t) ≤ 4959 + 1 := by
    intro t ht
    rw [sysTargets_size t ht, sysProto_size, hkl]
    decide
  have hn' : constraintStates (seqSize sysProto) (seqKeys 0 sysProto).length ≤ 4959 + 1 := by
    rw [sysProto_size, hkl]
    decide
  have hc : (0 : ℚ) ≤ 5 := by norm_num
  have hcl : (5 : ℚ) ≤ 2 ^ 1023 := le_trans (by norm_num : (5 : ℚ) ≤ 2 ^ 3)
    (pow_le_pow_right₀ (by norm_num) (by norm_num))
  have hN : 3 = (sysTargets.zip (machineWeights float64Arith sysTargets.length none)).length + 1 := by
    simp [sysTargets, machineWeights]
  have hb := sys_bound
  refine ⟨B, hB, ?_, ?_⟩
  · obtain ⟨B0, h⟩ := edit_rbuilt hB sysTargets_free hmf
    obtain ⟨z1, z2⟩ := rbuilt_sizes h
    rw [← hN] at z1
    rw [hkl] at z2
    obtain ⟨p1, p2⟩ := C72_parts hB sysTargets_free hmf (F := IsFloat64)
      ⟨0, 0, by norm_num, by norm_num, by norm_num⟩ hc sys_steps sys_weights hn hn'
    have hr := C72_range (B := B) (n := 4959) (c := 5) (by rw [z1]; norm_num) hc 12
    rw [z1] at hr
    have hs0 : 0 ≤ floatRange B 4959 5 12 :=
      Rnd.rangeNeeded_nonneg (by norm_num) (floatShares_nonneg B) tiny_nonneg (floatSize_nonneg B hc 12)
    generalize sizeBound 3 4959 5 12 = Z at *
    generalize hL : (2 : ℚ) ^ 1023 = L at *
    have hruns := float_runs C72_left_sum sysTargets_float h hc (by rw [hL]; exact hcl) p1 p2 (t := 12)
      (by rw [hL]; linarith) hk
    obtain ⟨st, s1, s2⟩ := solve_stops C68_float64 (by norm_num) (by rw [hL]; linarith)
      (le_refl _) hruns (by rw [z2])
    rw [z2] at s2
    exact ⟨_, st, s1, s2⟩
  · intro tol late fuel st hs hT
    obtain ⟨vec, α, C, x, g1, -, g3, g4, g5, -⟩ := C72_inputs C72_left_sum hB sysTargets_free
      sysTargets_float hc hcl sys_steps sys_weights hn hn' hN (by norm_num) hs hT
      (by
        generalize sizeBound 3 4959 5 12 = Z at *
        generalize (2 : ℚ) ^ 1023 = L at *
        linarith) hk .forward
    rw [hkl] at g5
    exact ⟨vec, α, C, x, g1, g3, g4, g5⟩

/-- C72 on an example: selections. -/
example : ∃ B, Rounded.buildSelectionSystem float64Arith (leftSum float64Arith) 0
      (⟨fun _ _ => 1, fun _ _ => 2⟩ : SelUtility String) sysProto sysTargets none = .ok B
    ∧ (∃ tol st, Rounded.solve float64Arith B.system.data tol (fun _ => false) 2 = .ok st
      ∧ st.variableAtStep.length ≤ 12)
    ∧ ∀ tol late fuel st, Rounded.solve float64Arith B.system.data tol late fuel = .ok st →
      st.variableAtStep.length ≤ 12 →
      ∃ (vec : List Nat) (α : DecisionKey → DecisionValue) (C x : ℚ),
        Rounded.greedy float64Arith st.system .forward = some (vec, some (C : Cost))
        ∧ WellFormedRegions α sysProto
        ∧ WeightedTotal (LeastLookupCost ⟨fun _ _ => 1, fun _ _ => 2⟩ sysProto α)
            (sysTargets.zip (machineWeights float64Arith 2 none)) x
        ∧ |C - x| ≤ errorBound 3 4 4959 5 12 := by
  have hex : ¬ Occurs sysProto .exit := by
    simp [sysProto, occurs_cons, not_occurs_nil]
  have hst : ∀ i, (items 0 sysProto).head? ≠ some (.stop i) := by
    intro i; simp [sysProto, items]
  obtain ⟨B, hB⟩ := C72_selection_builds float64Arith (leftSum float64Arith) 0
    (⟨fun _ _ => 1, fun _ _ => 2⟩ : SelUtility String) sysProto sysTargets none hex hst
    (by simp [sysTargets])
  have hmf := C72_factors C72_left_sum sysTargets_float
  have hk : seqKeys 0 sysProto ≠ [] := by rw [sysProto_keys]; simp
  have hkl : (seqKeys 0 sysProto).length = 4 := by rw [sysProto_keys]; rfl
  have hcosts : LookupCosts (fun x => IsFloat64 x ∧ |x| ≤ 5)
      (⟨fun _ _ => 1, fun _ _ => 2⟩ : SelUtility String) sysProto := by
    have h0 := float_small 0
    have h1 := float_small (-2)
    have h2 := float_small 4
    norm_num at h0 h1 h2
    refine ⟨⟨h0, by norm_num⟩, fun _ _ _ => ⟨h1, ?_⟩, fun _ _ _ => ⟨h2, ?_⟩⟩ <;> norm_num
  have hn : ∀ t ∈ sysTargets,
      selectionStates (seqSize sysProto) (seqKeys 0 sysProto).length (seqSize t) ≤ 4959 + 1 := by
    intro t ht
    rw [sysTargets_size t ht, sysProto_size, hkl]
    decide
  have hn' : constraintStates (seqSize sysProto) (seqKeys 0 sysProto).length ≤ 4959 + 1 := by
    rw [sysProto_size, hkl]
    decide
  have hc : (0 : ℚ) ≤ 5 := by norm_num
  have hcl : (5 : ℚ) ≤ 2 ^ 1023 := le_trans (by norm_num : (5 : ℚ) ≤ 2 ^ 3)
    (pow_le_pow_right₀ (by norm_num) (by norm_num))
  have hN : 3 = (sysTargets.zip (machineWeights float64Arith sysTargets.length none)).length + 1 := by
    simp [sysTargets, machineWeights]
  have hb := sys_bound
  refine ⟨B, hB, ?_, ?_⟩
  · obtain ⟨B0, h⟩ := selection_rbuilt hB hex hmf
    obtain ⟨z1, z2⟩ := rbuilt_sizes h
    rw [← hN] at z1
    rw [hkl] at z2
    obtain ⟨p1, p2⟩ := C72_selection_parts hB hex hmf (F := IsFloat64)
      ⟨0, 0, by norm_num, by norm_num, by norm_num⟩ hc hcosts sys_weights hn hn'
    have hr := C72_range (B := B) (n := 4959) (c := 5) (by rw [z1]; norm_num) hc 12
    rw [z1] at hr
    have hs0 : 0 ≤ floatRange B 4959 5 12 :=
      Rnd.rangeNeeded_nonneg (by norm_num) (floatShares_nonneg B) tiny_nonneg (floatSize_nonneg B hc 12)
    generalize sizeBound 3 4959 5 12 = Z at *
    generalize hL : (2 : ℚ) ^ 1023 = L at *
    have hruns := float_runs C72_left_sum sysTargets_float h hc (by rw [hL]; exact hcl) p1 p2 (t := 12)
      (by rw [hL]; linarith) hk
    obtain ⟨st, s1, s2⟩ := solve_stops C68_float64 (by norm_num) (by rw [hL]; linarith)
      (le_refl _) hruns (by rw [z2])
    rw [z2] at s2
    exact ⟨_, st, s1, s2⟩
  · intro tol late fuel st hs hT
    obtain ⟨vec, α, C, x, g1, -, g3, g4, g5, -⟩ := C72_selection_inputs C72_left_sum hex hst hB
      sysTargets_float hc hcl hcosts sys_weights hn hn' hN (by norm_num) hs hT
      (by
        generalize sizeBound 3 4959 5 12 = Z at *
        generalize (2 : ℚ) ^ 1023 = L at *
        linarith) hk .forward
    rw [hkl] at g5
    exact ⟨vec, α, C, x, g1, g3, g4, g5⟩

end Examples

end RUSure.Props
