import Verif.Model.RoundedBaselines
import Verif.Spec.RoundedBaselines
import Verif.Props.RoundedPrepared
import Verif.Props.RoundedSystem
import Verif.Props.UncertaintyBaselines

/-!
# Baselines for uncertainty regions in machine arithmetic (C87)
-/

namespace RUSure.Props
open RUSure RUSure.Spec RUSure.Lemmas RUSure.Rounded

/-! ## The exact machine -/

theorem rconstrain_any {K V : Type} {i j : DecidableEq K} [DecidableEq V] {A : Arith} {p : Cost}
    {cs : List (K × V)} {D D' : DualSystem K V} (h : @Rounded.constrain A K V i _ p cs D = some D') :
    @Rounded.constrain A K V j _ p cs D = some D' := by
  rwa [Subsingleton.elim j i]

/-- C87: with exact arithmetic, this is the model of C64. -/
theorem C87_exact (D : DualSystem DecisionKey DecisionValue) (tol : ℚ) (late : Nat → Bool) (fuel : Nat)
    (low : List Nat) :
    Rounded.lowAssignment exactArith D tol late fuel low = RUSure.lowAssignment D tol late fuel low := by
  unfold Rounded.lowAssignment RUSure.lowAssignment
  rw [(C85_exact _ _ D D.data (fun _ _ => 0)).1]
  cases DualSystem.constrain ((1000000 : ℚ) : Cost)
      (low.foldl (fun d i => dictSet (⟨i, .inRegion⟩ : DecisionKey) DecisionValue.yes d) []) D with
  | none => rfl
  | some D' =>
    dsimp only
    rw [(C68_exact _ 0 tol late fuel).2.2]
    simp only [C69_exact]
    rfl

/-! ## Systems with constraints -/

section
variable {A : Arith} {F : ℚ → Prop} {u τ η limit : ℚ}
  {T E S I M : Type} [DecidableEq S] {invalid : Cost}
  {make : T → Except E (Dag S DecisionKey DecisionValue I)} {proto : List (Node M)}
  {l : List (T × ℚ)} {w : ℚ} {B B0 : BuiltSystem S I}
  {q X : ℚ} {cs : List (DecisionKey × DecisionValue)} {D' : DualSystem DecisionKey DecisionValue}

omit [DecidableEq S] in
theorem means_of (hk : B.system.keys = B0.system.keys) (hv : B.system.values = B0.system.values)
    {a : Nat → Nat} {α : DecisionKey → DecisionValue} (h : VectorMeans B0.system a α) :
    VectorMeans B.system a α := by
  unfold VectorMeans at *
  rw [hk, hv]
  exact h

theorem rbuilt_values_eq (h : Rnd.RBuilt A invalid make proto l w B B0) :
    B.system.values = B0.system.values := by
  obtain ⟨-, a2, -⟩ := makeSystem_ok h.exact.system
  obtain ⟨-, b2, -⟩ := makeSystem_ok h.system
  rw [h.utilities, h.constraint] at a2
  exact (b2 (entry A B.constraint) (by simp)).symm.trans (a2 B.constraint.entry (by simp))

theorem rcons_cost (hS : AccurateShares A F u τ limit) (hF0 : F 0) (hlim : 0 ≤ limit)
    (h : Rnd.RBuilt A invalid make proto l w B B0) (hq : F q ∧ |q| ≤ limit)
    (hk : (cs.map Prod.fst).Nodup) (hks : ∀ c ∈ cs, c.1 ∈ seqKeys 0 proto)
    (hD : Rounded.constrain A (q : Cost) cs B.system = some D') {a : Nat → Nat}
    {α : DecisionKey → DecisionValue} (hα : VectorMeans B.system a α) (paths : List (List PackedEdge)) :
    jointCost D'.data a paths = jointCost B.system.data a paths + (violated q cs α : Cost) := by
  have hkeys : B.system.keys = seqKeys 0 proto := h.keys.trans h.exact.keys.1
  have hvals : B.system.values = allValues := (rbuilt_values_eq h).trans h.exact.keys.2.1
  rw [(C85_constrain hS hF0 hlim h.system (fun d hd => (h.good d hd).1) h.weights
    (by rw [hvals]; decide) (fun q' hq' => by rw [← WithTop.coe_inj.1 hq']; exact hq) hk
    (rconstrain_any hD) a paths).2]
  congr 1
  unfold violated
  clear hD hk
  induction cs with
  | nil => rfl
  | cons c cs ih =>
    rw [List.map_cons, List.sum_cons, List.map_cons, List.sum_cons,
      ih fun c hc => hks c (List.mem_cons_of_mem _ hc), WithTop.coe_add]
    congr 1
    have hex : (∃ v, B.system.keys[v]? = some c.1 ∧ B.system.values[a v]? = some c.2) ↔ α c.1 = c.2 := by
      constructor
      · rintro ⟨v, h1, h2⟩
        rw [hα v _ h1] at h2
        exact Option.some.inj h2
      · intro hc
        obtain ⟨v, hv⟩ := List.mem_iff_getElem?.1 (hks c (by simp))
        rw [← hkeys] at hv
        exact ⟨v, hv, by rw [hα v _ hv, hc]⟩
    by_cases hc : α c.1 = c.2
    · rw [if_pos (hex.2 hc), if_pos hc]; rfl
    · rw [if_neg (fun h => hc (hex.1 h)), if_neg hc]

theorem prepared_any {K V : Type} {i j : DecidableEq K} [DecidableEq V] {D D' : DualSystem K V}
    (h : @Prepared K V i _ A F X D D') : @Prepared K V j _ A F X D D' := by
  rwa [Subsingleton.elim j i]

omit [DecidableEq S] in
theorem rcons_prepared (hq : F q ∧ |q| ≤ X) (hk : (cs.map Prod.fst).Nodup)
    (hD : Rounded.constrain A (q : Cost) cs B.system = some D') :
    @Prepared DecisionKey DecisionValue (fun a b => LinearOrder.toDecidableEq a b) _ A F X B.system D' :=
  prepared_any (.constrained (q : Cost) cs D' (fun q' hq' => by rw [← WithTop.coe_inj.1 hq']; exact hq) hk
    hD)

/-- Reported bounds. -/
theorem rcons_bound (hA : AccurateArith A F u τ limit) (hS : AccurateShares A F u τ limit) (hF0 : F 0)
    (hu : 0 ≤ u) (hτ : 0 ≤ τ) (hη : 0 ≤ η) (h : Rnd.RBuilt A invalid make proto l w B B0)
    {n : Nat} {size Mx : ℚ} (hMx : 0 ≤ Mx) (hX : 0 ≤ X)
    (hparts : PartsInRange F limit B n size)
    (hq : F q ∧ |q| ≤ X) (hk : (cs.map Prod.fst).Nodup) (hks : ∀ c ∈ cs, c.1 ∈ seqKeys 0 proto)
    (hD : Rounded.constrain A (q : Cost) cs B.system = some D')
    {vs : List Nat} (hvs : ∀ v ∈ vs, v < B.system.data.numKeys)
    (hs : ∀ v ∈ vs, FairShares A B.system.data v η) (hr : RunInRange A F n Mx X vs D'.data)
    (hl : rangeNeeded u η τ (dagCount B) n Mx X ≤ limit) {D1 : System} {bs : List Cost}
    (he : averages A vs D'.data = some (D1, bs)) {β : DecisionKey → DecisionValue}
    (hβ : WellFormedRegions β proto) {y : ℚ}
    (hy : WeightedTotal (LeastPath make (seqKeys 0 proto) β) l y) :
    ∀ b ∈ bs, b ≤ ((y + violated q cs β + constrainedBoundError u η τ B n size Mx X : ℚ) : Cost) := by
  have hroom : (1 + u) * X + τ ≤ limit := (Rnd.range_room hu hη hMx hX).trans hl
  have hXl : X ≤ limit := by nlinarith
  obtain ⟨hn, hkeys, hvals, -⟩ := h.near hparts
  have hmean := h.exact.vector .start β
  rcases (h.exact.minimum .start hmean hβ hy).attained with h' | ⟨ps0, j1, j2⟩
  · exact absurd h' WithTop.coe_ne_top
  obtain ⟨ps1, k1, k2⟩ := (hn.joint hA hu hτ _).1 ps0 j1
  have hgood := fun d hd => (h.good d hd).1
  have hp := rcons_prepared hq hk hD
  have hl' : rangeNeeded u η τ (B.utilities.map (entry A) ++ [entry A B.constraint]).length n Mx X
      ≤ limit := by rw [rbuilt_count h]; exact hl
  have hok := prepared_ok hS hF0 hu hτ hη hMx hX h.system hgood h.weights hp hl'
  have c2 := rcons_cost hS hF0 (hX.trans hXl) h ⟨hq.1, hq.2.trans hXl⟩ hk hks hD
    (means_of hkeys hvals hmean) ps1
  intro b hb
  have hb' := C85_bound hA hS hF0 hu hτ hη hMx hX h.system hgood h.weights hp vs hvs hs hr hl' he
    (hok.joint.2 k1) b hb
  have k3 := k2.right_le
  rw [j2, rbuilt_subs h hparts] at k3
  rw [rbuilt_count h, c2] at hb'
  refine hb'.trans ((add_le_add_left (add_le_add_left k3 _) _).trans ?_)
  rw [← WithTop.coe_add, ← WithTop.coe_add, ← WithTop.coe_add]
  apply WithTop.coe_le_coe.2
  unfold constrainedBoundError
  linarith

/-- Greedy extraction. -/
theorem rcons_greedy (hA : AccurateArith A F u τ limit) (hS : AccurateShares A F u τ limit) (hF0 : F 0)
    (hu : 0 ≤ u) (hτ : 0 ≤ τ) (hη : 0 ≤ η) (h : Rnd.RBuilt A invalid make proto l w B B0)
    {n : Nat} {size Mx My : ℚ} (hMx : 0 ≤ Mx) (hMy : 0 ≤ My) (hX : 0 ≤ X)
    (hparts : PartsInRange F limit B n size)
    (hq : F q ∧ |q| ≤ X) (hk : (cs.map Prod.fst).Nodup) (hks : ∀ c ∈ cs, c.1 ∈ seqKeys 0 proto)
    (hD : Rounded.constrain A (q : Cost) cs B.system = some D')
    {vs : List Nat} (hvs : ∀ v ∈ vs, v < B.system.data.numKeys)
    (hs : ∀ v ∈ vs, FairShares A B.system.data v η) (hr : RunInRange A F n Mx X vs D'.data)
    (hl : rangeNeeded u η τ (dagCount B) n Mx X ≤ limit) {D1 : System} {bs : List Cost}
    (he : averages A vs D'.data = some (D1, bs))
    (hx : ExtractsInRange F u limit B D1 n My) (hne : seqKeys 0 proto ≠ []) (dir : Direction) :
    ∃ (vec : List Nat) (α : DecisionKey → DecisionValue) (C x : ℚ),
      Rounded.greedy A D1 dir = some (vec, some (C : Cost))
      ∧ assignmentPairs D'.keys D'.values vec = some ((seqKeys 0 proto).map fun k => (k, α k))
      ∧ WellFormedRegions α proto
      ∧ WeightedTotal (LeastPath make (seqKeys 0 proto) α) l x
      ∧ |C - (x + violated q cs α)| ≤ constrainedCostError u η τ B n size Mx X My := by
  have hroom : (1 + u) * X + τ ≤ limit := (Rnd.range_room hu hη hMx hX).trans hl
  have hXl : X ≤ limit := by nlinarith
  have hlim := hX.trans hXl
  have hql : F q ∧ |q| ≤ limit := ⟨hq.1, hq.2.trans hXl⟩
  have hgood := fun d hd => (h.good d hd).1
  obtain ⟨hn, hkeys, hvals, -⟩ := h.near hparts
  obtain ⟨k1, k2, k3, k4, -⟩ := h.exact.keys
  obtain ⟨-, -, -, d4, d5, -⟩ := makeSystem_ok h.system
  have hK : B.system.data.numKeys = (seqKeys 0 proto).length := by rw [d4, hkeys, k1]
  have hV : B.system.data.numValues = 3 := by rw [d5, hvals, k2]; rfl
  have hcnt := rbuilt_count h
  have hp := rcons_prepared hq hk hD
  have hl' : rangeNeeded u η τ (B.utilities.map (entry A) ++ [entry A B.constraint]).length n Mx X
      ≤ limit := by rw [hcnt]; exact hl
  have hok' := prepared_ok hS hF0 hu hτ hη hMx hX h.system hgood h.weights hp hl'
  have hfin := C85_finite hS hF0 hlim h.system hgood h.weights hql hk (rconstrain_any hD)
  obtain ⟨p', us', g1, hDk, hDv, -⟩ := Rnd.constrain_start cs B.system D' (fun _ _ => 0) []
    (made_ustart h.system hgood h.weights _) hk (by simp) (rconstrain_any hD) (by simp)
  have hcost : ∀ {a : Nat → Nat} (_ : ∀ v < (seqKeys 0 proto).length, a v < 3) (paths),
      jointCost D'.data a paths = jointCost B.system.data a paths
        + (violated q cs (meaning (seqKeys 0 proto) a) : Cost) := fun ha paths =>
    rcons_cost hS hF0 hlim h hql hk hks hD (means_of hkeys hvals (h.exact.meaning .start ha)) paths
  obtain ⟨hsame, hok⟩ := Rnd.run_same vs _ _ _ hok'.ok he
  have hlen0 : B.system.data.subs.length = dagCount B := by
    rw [← hn.subs.length_eq, rbuilt_subs h hparts]
  have hlen : D'.data.subs.length = dagCount B := by rw [hok'.length, hlen0]
  have hlen' : D1.subs.length = dagCount B := by rw [← hsame.subs.length_eq, hlen]
  -- it succeeds
  obtain ⟨vec, c, hg⟩ : ∃ vec c, Rounded.greedy A D1 dir = some (vec, c) := by
    obtain ⟨D2, bs', vec, c, g1, g2⟩ := C86_defined hS hF0 hu hτ hX h.system hgood h.weights
      (fun d hd => by rw [(h.good d hd).2.1]; exact hne) (by rw [hvals, k2]; simp) hp hroom vs dir
    rw [he] at g1
    simp only [Option.some.injEq, Prod.mk.injEq] at g1
    rw [← g1.1] at g2
    exact ⟨vec, c, g2⟩
  obtain ⟨g1, g2, -, g4⟩ := C85_greedy hA hS hF0 hu hτ hη hMx hX hMy h.system hgood h.weights hp hfin vs
    hvs hs hr hl' he hx.subs (by rw [hcnt]; exact hx.limit) hg
  have hK0 : B.system.data.numKeys ≠ 0 := by
    rw [hK]; exact fun hc => hne (List.length_eq_zero_iff.1 hc)
  obtain ⟨C, rfl, c1, c2⟩ := g4 hK0
  rw [hcnt] at c1 c2
  have hvlt : ∀ v < (seqKeys 0 proto).length, vec.getD v 0 < 3 := by
    intro v hv
    rw [← hK, ← g1] at hv
    rw [List.getD_eq_getElem?_getD, List.getElem?_eq_getElem hv]
    have := g2 _ (List.getElem_mem hv)
    rw [hV] at this
    exact this
  -- a joint solution with the extracted values
  have hinv := makeSystem_inv h.system hgood h.weights
  have hjoint : ∃ paths, Joint B.system.data (fun v => vec.getD v 0) paths
      ∧ jointCost D'.data (fun v => vec.getD v 0) paths < ⊤ := by
    obtain ⟨wv, hw, hgd⟩ := h.exact.guards .start
    obtain ⟨s1, hs1, hgd1⟩ := hn.guards hA hu hτ hw hgd
    obtain ⟨α0, hα0⟩ := wellFormed_exists proto
    obtain ⟨x0, hx0⟩ := h.exact.least hα0
    have hm0 := h.exact.vector .start α0
    rcases (h.exact.minimum .start hm0 hα0 hx0).attained with h' | ⟨p0, f1, f2⟩
    · exact absurd h' WithTop.coe_ne_top
    obtain ⟨p1, f3, f4⟩ := (hn.joint hA hu hτ _).1 p0 f1
    have f5 := f4.lt_top.1 (by rw [f2]; exact WithTop.coe_lt_top _)
    have f6 := rcons_cost hS hF0 hlim h hql hk hks hD (means_of hkeys hvals hm0) p1
    have f7 := WithTop.add_lt_top.2 ⟨f5, WithTop.coe_lt_top (violated q cs α0)⟩
    rw [← f6] at f7
    -- the guard after averaging
    have hdags : List.Forall₂ (fun s s' : Sub => s'.memo.dag = s.memo.dag ∧ s'.index = s.index)
        B.system.data.subs D1.subs := by
      have := hok'.dags
      have h2 := hsame.subs
      generalize B.system.data.subs = l0 at this
      generalize D'.data.subs = l1 at this h2
      generalize D1.subs = l2 at h2
      clear * - this h2
      induction this generalizing l2 with
      | nil => cases h2; exact .nil
      | cons g _ ih =>
        cases h2 with
        | cons g' h2 => exact .cons ⟨g'.1.trans g.1, g'.2.trans g.2⟩ (ih _ h2)
    have hsame2 : List.Forall₂ (fun s s' : Sub => s = s') D1.subs D1.subs :=
      List.forall₂_same.2 fun _ _ => rfl
    obtain ⟨s2, -, hs2, -, ⟨e1, e2⟩, -⟩ := Rnd.forall₂_triple hdags hsame2 s1 hs1
    have hkk : D1.numKeys = B.system.data.numKeys := hsame.keys.trans hok'.keys
    have hvv : D1.numValues = B.system.data.numValues := hsame.values.trans hok'.values
    have hgd2 : Guards D1 s2.view := by
      refine ⟨?_, ?_⟩
      · intro v hv
        change ∃ k, s2.index v = some k
        rw [e2]
        exact hgd1.total v (by rw [← hkk]; exact hv)
      · intro b p hb hp hf hbp
        have hp' : Complete s1.view.dag p := by
          change Complete s1.memo.dag p
          rw [← e1]; exact hp
        rw [hkk, hvv] at hb
        obtain ⟨q', q1, q2⟩ := hgd1.extends_ b p hb
          hp' hf (by
            intro v k x hk hx
            refine hbp v k x ?_ hx
            change s2.index v = some k
            rw [e2]; exact hk)
        refine ⟨q', hsame.joint.2 (hok'.joint.2 q1), ?_⟩
        rw [hsame.cost, hcost (by rw [← hK, ← hV]; exact hb)]
        exact WithTop.add_lt_top.2 ⟨q2, WithTop.coe_lt_top _⟩
    have hready : Rnd.GuardReady A F u limit n My D1 := by
      refine ⟨hMy, hok, hx.subs, by rw [hlen']; exact hx.limit, ?_⟩
      intro b paths hj hf
      have hj' := hsame.joint.1 hj
      rw [hsame.cost] at hf
      obtain ⟨J, hJ⟩ := WithTop.ne_top_iff_exists.1 hf.ne
      have hb := Rnd.run_bal hA hu hτ vs _ _ _ hok'.ok hj' hJ.symm (prepared_bal hok' hJ.symm)
        (fun v hv => ⟨by rw [hok'.keys]; exact hvs v hv,
          ⟨by rw [hok'.shares]; exact (hs v hv).nonneg, by rw [hok'.shares]; exact (hs v hv).total⟩⟩)
        hr (by rw [hlen]; exact hl) he
      obtain ⟨Ep, e1, -⟩ := Rnd.joint_near hok hj ((hsame.cost b paths).trans hJ.symm) hb
      rw [e1]
      exact WithTop.coe_lt_top _
    obtain ⟨b, paths, hb, hj, hf⟩ := Rnd.guard_greedy hA.sums hu hready hs2 hgd2
      (hsame.joint.2 (hok'.joint.2 f3)) (by rw [hsame.cost]; exact f7) hg
    rw [hkk] at hb
    have hj' := hok'.joint.1 (hsame.joint.1 hj)
    rw [hsame.cost] at hf
    refine ⟨paths, joint_congr hinv hb hj', ?_⟩
    rw [← jointCost_congr (b := b) (by rw [hok'.keys]; exact hb)]
    exact hf
  obtain ⟨paths, hj, hjf⟩ := hjoint
  have hC : C ≠ ⊤ := by
    have := c1 paths (hok'.joint.2 hj)
    intro hc
    rw [hc] at this
    have h3 : jointCost D'.data (fun v => vec.getD v 0) paths
        + (extractError u η τ (dagCount B) B.system.data.numKeys n Mx X My : Cost) < ⊤ :=
      WithTop.add_lt_top.2 ⟨hjf, WithTop.coe_lt_top _⟩
    exact absurd (top_le_iff.1 this) h3.ne
  lift C to ℚ using hC
  have hmean := h.exact.meaning .start hvlt
  obtain ⟨ps0, j0, -⟩ := (hn.joint hA hu hτ _).2 paths hj
  have hwf := ((h.exact.joint .start hmean _).1 ⟨ps0, j0, rfl⟩).1
  obtain ⟨x, hx'⟩ := h.exact.least hwf
  have hmin := h.exact.minimum .start hmean hwf hx'
  refine ⟨vec, _, C, x, hg, ?_, hwf, hx', ?_⟩
  · rw [hDk, hDv]
    obtain ⟨pairs, p1, p2, p3⟩ := C39_assignment_pairs B.system.keys B.system.values vec
      (by rw [g1, d4]) (by
        intro y hy
        have := g2 y hy
        rw [d5] at this
        exact this)
    rw [p1]
    congr 1
    rw [hkeys, k1] at p2
    apply List.ext_getElem?
    intro i
    have hkey := congrArg (fun l => l[i]?) p2
    simp only [List.getElem?_map] at hkey
    rw [List.getElem?_map]
    cases hi : pairs[i]? with
    | none => rw [hi] at hkey; rw [← hkey]; rfl
    | some kv =>
      rw [hi] at hkey
      rw [← hkey]
      obtain ⟨y, y1, y2⟩ := p3 i kv hi
      have hm := hmean i kv.1 (by rw [k1, ← hkey]; rfl)
      have : vec.getD i 0 = y := by rw [List.getD_eq_getElem?_getD, y1]; rfl
      dsimp only at hm
      rw [this, ← hvals, y2] at hm
      simp only [Option.map_some, Option.some.injEq]
      rw [← Option.some.inj hm]
  · rw [abs_le]
    constructor
    · -- the cost is not too small
      obtain ⟨q1, r1, r2⟩ := c2 WithTop.coe_ne_top
      obtain ⟨q0, s1, s2⟩ := (hn.joint hA hu hτ _).2 q1 (hok'.joint.1 r1)
      have s3 := (hmin.le q0 s1).trans s2.left_le
      rw [rbuilt_subs h hparts] at s3
      rw [hcost hvlt] at r2
      have hJ : jointCost B.system.data (fun v => vec.getD v 0) q1 ≠ ⊤ := by
        intro ht
        rw [ht, top_add, top_le_iff, ← WithTop.coe_add] at r2
        exact WithTop.coe_ne_top r2
      obtain ⟨J, hJ⟩ := WithTop.ne_top_iff_exists.1 hJ
      rw [← hJ, ← WithTop.coe_add] at s3
      rw [← hJ, ← WithTop.coe_add, ← WithTop.coe_add] at r2
      have t1 := WithTop.coe_le_coe.1 s3
      have t2 := WithTop.coe_le_coe.1 r2
      unfold constrainedCostError
      linarith
    · rcases hmin.attained with h' | ⟨q0, r1, r2⟩
      · exact absurd h' WithTop.coe_ne_top
      obtain ⟨q1, s1, s2⟩ := (hn.joint hA hu hτ _).1 q0 r1
      have s3 := s2.right_le
      rw [r2, rbuilt_subs h hparts] at s3
      have s5 := c1 q1 (hok'.joint.2 s1)
      rw [hcost hvlt] at s5
      have s4 := s5.trans (add_le_add_left (add_le_add_left s3 _) _)
      rw [← WithTop.coe_add, ← WithTop.coe_add, ← WithTop.coe_add] at s4
      have := WithTop.coe_le_coe.1 s4
      unfold constrainedCostError
      linarith

/-- What is assumed about ranges holds if the costs are not too large for the number of steps. -/
theorem rcons_range (hA : AccurateArith A F u τ limit) (hS : AccurateShares A F u τ limit) (hF0 : F 0)
    (hu : 0 ≤ u) (hτ : 0 ≤ τ) (hη : 0 ≤ η) (h : Rnd.RBuilt A invalid make proto l w B B0)
    {n : Nat} {c : ℚ} (hc : 0 ≤ c) (hcl : c ≤ limit) (hX : 0 ≤ X)
    (hb : ∀ p ∈ B.utilities, PartBounded F p n c) (hb' : PartBounded F B.constraint n c)
    (hq : F q ∧ |q| ≤ X) (hk : (cs.map Prod.fst).Nodup)
    (hD : Rounded.constrain A (q : Cost) cs B.system = some D')
    {vs : List Nat} (hs : ∀ v ∈ vs, FairShares A B.system.data v η) {T : Nat} (hT : vs.length ≤ T)
    (hl : rangeNeeded u η τ (dagCount B) n (constrainedSize u η τ (dagCount B) n c X T) X ≤ limit) :
    0 ≤ constrainedSize u η τ (dagCount B) n c X T
    ∧ PartsInRange F limit B n (n * c)
    ∧ RunInRange A F n (constrainedSize u η τ (dagCount B) n c X T) X vs D'.data
    ∧ ∀ D bs, averages A vs D'.data = some (D, bs) → ExtractsInRange F u limit B D n
      (constrainedSize u η τ (dagCount B) n c X T) := by
  have hgood := fun d hd => (h.good d hd).1
  have hnc : 0 ≤ (n : ℚ) * c := mul_nonneg (Nat.cast_nonneg _) hc
  have hC : 0 ≤ (1 + u) * (n * c) + n * τ :=
    add_nonneg (mul_nonneg (by linarith) hnc) (mul_nonneg (Nat.cast_nonneg _) hτ)
  have hP : 0 ≤ (1 + u) * X + τ := add_nonneg (mul_nonneg (by linarith) hX) hτ
  have hnP := mul_nonneg (Nat.cast_nonneg (α := ℚ) n) hP
  have hCP : 0 ≤ (1 + u) * (n * c) + n * τ + n * ((1 + u) * X + τ) := add_nonneg hC hnP
  have hM : 0 ≤ constrainedSize u η τ (dagCount B) n c X T :=
    hCP.trans (Rnd.growSize_base hu hη hτ hX hCP T)
  have hparts : PartsInRange F limit B n (n * c) := by
    refine ⟨fun p hp => Rnd.bounded_scale (A := A) (hb p hp) hc hcl ?_,
      Rnd.bounded_scale (A := A) hb' hc hcl ?_⟩
    · exact (hgood (entry A p) (List.mem_append_left _ (List.mem_map.2 ⟨p, hp, rfl⟩))).wf
    · exact (hgood (entry A B.constraint) (by simp)).wf
  have hp := rcons_prepared hq hk hD
  have hl' : rangeNeeded u η τ (B.utilities.map (entry A) ++ [entry A B.constraint]).length n
      (constrainedSize u η τ (dagCount B) n c X T) X ≤ limit := by rw [rbuilt_count h]; exact hl
  have hok := prepared_ok hS hF0 hu hτ hη hM hX h.system hgood h.weights hp hl'
  obtain ⟨p, us, g1, g2⟩ := prepared_ustart h.system hgood h.weights hF0 hX hp
  have hroom : (1 + u) * X + τ ≤ limit := (Rnd.range_room hu hη hM hX).trans hl
  obtain ⟨-, -, -, -, -, d6, d7⟩ := makeSystem_ok h.system
  have hlen0 : B.system.data.subs.length = dagCount B := by
    obtain ⟨hn, -⟩ := h.near hparts
    rw [← hn.subs.length_eq, rbuilt_subs h hparts]
  have hlen : D'.data.subs.length = dagCount B := by rw [hok.length, hlen0]
  have hsub : ∀ s ∈ D'.data.subs, Rnd.Costed F s.memo.dag n ((1 + u) * (n * c) + n * τ) := by
    intro s hs
    obtain ⟨s0, hs0, e1, -⟩ := Rnd.forall₂_mem_right hok.dags s hs
    rw [e1]
    rw [d7] at hs0
    obtain ⟨⟨d, i⟩, hx, rfl⟩ := List.mem_map.1 hs0
    change Rnd.Costed F d.1 n _
    rcases List.mem_append.1 (List.fst_mem_of_mem_zipIdx hx) with hd | hd
    · obtain ⟨p, hp, rfl⟩ := List.mem_map.1 hd
      exact Rnd.scaled_costed hA hu hτ (hparts.utilities p hp)
    · obtain rfl : d = _ := List.mem_singleton.1 hd
      exact Rnd.scaled_costed hA hu hτ hparts.constraint
  obtain ⟨r1, r2⟩ := Rnd.run_grows hA hu hτ hη hX (N := dagCount B) hC
    (C := (1 + u) * (n * c) + n * τ + n * ((1 + u) * X + τ)) (by linarith)
    (by unfold dagCount; omega) hl vs D'.data 0 ((1 + u) * X + τ)
    (by omega) hlen hok.ok hsub hP (g1.penned hS hF0 hu hτ hX hroom g2) (le_refl _)
    (g1.extras hS hF0 hX (by nlinarith) g2)
    (fun v hv => ⟨by rw [hok.shares]; exact (hs v hv).nonneg, by rw [hok.shares]; exact (hs v hv).total⟩)
  refine ⟨hM, hparts, r1, fun D bs he => ⟨r2 D bs he, le_trans ?_ hl⟩⟩
  unfold rangeNeeded
  generalize constrainedSize u η τ (dagCount B) n c X T = M at *
  have q1 := Rnd.pow_mono hu (show 2 * n + 1 + dagCount B ≤ 2 * n + dagCount B + 4 by omega)
  have hNM : 0 ≤ (dagCount B : ℚ) * M := mul_nonneg (Nat.cast_nonneg _) hM
  have q2 := mul_le_mul q1 (le_add_of_nonneg_right hX : (dagCount B : ℚ) * M ≤ dagCount B * M + X) hNM
    (pow_nonneg (by linarith) _)
  refine q2.trans ?_
  rw [mul_assoc (2 * (1 + η))]
  have q3 : 0 ≤ (1 + u) ^ (2 * n + dagCount B + 4) * (dagCount B * M + X) :=
    mul_nonneg (pow_nonneg (by linarith) _) (by linarith)
  have q4 := mul_nonneg hη q3
  linarith

end

/-! ## The solver -/

section
variable {A : Arith} {tol : ℚ} {late : Nat → Bool}

theorem runSweep_length : ∀ (vs : List Nat) (st st' : SweepState) (c c' : Bool),
    Rounded.runSweep A tol vs st c = some (st', c') →
    st'.variableAtStep.length = st.variableAtStep.length + vs.length
      ∧ st'.system.numKeys = st.system.numKeys := by
  intro vs
  induction vs with
  | nil =>
    intro st st' c c' h
    simp only [Rounded.runSweep, Option.some.injEq, Prod.mk.injEq] at h
    rw [← h.1]
    simp
  | cons v vs ih =>
    intro st st' c c' h
    unfold Rounded.runSweep at h
    split at h
    · cases h
    · rename_i S' b hb
      obtain ⟨h1, h2⟩ := ih _ _ _ _ h
      rw [h1, h2]
      refine ⟨?_, average_keys hb⟩
      simp only [List.length_append, List.length_cons, List.length_nil]
      omega

theorem rsolveLoop_steps : ∀ (fuel : Nat) (st st' : SweepState),
    Rounded.solveLoop A tol late fuel st = .ok st' →
    st'.variableAtStep.length ≤ st.variableAtStep.length + 2 * fuel * (st.system.numKeys - 1) := by
  intro fuel
  induction fuel with
  | zero => intro st st' h; cases h
  | succ fuel ih =>
    intro st st' h
    have e : 2 * (fuel + 1) * (st.system.numKeys - 1)
        = 2 * fuel * (st.system.numKeys - 1) + (st.system.numKeys - 1) + (st.system.numKeys - 1) := by
      ring
    have lf : (forwardVars st.system.numKeys).length = st.system.numKeys - 1 := by simp [forwardVars]
    have lr : (reverseVars st.system.numKeys).length = st.system.numKeys - 1 := by simp [reverseVars]
    rw [Rounded.solveLoop.eq_2] at h
    split at h
    · cases h
    · rename_i st1 c1 h1
      obtain ⟨a1, a2⟩ := runSweep_length _ _ _ _ _ h1
      dsimp only at h
      have a1' : st1.record.variableAtStep.length = st.variableAtStep.length + (st.system.numKeys - 1) := by
        rw [← lf]; exact a1
      have a2' : st1.record.system.numKeys = st.system.numKeys := a2
      split at h
      · split at h
        · have := ih _ _ h
          rw [a2'] at this
          omega
        · obtain rfl := Except.ok.inj h
          omega
      · split at h
        · cases h
        · rename_i st2 c2 h2
          obtain ⟨b1, b2⟩ := runSweep_length _ _ _ _ _ h2
          have b1' : st2.record.variableAtStep.length
              = st1.record.variableAtStep.length + (st.system.numKeys - 1) := by
            rw [← lr]; exact b1
          have b2' : st2.record.system.numKeys = st.system.numKeys := b2.trans a2'
          split at h
          · have := ih _ _ h
            rw [b2'] at this
            omega
          · obtain rfl := Except.ok.inj h
            omega

/-- All subproblems can be averaged. -/
def Averageable (A : Arith) (S : System) : Prop :=
  ∀ s ∈ S.subs, Rnd.RSubOK A.toMachine S.numKeys S.numValues s ∧ 0 < s.memo.dag.numKeys

theorem averageable_step {S S' : System} {v : Nat} {b : Cost} (h : Averageable A S)
    (he : Rounded.average A S v = some (S', b)) : Averageable A S' := by
  have he' : averages A [v] S = some (S', [b]) := by simp [averages, he]
  obtain ⟨k1, k2⟩ := Rnd.run_same [v] _ _ _ (fun s hs => (h s hs).1) he'
  intro s hs
  refine ⟨k2 s hs, ?_⟩
  obtain ⟨s0, hs0, e1, -⟩ := Rnd.forall₂_mem_right k1.subs s hs
  rw [e1]
  exact (h s0 hs0).2

theorem runSweep_some : ∀ (vs : List Nat) (st : SweepState) (c : Bool), Averageable A st.system →
    ∃ st' c', Rounded.runSweep A tol vs st c = some (st', c') ∧ Averageable A st'.system := by
  intro vs
  induction vs with
  | nil => intro st c h; exact ⟨st, c, rfl, h⟩
  | cons v vs ih =>
    intro st c h
    obtain ⟨r, hr⟩ := Rnd.averages_some (A := A) [v] st.system h
    cases hb : Rounded.average A st.system v with
    | none => simp [averages, hb] at hr
    | some x =>
      obtain ⟨S', b⟩ := x
      unfold Rounded.runSweep
      rw [hb]
      exact ih _ _ (averageable_step h hb)

theorem solveLoop_fine : ∀ (fuel : Nat) (st : SweepState), Averageable A st.system →
    Rounded.solveLoop A tol late fuel st ≠ .error .assertion := by
  intro fuel
  induction fuel with
  | zero => intro st _ h; cases h
  | succ fuel ih =>
    intro st h
    obtain ⟨st1, c1, h1, h2⟩ := runSweep_some (tol := tol) (forwardVars st.system.numKeys) st false h
    obtain ⟨st2, c2, h3, h4⟩ := runSweep_some (tol := tol) (reverseVars st.system.numKeys) st1.record c1 h2
    rw [Rounded.solveLoop.eq_2, h1]
    dsimp only
    split
    · split
      · exact ih _ h2
      · intro h; cases h
    · rw [h3]
      dsimp only
      split
      · exact ih _ h4
      · intro h; cases h

end

/-! ## `float64` -/

section
variable {M : Type} [DecidableEq M] {total : List ℚ → ℚ} {invalid : Cost} {prm : Params}
  {proto target : List (Node M)} {B : BuiltSystem EditState (Option EditInfo)}

theorem float_one : machineWeights float64Arith 1 none = [1] := by
  have h : float64Arith.div 1 ((1 : ℕ) : ℚ) = 1 := by decide +kernel
  simp only [machineWeights, Option.getD_none, h]
  rfl

omit [DecidableEq M] in
theorem single_float : FloatFactors [target] none :=
  ⟨fun _ => ⟨by simp, by norm_num⟩, by simp⟩

omit [DecidableEq M] in
theorem single_machine {α : DecisionKey → DecisionValue} {x : ℚ} :
    WeightedTotal (LeastEditCost prm proto α)
      ([target].zip (machineWeights float64Arith [target].length none)) x
      ↔ LeastEditCost prm proto α target x := by
  have e : [target].length = 1 := rfl
  rw [e, float_one]
  simp [WeightedTotal]

theorem float_million : IsFloat64 1000000 := ⟨1000000, 0, by norm_num, by norm_num, by norm_num⟩

/-- C87: the decisions for given tokens in `float64`, for a system with one target. Unless the solver
takes more than `fuel` rounds, they are computed without an error, whatever the clock says: all
decisions, and they are well-formed. The cost computed along the way is, up to the error, that of the
edits and a million for every token that is not in a region. No reported bound exceeds the cost of any
well-formed decisions by more than the error, so the decisions are optimal up to the gap between cost
and bound and up to the errors. -/
theorem C87_assignment (hsum : SoundSum total)
    (hB : Rounded.buildEditSystem float64Arith total invalid prm proto [target] none = .ok B)
    (ht : DecisionFree target) {n : Nat} {c : ℚ} (hc : 0 ≤ c) (hcl : c ≤ 2 ^ 1023)
    (hb : ∀ p ∈ B.utilities, PartBounded IsFloat64 p n c)
    (hb' : PartBounded IsFloat64 B.constraint n c) (hk : seqKeys 0 proto ≠ [])
    {low : List Nat} (hn : low.Nodup)
    (hl : ∀ i ∈ low, ∃ x ∈ placed proto, x.idx = i ∧ x.isToken = true)
    (tol : ℚ) (late : Nat → Bool) {fuel T : Nat} (hT : 2 * fuel * ((seqKeys 0 proto).length - 1) ≤ T)
    (hr : baselineRange B n c T ≤ 2 ^ 1023) :
    Rounded.lowAssignment float64Arith B.system tol late fuel low = .error (.solve .running)
    ∨ ∃ D st vec α C x, Rounded.constrain float64Arith ((1000000 : ℚ) : Cost)
        (low.map fun i => ((⟨i, .inRegion⟩ : DecisionKey), DecisionValue.yes)) B.system = some D
      ∧ Rounded.solve float64Arith D.data tol late fuel = .ok st
      ∧ Rounded.greedy float64Arith st.system .forward = some (vec, some ((C : ℚ) : Cost))
      ∧ Rounded.lowAssignment float64Arith B.system tol late fuel low
        = .ok ((seqKeys 0 proto).map fun k => (k, α k))
      ∧ WellFormedRegions α proto
      ∧ PenalisedCost prm proto target low α x
      ∧ |C - x| ≤ baselineCostError B n c T
      ∧ ∀ b : Cost, b ∈ st.objectiveAtStep → ∀ β, WellFormedRegions β proto → ∀ y,
          PenalisedCost prm proto target low β y →
          b ≤ ((y + baselineBoundError B n c T : ℚ) : Cost)
          ∧ ∀ q : ℚ, b = q →
            x ≤ y + (C - q) + baselineCostError B n c T + baselineBoundError B n c T := by
  have hu : (0 : ℚ) ≤ 1 / 2 ^ 53 := by norm_num
  have hτ : (0 : ℚ) ≤ 2 ^ (-1075 : ℤ) := zpow_nonneg (by norm_num) _
  have hη := floatShares_nonneg B
  have h0 : IsFloat64 0 := C67_float64.zero
  have hX : (0 : ℚ) ≤ 1000000 := by norm_num
  have hmf := C72_factors hsum (single_float (target := target))
  obtain ⟨B0, h⟩ := edit_rbuilt hB (fun t htm => by rw [List.mem_singleton.1 htm]; exact ht) hmf
  have hgood := fun d hd => (h.good d hd).1
  set cs : List (DecisionKey × DecisionValue) := low.map fun i => (⟨i, .inRegion⟩, .yes) with hcs
  have hkeys : ∀ c ∈ cs, c.1 ∈ seqKeys 0 proto := by
    intro c hc
    obtain ⟨i, hi, rfl⟩ := List.mem_map.1 hc
    obtain ⟨x, hx, rfl, hxt⟩ := hl i hi
    refine placed_key_mem hx ?_
    unfold Placed.isToken at hxt
    unfold Placed.key
    split at hxt
    · rename_i t mt hnode
      rw [hnode]
    · cases hxt
  have hnd : (cs.map Prod.fst).Nodup := by
    rw [hcs, List.map_map]
    refine hn.map_on ?_
    intro i _ j _ hij
    simpa using hij
  have hq : IsFloat64 1000000 ∧ |(1000000 : ℚ)| ≤ 1000000 := ⟨float_million, by norm_num⟩
  have hBk : B.system.keys = seqKeys 0 proto := h.keys.trans h.exact.keys.1
  have hBv : B.system.values = allValues := (rbuilt_values_eq h).trans h.exact.keys.2.1
  have hK := (rbuilt_sizes h).2
  obtain ⟨D, hD⟩ : ∃ D, Rounded.constrain float64Arith ((1000000 : ℚ) : Cost) cs B.system = some D := by
    have key : ∀ (cs : List (DecisionKey × DecisionValue)) (E : DualSystem DecisionKey DecisionValue),
        E.keys = seqKeys 0 proto → E.values = allValues → (∀ c ∈ cs, c.1 ∈ seqKeys 0 proto) →
        ∃ D, Rounded.constrain float64Arith ((1000000 : ℚ) : Cost) cs E = some D := by
      intro cs
      induction cs with
      | nil => intro E _ _ _; exact ⟨E, rfl⟩
      | cons c cs ih =>
        intro E e1 e2 e3
        obtain ⟨v, hv⟩ := dictIndex_isSome (l := E.keys) (a := c.1) (by rw [e1]; exact e3 c (by simp))
        obtain ⟨i, hi⟩ := dictIndex_isSome (a := c.2) (l := E.values) (by rw [e2]; cases c.2 <;> decide)
        unfold Rounded.constrain
        rw [hv, hi]
        exact ih _ e1 e2 fun c hc => e3 c (List.mem_cons_of_mem _ hc)
    exact key cs _ hBk hBv hkeys
  have hp := rcons_prepared hq hnd hD
  have hshare : ∀ v < B.system.data.numKeys, FairShares float64Arith B.system.data v (floatShares B) :=
    fun v hv => float_shares hsum (single_float (target := target)) h hv
  -- no assertion fails
  obtain ⟨p, us, g1, -⟩ := prepared_ustart h.system hgood h.weights h0 hX hp
  have hav : Averageable float64Arith D.data := by
    intro s hs
    refine ⟨g1.ok s hs, ?_⟩
    obtain ⟨s0, hs0, e1, -⟩ := Rnd.forall₂_mem_right g1.subs s hs
    rw [e1]
    rw [(makeSystem_ok h.system).2.2.2.2.2.2] at hs0
    obtain ⟨⟨d, i⟩, hx, rfl⟩ := List.mem_map.1 hs0
    have hmem := List.fst_mem_of_mem_zipIdx hx
    change 0 < d.1.numKeys
    rw [← (hgood d hmem).keys_length, (h.good d hmem).2.1]
    exact List.length_pos_iff.2 hk
  cases hst : Rounded.solve float64Arith D.data tol late fuel with
  | error e =>
    left
    unfold Rounded.lowAssignment
    rw [lowConstraints hn, hD]
    dsimp only
    rw [hst]
    cases e with
    | assertion => exact absurd hst (solveLoop_fine fuel _ hav)
    | running => rfl
  | ok st =>
    right
    obtain ⟨he, hvs'⟩ := C68_solve hst
    have hDk : D.data.numKeys = B.system.data.numKeys := g1.keys
    have hvs : ∀ v ∈ st.variableAtStep, v < B.system.data.numKeys := by
      intro v hv
      rw [← hDk]
      exact hvs' v hv
    have hsteps : st.variableAtStep.length ≤ T := by
      refine le_trans (rsolveLoop_steps fuel _ _ hst) ?_
      dsimp only
      rw [hDk, hK]
      simpa using hT
    obtain ⟨hM, hparts, r1, r2⟩ := rcons_range C68_float64 C85_float64 h0 hu hτ hη h hc hcl hX hb hb' hq hnd
      hD (fun v hv => hshare v (hvs v hv)) hsteps hr
    obtain ⟨vec, α, C, x, g1, g2, g3, g4, g5⟩ := rcons_greedy C68_float64 C85_float64 h0 hu hτ hη h hM hM hX
      hparts hq hnd hkeys hD hvs (fun v hv => hshare v (hvs v hv)) r1 hr he (r2 _ _ he) hk .forward
    have hviol : ∀ β, violated 1000000 cs β = 1000000 * (missed low β : ℚ) := fun β => missed_sum low β _
    rw [hviol] at g5
    refine ⟨D, st, vec, α, C, x + 1000000 * (missed low α : ℚ), hD, hst, g1, ?_, g3,
      ⟨x, single_machine.1 (edit_total.1 g4), rfl⟩, g5, ?_⟩
    · unfold Rounded.lowAssignment
      rw [lowConstraints hn, hD]
      simp only [hst, g1, g2]
    · rintro b hbm β hβ y ⟨c', hc', rfl⟩
      have hbd := rcons_bound C68_float64 C85_float64 h0 hu hτ hη h hM hX hparts hq hnd hkeys hD hvs
        (fun v hv => hshare v (hvs v hv)) r1 hr he hβ (edit_total.2 (single_machine.2 hc')) b hbm
      rw [hviol] at hbd
      refine ⟨hbd, ?_⟩
      rintro q rfl
      have t1 := WithTop.coe_le_coe.1 hbd
      have t2 := (abs_le.1 g5).1
      change c' + _ + baselineBoundError B n c T ≥ q at t1
      change -baselineCostError B n c T ≤ _ at t2
      linarith

end

end RUSure.Props
