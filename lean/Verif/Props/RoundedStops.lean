import Verif.Lemmas.RoundedStops
import Verif.Spec.RoundedStops

/-!
# C84: the bounds of the solver in machine arithmetic hardly fall, and its sweeps end
-/

namespace RUSure.Props
open RUSure RUSure.Spec RUSure.Lemmas RUSure.Rounded

section
variable {K V : Type} [LinearOrder K] [DecidableEq V]
variable {A : Arith} {F : ℚ → Prop} {u τ η limit : ℚ} {n : Nat} {M X : ℚ}

theorem made_run {invalid : Cost} {dags : List (PackedDag × List K × List V)}
    {weights : Option (List ℚ)} {D : DualSystem K V} (hu : 0 ≤ u) (hτ : 0 ≤ τ) (hη : 0 ≤ η)
    (hM : 0 ≤ M) (hX : 0 ≤ X) (hm : makeSystem invalid dags weights = .ok D)
    (hd : ∀ d ∈ dags, GoodDag d) (hw : GoodWeights dags.length weights)
    (hk : ∀ d ∈ dags, d.2.1 ≠ []) (vs : List Nat) (hvs : ∀ v ∈ vs, v < D.data.numKeys)
    (hs : ∀ v ∈ vs, FairShares A D.data v η) (hr : RunInRange A F n M X vs D.data)
    (hl : rangeNeeded u η τ dags.length n M X ≤ limit) :
    Rnd.RunGood A F u τ η limit n dags.length D.data.numKeys M X vs D.data := by
  obtain ⟨h1, h2⟩ := made_ready (A := A) hm hd hw
  have hsubs := (makeSystem_ok hm).2.2.2.2.2.2
  have hlen : D.data.subs.length = dags.length := by
    rw [hsubs]; simp
  refine ⟨?_, ?_, fun v hv => ⟨hvs v hv, hs v hv⟩, hr, by rw [hlen]; exact hl, hX, hlen, rfl⟩
  · intro s hs'
    refine ⟨h1 s hs', ?_⟩
    rw [hsubs] at hs'
    obtain ⟨⟨d, i⟩, hx, rfl⟩ := List.mem_map.1 hs'
    have hdm := List.fst_mem_of_mem_zipIdx hx
    change 0 < d.1.numKeys
    have h3 := (hd d hdm).keys_length
    rw [← h3]
    exact List.length_pos_iff.2 (hk d hdm)
  · intro w _ x
    left
    obtain ⟨q, e, g1, g2, g3⟩ := h2 (fun _ => x) w
    refine ⟨q, e, g1, g2, g3.trans ?_⟩
    exact Rnd.imbalance_nonneg hu hη hτ (mul_nonneg (Nat.cast_nonneg _) hM) hX

theorem run_steps (hA : AccurateArith A F u τ limit) (hu : 0 ≤ u) (hτ : 0 ≤ τ) (hη1 : η < 1)
    {N k : Nat} : ∀ (vs : List Nat) (S S' : System) (bs : List Cost),
    Rnd.RunGood A F u τ η limit n N k M X vs S → averages A vs S = some (S', bs) →
    (∀ l, Rnd.Prev A F u τ η limit n N M X S l → ∀ b, bs[0]? = some b →
      l ≤ b + ((dropError u η τ N n M X : ℚ) : Cost))
    ∧ (∀ i b b', bs[i]? = some b → bs[i + 1]? = some b' →
      b ≤ b' + ((dropError u η τ N n M X : ℚ) : Cost))
    ∧ ∀ q : ℚ, (q : Cost) ∈ bs → |q| ≤ boundSize u N n M X := by
  intro vs
  induction vs with
  | nil =>
    intro S S' bs _ he
    cases he
    simp
  | cons v vs ih =>
    intro S S' bs hg he
    obtain ⟨S1, b, rs, st, e1, g1, e2, hg1⟩ := hg.step hA hu hτ hη1
    unfold averages at he
    rw [e1] at he
    simp only [Option.bind_some, Option.map_eq_some_iff] at he
    obtain ⟨⟨S2, bs'⟩, e3, e4⟩ := he
    cases e4
    obtain ⟨i1, i2, i3⟩ := ih S1 _ bs' hg1 e3
    have hp : Rnd.Prev A F u τ η limit n N M X S1 b := ⟨_, _, _, _, g1, e2, hg.count⟩
    refine ⟨?_, ?_, ?_⟩
    · intro l hl b0 hb0
      simp only [List.getElem?_cons_zero, Option.some.injEq] at hb0
      subst hb0
      exact Rnd.prev_drop hA hu hτ hη1 hl hg g1 e2
    · intro i x x' hx hx'
      cases i with
      | zero =>
        simp only [List.getElem?_cons_zero, Option.some.injEq] at hx
        subst hx
        exact i1 _ hp _ (by simpa using hx')
      | succ i => exact i2 i x x' (by simpa using hx) (by simpa using hx')
    · intro q hq
      rcases List.mem_cons.1 hq with h | h
      · obtain ⟨r, h1, -, h2⟩ := Rnd.prev_size hA hu hτ hη1 hp (by rw [← h]; exact WithTop.coe_lt_top q)
        rw [← h, WithTop.coe_inj] at h1
        rw [h1]; exact h2
      · exact i3 q h

/-- C84: in a run of averaging steps in machine arithmetic, each bound reported is at most the next one
plus an error that depends on the sizes of the numbers and of the system, not on the number of steps;
and finite bounds do not get large. -/
theorem C84_steps (hA : AccurateArith A F u τ limit) (hu : 0 ≤ u) (hτ : 0 ≤ τ) (hη : 0 ≤ η)
    (hη1 : η < 1) (hM : 0 ≤ M) (hX : 0 ≤ X)
    {invalid : Cost} {dags : List (PackedDag × List K × List V)} {weights : Option (List ℚ)}
    {D : DualSystem K V} (hm : makeSystem invalid dags weights = .ok D)
    (hd : ∀ d ∈ dags, GoodDag d) (hw : GoodWeights dags.length weights)
    (hk : ∀ d ∈ dags, d.2.1 ≠ []) (vs : List Nat) (hvs : ∀ v ∈ vs, v < D.data.numKeys)
    (hs : ∀ v ∈ vs, FairShares A D.data v η) (hr : RunInRange A F n M X vs D.data)
    (hl : rangeNeeded u η τ dags.length n M X ≤ limit)
    {S : System} {bs : List Cost} (he : averages A vs D.data = some (S, bs)) :
    (∀ i b b', bs[i]? = some b → bs[i + 1]? = some b' →
      b ≤ b' + ((dropError u η τ dags.length n M X : ℚ) : Cost))
    ∧ ∀ q : ℚ, (q : Cost) ∈ bs → |q| ≤ boundSize u dags.length n M X :=
  (run_steps hA hu hτ hη1 vs _ _ _ (made_run hu hτ hη hM hX hm hd hw hk vs hvs hs hr hl) he).2

theorem sweepOrder_lt {late : Nat → Bool} {numKeys : Nat} : ∀ (loops done : Nat),
    ∀ v ∈ sweepOrder late numKeys loops done, v < numKeys := by
  intro loops
  induction loops with
  | zero => intro done v hv; simp [sweepOrder] at hv
  | succ loops ih =>
    intro done v hv
    unfold sweepOrder at hv
    rcases List.mem_append.1 hv with h | h
    · simp only [forwardVars, List.mem_range] at h; omega
    · split at h
      · exact ih _ v h
      · rcases List.mem_append.1 h with h | h
        · simp only [reverseVars, List.mem_reverse, List.mem_range'_1] at h; omega
        · exact ih _ v h

/-- C84: when the tolerance is larger than what rounding can cost in one round of the main loop, the
sweeps of the solver end by themselves, whatever the clock says: a number of rounds that is enough is
twice the largest possible bound, divided by what a round gains. -/
theorem C84_stops (hA : AccurateArith A F u τ limit) (hu : 0 ≤ u) (hu1 : u < 1) (hτ : 0 ≤ τ)
    (hη : 0 ≤ η) (hη1 : η < 1) (hM : 0 ≤ M) (hX : 0 ≤ X)
    {invalid : Cost} {dags : List (PackedDag × List K × List V)} {weights : Option (List ℚ)}
    {D : DualSystem K V} (hm : makeSystem invalid dags weights = .ok D)
    (hd : ∀ d ∈ dags, GoodDag d) (hw : GoodWeights dags.length weights)
    (hk : ∀ d ∈ dags, d.2.1 ≠ []) (hs : ∀ v < D.data.numKeys, FairShares A D.data v η)
    {tol : ℚ} (htol : 0 ≤ tol) {late : Nat → Bool} {rounds : Nat}
    (hr : RunInRange A F n M X (sweepOrder late D.data.numKeys (rounds + 2) 0) D.data)
    (hl : rangeNeeded u η τ dags.length n M X ≤ limit)
    (hrounds : 2 * boundSize u dags.length n M X
      < rounds * roundGain u η τ tol D.data.numKeys dags.length n M X) :
    ∃ st, Rounded.solve A D.data tol late (rounds + 2) = .ok st := by
  have hlt := sweepOrder_lt (late := late) (numKeys := D.data.numKeys) (rounds + 2) 0
  exact Rnd.sweeps_stop hA hu hu1 hτ hη1 htol
    (made_run hu hτ hη hM hX hm hd hw hk _ hlt (fun v hv => hs v (hlt v hv)) hr hl) hrounds

end

/-! ## A concrete case -/

/-- Two DAGs with one variable each. -/
def apartDags : List (PackedDag × List Nat × List Nat) :=
  [(upPacked, [4], [5]), (upPacked, [6], [5])]

theorem apartDags_good : ∀ d ∈ apartDags, GoodDag d ∧ d.2.1 ≠ [] := by
  intro d hd
  simp only [apartDags, List.mem_cons, List.not_mem_nil, or_false] at hd
  rcases hd with rfl | rfl <;> exact ⟨⟨upPacked_wf, by simp, rfl, rfl⟩, by simp⟩

/-- The system they make. -/
def apartSystem : System where
  subs := [⟨emptyUnpenalizedTable ⊤ upPacked, indexColumn [4, 6] [4], 1⟩,
    ⟨emptyUnpenalizedTable ⊤ upPacked, indexColumn [4, 6] [6], 1⟩]
  extra := fun _ _ => 0
  numKeys := 2
  numValues := 1

theorem apart_made : makeSystem ⊤ apartDags none = .ok ⟨apartSystem, [4, 6], [5]⟩ := by
  have hk : systemKeys apartDags = [4, 6] := by
    have : firstSeen id (apartDags.flatMap fun d => d.2.1) = [4, 6] := by decide
    unfold systemKeys
    rw [this]
    exact List.mergeSort_of_pairwise (by simp)
  unfold apartDags at hk ⊢
  unfold makeSystem
  dsimp only
  rw [if_neg (by simp), hk]
  rfl

/-- One of the two subproblems during a run. -/
structure ApartSub (w : Nat) (s : Sub) : Prop where
  dag : s.memo.dag = upPacked
  weight : s.weight = 1
  index : ∀ v < 2, s.index v = if v = w then some 0 else none
  pen : s.memo.pen 0 0 = 0

theorem ApartSub.charge {w : Nat} {s : Sub} (hw : w < 2) (h : ApartSub w s) :
    s.view.charge w 0 = s.memo.pen 0 0 := by
  unfold View.charge
  change (match s.index w with | none => (0 : Cost) | some k => s.memo.pen k 0) = _
  rw [h.index w hw, if_pos rfl]

theorem apart_marginal {pen : Penalties} (hp : pen 0 0 = 0) {c : Cost}
    (h : Rnd.MarginalOf float64 upPacked pen 0 0 c) : c = ((9007199254740996 : ℚ) : Cost) := by
  have hval : middleCost float64 pen [⟨0, 1, ((9007199254740994 : ℚ) : Cost), none⟩]
      ⟨1, 2, 1, some (0, 0)⟩ [⟨2, 3, 0, none⟩] = ((9007199254740996 : ℚ) : Cost) := by
    have : middleCost float64 pen [⟨0, 1, ((9007199254740994 : ℚ) : Cost), none⟩]
      ⟨1, 2, 1, some (0, 0)⟩ [⟨2, 3, 0, none⟩]
      = middleCost float64 (fun _ _ => 0) [⟨0, 1, ((9007199254740994 : ℚ) : Cost), none⟩]
      ⟨1, 2, 1, some (0, 0)⟩ [⟨2, 3, 0, none⟩] := by
      simp only [middleCost, PackedEdge.penalty, hp]
      rfl
    rw [this]
    decide +kernel
  have split : ∀ y : List PackedEdge × PackedEdge × List PackedEdge,
      Complete upPacked (y.1 ++ y.2.1 :: y.2.2) → y.2.1.req = some (0, 0) →
      y = ([⟨0, 1, ((9007199254740994 : ℚ) : Cost), none⟩], ⟨1, 2, 1, some (0, 0)⟩, [⟨2, 3, 0, none⟩]) := by
    rintro ⟨p, e, q⟩ h1 h2
    rw [upPacked_complete] at h1
    dsimp only at h1 h2
    unfold upPacked at h1
    dsimp only at h1
    rcases p with _ | ⟨a, _ | ⟨b, _ | ⟨c, p⟩⟩⟩
    · simp only [List.nil_append, List.cons.injEq] at h1
      rw [h1.1] at h2; simp at h2
    · simp only [List.cons_append, List.nil_append, List.cons.injEq] at h1
      obtain ⟨rfl, rfl, rfl⟩ := h1
      rfl
    · simp only [List.cons_append, List.nil_append, List.cons.injEq] at h1
      rw [h1.2.2.1] at h2; simp at h2
    · simp at h1
  have hne : c ≤ ((9007199254740996 : ℚ) : Cost) := by
    rw [← hval]
    exact h.le (_, _, _) ⟨(upPacked_complete _).2 rfl, rfl⟩
  rcases h.attained with rfl | ⟨y, ⟨h1, h2⟩, h3⟩
  · exact absurd hne (by rw [top_le_iff]; exact WithTop.coe_ne_top)
  · rw [← h3, split y h1 h2]
    exact hval

theorem apart_penalty : Rounded.newPenalty float64Arith
    (float64Arith.add (Rnd.machineSum float64Arith.toMachine [((9007199254740996 : ℚ) : Cost)]) 0)
    (float64Arith.div 1 ((float64Arith.add ((0 : ℚ) : Cost) ((1 : ℚ) : Cost)).untopD 0))
    ((9007199254740996 : ℚ) : Cost) = 0 := by
  decide +kernel

/-- The system during a run. -/
structure ApartInv (S : System) : Prop where
  ok : ∀ s ∈ S.subs, Rnd.RSubOK float64Arith.toMachine S.numKeys S.numValues s
  subs : ∃ s0 s1, S.subs = [s0, s1] ∧ ApartSub 0 s0 ∧ ApartSub 1 s1
  extra : S.extra = fun _ _ => 0

theorem apart_own {S S' : System} {v : Nat} {b : Cost} {rs st} (hv : v < 2) {s s' : Sub}
    {r : Sub × Option (Nat × (Nat → Cost))} (he : Rnd.Effect float64Arith S v S' b rs st)
    (hx : S.extra = fun _ _ => 0) (hs : ApartSub v s) (hp : participants S v = [s])
    (hc : Rnd.collected 0 rs = ((r.2.map fun q => q.2 0).toList))
    (ho : Rnd.Opened float64Arith.toMachine S.numKeys S.numValues v s r)
    (hcl : Rnd.Closed float64Arith S.numKeys S.numValues v (Rnd.totalAt float64Arith S v st) st.weight s r s') :
    ApartSub v s' := by
  have hk : s.index v = some 0 := by rw [hs.index v hv, if_pos rfl]
  refine ⟨hcl.dag.trans hs.dag, hcl.weight.trans hs.weight, by rw [hcl.index]; exact hs.index, ?_⟩
  obtain ⟨mm, m1, m2, m3⟩ := Rnd.close_penalty hcl ho hk
  have hm0 := m2 0
  rw [hs.dag] at hm0
  have hw0 : Sub.without s v 0 0 = 0 := by
    unfold Sub.without
    rw [if_pos hk]
  have hmm := apart_marginal hw0 hm0
  rw [m3 0, hmm, hs.weight, he.weight, hp]
  unfold Rnd.totalAt
  rw [he.total 0, hc, m1, hx]
  simp only [Option.map_some, Option.toList_some, hmm, List.foldl_cons, List.foldl_nil, hs.weight]
  exact apart_penalty

theorem apart_other {S S' : System} {v w : Nat} {b : Cost} {rs st} (hw : w < 2) (hvw : w ≠ v) {s s' : Sub}
    {r : Sub × Option (Nat × (Nat → Cost))} (he : Rnd.Effect float64Arith S v S' b rs st)
    (hs : ApartSub w s)
    (hcl : Rnd.Closed float64Arith S.numKeys S.numValues v (Rnd.totalAt float64Arith S v st) st.weight s r s') :
    ApartSub w s' := by
  have hi : ∀ v < 2, s'.index v = if v = w then some 0 else none := by rw [hcl.index]; exact hs.index
  refine ⟨hcl.dag.trans hs.dag, hcl.weight.trans hs.weight, hi, ?_⟩
  have h1 := hcl.other w hvw 0
  rw [hs.charge hw, hs.pen] at h1
  unfold View.charge at h1
  change (match s'.index w with | none => (0 : Cost) | some k => s'.memo.pen k 0) = _ at h1
  rw [hi w hw, if_pos rfl] at h1
  exact h1

theorem apart_step {S S' : System} {v : Nat} {b : Cost} (h : ApartInv S) (hv : v < 2)
    (ha : Rounded.average float64Arith S v = some (S', b)) : ApartInv S' := by
  obtain ⟨rs, st, he⟩ := Rnd.effect h.ok ha
  obtain ⟨s0, s1, e1, h0, h1⟩ := h.subs
  have hx := h.extra
  refine ⟨he.ok h.ok, ?_, he.extra.trans hx⟩
  have hs' := he.subs
  have heach := he.each
  rw [e1] at heach
  cases heach with
  | @cons _ r0 _ rs' o0 hrest =>
  cases hrest with
  | @cons _ r1 _ rs'' o1 hnil =>
  cases hnil
  have k0 := h.ok s0 (by rw [e1]; simp)
  have k1 := h.ok s1 (by rw [e1]; simp)
  have c0 := Rnd.averageClose_spec (A := float64Arith) k0.view o0 (Rnd.totalAt float64Arith S v st) st.weight
  have c1 := Rnd.averageClose_spec (A := float64Arith) k1.view o1 (Rnd.totalAt float64Arith S v st) st.weight
  refine ⟨_, _, hs', ?_⟩
  rcases (by omega : v = 0 ∨ v = 1) with rfl | rfl
  · have hr1 := o1.out (by rw [h1.index 0 hv]; rfl)
    refine ⟨apart_own hv he hx h0 ?_ ?_ o0 c0, apart_other (by omega) (by omega) he h1 c1⟩
    · unfold participants
      rw [e1]
      simp [h0.index 0 hv, h1.index 0 hv]
    · unfold Rnd.collected
      rw [List.filterMap_cons, List.filterMap_cons, hr1]
      cases r0.2 <;> rfl
  · have hr0 := o0.out (by rw [h0.index 1 hv]; rfl)
    refine ⟨apart_other (by omega) (by omega) he h0 c0, apart_own hv he hx h1 ?_ ?_ o1 c1⟩
    · unfold participants
      rw [e1]
      simp [h0.index 1 hv, h1.index 1 hv]
    · unfold Rnd.collected
      rw [List.filterMap_cons, List.filterMap_cons, hr0]
      cases r1.2 <;> rfl

theorem apart_range : ∀ (vs : List Nat) (S : System), (∀ v ∈ vs, v < 2) → ApartInv S →
    RunInRange float64Arith IsFloat64 3 9007199254740995 0 vs S := by
  intro vs
  induction vs with
  | nil => intro S _ _; trivial
  | cons v vs ih =>
    intro S hv h
    refine ⟨⟨?_, ?_⟩, ?_⟩
    · obtain ⟨s0, s1, e1, h0, h1⟩ := h.subs
      have one : ∀ w s, ApartSub w s → InRange IsFloat64 s.memo.dag (Sub.without s v) 3 9007199254740995 := by
        intro w s hs
        rw [hs.dag]
        apply upPacked_range
        unfold Sub.without
        split
        · rfl
        · exact hs.pen
      intro s hs
      rw [e1] at hs
      simp only [List.mem_cons, List.not_mem_nil, or_false] at hs
      rcases hs with rfl | rfl
      · exact one _ _ h0
      · exact one _ _ h1
    · intro x c hc
      rw [h.extra] at hc
      rw [← WithTop.coe_inj.1 (show ((0 : ℚ) : Cost) = c from hc)]
      exact ⟨⟨0, 0, by norm_num, by norm_num, by norm_num⟩, by simp⟩
    · rintro ⟨S', b⟩ ha
      exact ih S' (fun w hw => hv w (List.mem_cons_of_mem _ hw)) (apart_step h (hv v (by simp)) ha)

theorem apart_start : ApartInv apartSystem := by
  refine ⟨(made_ready apart_made (fun d hd => (apartDags_good d hd).1) (fun w hw => by cases hw)).1, ?_, rfl⟩
  refine ⟨_, _, rfl, ⟨rfl, rfl, ?_, rfl⟩, ⟨rfl, rfl, ?_, rfl⟩⟩
  · intro v hv
    rcases (by omega : v = 0 ∨ v = 1) with rfl | rfl <;> decide
  · intro v hv
    rcases (by omega : v = 0 ∨ v = 1) with rfl | rfl <;> decide

/-- The hypotheses of `C84_stops` are met by this system, `float64`, a tolerance of 1000, any clock and
`2^56` rounds or more. -/
example (late : Nat → Bool) (rounds : Nat) (h56 : 2 ^ 56 ≤ rounds) :
    AccurateArith float64Arith IsFloat64 (1 / 2 ^ 53) (2 ^ (-1075 : ℤ)) (2 ^ 1023)
    ∧ makeSystem ⊤ apartDags none = .ok ⟨apartSystem, [4, 6], [5]⟩
    ∧ (∀ d ∈ apartDags, GoodDag d ∧ d.2.1 ≠ []) ∧ GoodWeights apartDags.length none
    ∧ (∀ v < apartSystem.numKeys, FairShares float64Arith apartSystem v (1 / 2 ^ 52))
    ∧ RunInRange float64Arith IsFloat64 3 9007199254740995 0
        (sweepOrder late apartSystem.numKeys (rounds + 2) 0) apartSystem
    ∧ rangeNeeded (1 / 2 ^ 53) (1 / 2 ^ 52) (2 ^ (-1075 : ℤ)) apartDags.length 3 9007199254740995 0
      ≤ 2 ^ 1023
    ∧ 2 * boundSize (1 / 2 ^ 53) apartDags.length 3 9007199254740995 0
      < rounds * roundGain (1 / 2 ^ 53) (1 / 2 ^ 52) (2 ^ (-1075 : ℤ)) 1000 apartSystem.numKeys
          apartDags.length 3 9007199254740995 0 := by
  have e : apartDags.length = 2 := rfl
  have ek : apartSystem.numKeys = 2 := rfl
  have ht1 : (2 : ℚ) ^ (-1075 : ℤ) ≤ 1 := zpow_le_one_of_nonpos₀ (by norm_num) (by norm_num)
  refine ⟨C68_float64, apart_made, apartDags_good, (fun w hw => by cases hw), ?_, ?_, ?_, ?_⟩
  · intro v hv
    rw [ek] at hv
    have hp : (participants apartSystem v).length = 1 := by
      rcases (by omega : v = 0 ∨ v = 1) with rfl | rfl <;> rfl
    refine C68_shares ?_ (by rw [hp]; norm_num) (by rw [hp]; norm_num)
    intro s hs
    simp only [apartSystem, List.mem_cons, List.not_mem_nil, or_false] at hs
    rcases hs with rfl | rfl <;> rfl
  · exact apart_range _ _ (sweepOrder_lt _ _) apart_start
  · rw [e]
    unfold rangeNeeded
    have h2 : (2 : ℚ) ^ 60 ≤ 2 ^ 1023 := pow_le_pow_right₀ (by norm_num) (by omega)
    have h3 : 2 * (1 + 1 / 2 ^ 52) * (1 + 1 / 2 ^ 53 : ℚ) ^ (2 * 3 + 2 + 4)
        * (((2 : ℕ) : ℚ) * 9007199254740995 + 0) + 1 ≤ 2 ^ 60 := by norm_num
    exact (add_le_add (le_refl _) ht1).trans (h3.trans h2)
  · rw [e, ek]
    have hgain : 1 ≤ roundGain (1 / 2 ^ 53) (1 / 2 ^ 52) (2 ^ (-1075 : ℤ)) 1000 2 2 3 9007199254740995 0 := by
      unfold roundGain dropError
      generalize (2 : ℚ) ^ (-1075 : ℤ) = t at ht1
      norm_num
      linarith
    have hb : 2 * boundSize (1 / 2 ^ 53) 2 3 9007199254740995 0 < 2 ^ 56 := by
      unfold boundSize
      norm_num
    have h1 : (2 : ℚ) ^ 56 ≤ rounds := by exact_mod_cast h56
    have h2 : (rounds : ℚ) * 1 ≤ rounds * roundGain (1 / 2 ^ 53) (1 / 2 ^ 52) (2 ^ (-1075 : ℤ)) 1000 2 2 3
        9007199254740995 0 := mul_le_mul_of_nonneg_left hgain (Nat.cast_nonneg _)
    linarith

end RUSure.Props
