import Verif.Props.RoundedCommit

/-!
# What partial commitment keeps in machine arithmetic (C88)
-/

namespace RUSure.Props
open RUSure RUSure.Spec RUSure.Lemmas RUSure.Rounded

section
variable {A : Arith} {F : ℚ → Prop} {u limit : ℚ}

/-- The min-marginals of the values of a joint solution. -/
theorem marginal_le {S S' : System} {n v : Nat} {M E : ℚ} {mm : Nat → Cost} {a : Nat → Nat}
    {paths : List (List PackedEdge)} (hA : Accurate A.toMachine F u limit) (hu : 0 ≤ u) (hM : 0 ≤ M)
    (hok : ∀ s ∈ S.subs, Rnd.RSubOK A.toMachine S.numKeys S.numValues s)
    (hr : ∀ s ∈ S.subs, InRange F s.memo.dag s.memo.pen n M)
    (hl : (1 + u) ^ (2 * n + 1 + S.subs.length) * (S.subs.length * M) ≤ limit)
    (h : systemMarginals A S v = some (S', mm)) (hj : Joint S a paths)
    (hE : (List.zipWith (fun s p => pathCost s.memo.pen p) S.subs paths).sum = E) :
    mm (a v)
      ≤ ((E + ((1 + u) ^ (2 * n + 1 + S.subs.length) - 1) * (S.subs.length * M) : ℚ) : Cost) := by
  obtain ⟨-, -, -, -, cs, m1, m2⟩ := marginals_cut hok h
  have hn0 : List.Forall₂ (Rnd.Narrowed [] a) S.subs S.subs :=
    List.forall₂_same.2 fun s _ => Rnd.Narrowed.refl _ s
  have hl' : S.subs ≠ [] → (1 + u) ^ (2 * n) * M ≤ limit := fun h =>
    Rnd.range_pos hu hM hl fun hc => h (List.length_eq_zero_iff.1 hc)
  obtain ⟨rs, es, r1, r2, r3, r4⟩ := Rnd.subCosts_le hA hu hl' (fun s hs => (hok s hs).view) hr hn0 m1
    hj.paths (by rw [hE]; exact WithTop.coe_lt_top _)
  rw [hE, WithTop.coe_inj] at r3
  have hzero : Rnd.Near u (2 * n + 1) 0 0 0 := Rnd.near_self hu _ (by simp)
  obtain ⟨r, s1, s2, s3⟩ := Rnd.sum_near hA hu r2 (le_refl _) hA.zero hzero (by rw [r4, zero_add]; exact hl)
  rw [m2 (a v)]
  refine (Rnd.foldl_mono (le_refl _) r1).trans ?_
  have s2' : (Rnd.coes rs).foldl A.add (0 : Cost) = (r : Cost) := s2
  rw [s2']
  apply WithTop.coe_le_coe.2
  have := (abs_le.1 s3.err).2
  rw [r4, zero_add, zero_add, ← r3] at this
  linarith

theorem Cut.range {S S' : System} (h : Cut S S') {n : Nat} {M : ℚ}
    (hr : ∀ s ∈ S.subs, InRange F s.memo.dag s.memo.pen n M) :
    ∀ s ∈ S'.subs, InRange F s.memo.dag s.memo.pen n M := by
  intro s' hs'
  obtain ⟨s, hs, h1, -, h3⟩ := Rnd.forall₂_mem_right h.subs s' hs'
  have hr := hr s hs
  rw [h1]
  refine ⟨?_, hr.length, ?_⟩
  · intro e he x hx
    rcases hx with hx | hx
    · exact hr.member e he x (.inl hx)
    · rcases Rnd.penalty_either h3 e with h4 | h4
      · rw [h4] at hx; exact hr.member e he x (.inr hx)
      · rw [h4] at hx; exact absurd hx.symm WithTop.coe_ne_top
  · rintro p hp t ⟨l, g1, g2, g3⟩
    refine hr.total p hp t ⟨l, ?_, g2, g3⟩
    rw [← g1]
    refine (Rnd.summands_either h3 p ?_).symm
    intro c hc
    rw [g1] at hc
    obtain ⟨q, -, rfl⟩ := List.mem_map.1 hc
    exact WithTop.coe_lt_top _

theorem views_cost {S S' : System} {paths : List (List PackedEdge)}
    (h : List.Forall₂ (fun s s' : Sub => s'.view = s.view) S.subs S'.subs) :
    List.zipWith (fun s p => pathCost s.memo.pen p) S'.subs paths
      = List.zipWith (fun s p => pathCost s.memo.pen p) S.subs paths := by
  generalize S.subs = ss, S'.subs = ss' at h
  induction h generalizing paths with
  | nil => rfl
  | @cons s s' ss ss' h1 _ ih =>
    cases paths with
    | nil => rfl
    | cons p ps =>
      have e1 : s'.memo.pen = s.memo.pen := congrArg View.pen h1
      simp only [List.zipWith_cons_cons, ih, e1]

/-- Forbidding other values does not change the penalised cost of a joint solution. -/
theorem forbid_path {S : System} {v : Nat} {bad : Nat → Bool} {a : Nat → Nat}
    {paths : List (List PackedEdge)} (hb : bad (a v) = false) (hj : Joint S a paths) :
    List.zipWith (fun s p => pathCost s.memo.pen p) (S.forbid v bad).subs paths
      = List.zipWith (fun s p => pathCost s.memo.pen p) S.subs paths := by
  have h := hj.paths
  clear hj
  unfold System.forbid
  dsimp only
  generalize S.subs = ss at h
  induction h with
  | nil => rfl
  | @cons s p ss ps h1 _ ih =>
    simp only [List.map_cons, List.zipWith_cons_cons, ih]
    congr 1
    cases hk : s.index v with
    | none => rfl
    | some k =>
      apply Rnd.pathCost_congr
      intro k' x hx
      simp only [setPenalties_pen, setPen]
      split
      · rename_i hkk
        subst hkk
        have hxa := h1.2 v _ x hk hx
        subst hxa
        simp [hb]
      · rfl

/-- The loop keeps a joint solution whose costs do not exceed the limit, or if nothing is counted. -/
theorem commit_keeps {gap : Cost} {n : Nat} {M E : ℚ} {a : Nat → Nat}
    {paths : List (List PackedEdge)} (hA : Accurate A.toMachine F u limit) (hu : 0 ≤ u) (hM : 0 ≤ M) :
    ∀ (vs : List Nat) (S S' : System) (b b' : Cost) (c c' : Nat),
    (∀ s ∈ S.subs, Rnd.RSubOK A.toMachine S.numKeys S.numValues s) →
    (∀ s ∈ S.subs, InRange F s.memo.dag s.memo.pen n M) →
    (1 + u) ^ (2 * n + 1 + S.subs.length) * (S.subs.length * M) ≤ limit →
    Joint S a paths → (∀ v ∈ vs, v < S.numKeys) →
    (List.zipWith (fun s p => pathCost s.memo.pen p) S.subs paths).sum = E →
    Rounded.commitLoop A gap vs S b c = some (S', b', c') →
    (((E + ((1 + u) ^ (2 * n + 1 + S.subs.length) - 1) * (S.subs.length * M) : ℚ) : Cost)
        ≤ A.add b gap ∨ c' = c) →
    ∀ v, S'.extra v (a v) = S.extra v (a v) := by
  intro vs
  induction vs with
  | nil =>
    intro S S' b b' c c' _ _ _ _ _ _ h _ v
    simp only [Rounded.commitLoop, Option.some.injEq, Prod.mk.injEq] at h
    rw [← h.1]
  | cons v vs ih =>
    intro S S' b b' c c' hok hr hl hj hvs hE h hk w
    unfold Rounded.commitLoop at h
    split at h
    · cases h
    · rename_i S1 mm h1
      dsimp only at h
      have hle := marginal_le hA hu hM hok hr hl h1 hj hE
      obtain ⟨a1, a2, a3, a4, -⟩ := marginals_cut hok h1
      have hbb : b ≤ if b < arrayMin S.numValues mm then arrayMin S.numValues mm else b := by
        split
        · rename_i hb; exact hb.le
        · exact le_refl _
      generalize hbd : (if b < arrayMin S.numValues mm then arrayMin S.numValues mm else b) = b1 at *
      obtain ⟨b1', b2⟩ := forbid_cut (v := v) (bad := fun x => decide (A.add b1 gap < mm x)) a3
      obtain ⟨-, d2, -, -⟩ := commit_loop _ _ _ _ _ _ _ b2 h
      have hgood : decide (A.add b1 gap < mm (a v)) = false := by
        rw [decide_eq_false_iff_not]
        intro hbad
        rcases hk with hk | hk
        · exact absurd hbad (not_lt.2 (hle.trans (hk.trans (A.mono hbb (le_refl _)))))
        · have : 0 < ((List.range S.numValues).filter fun x =>
              decide (A.add b1 gap < mm x) && decide (mm x < ⊤)).length := by
            apply List.length_pos_of_mem (a := a v)
            rw [List.mem_filter]
            refine ⟨List.mem_range.2 (hj.values v (hvs v (by simp))), ?_⟩
            simp [hbad, hle.trans_lt (WithTop.coe_lt_top _)]
          omega
      have hlen : (S1.forbid v fun x => decide (A.add b1 gap < mm x)).subs.length = S.subs.length :=
        ((a1.trans b1').subs.length_eq).symm
      have hj1 : Joint S1 a paths := a1.tightened.joint.2 hj
      have := ih _ _ _ _ _ _ b2 ((a1.trans b1').range hr) (by rw [hlen]; exact hl)
        (b1'.tightened.joint.2 hj1) (fun w hw => by
          rw [(a1.trans b1').keys]; exact hvs w (List.mem_cons_of_mem _ hw))
        (by rw [forbid_path hgood hj1, views_cost a4]; exact hE) h (by
          rw [hlen]
          rcases hk with hk | hk
          · exact .inl (hk.trans (A.mono hbb (le_refl _)))
          · exact .inr (by omega)) w
      rw [this]
      by_cases hw : w = v
      · subst hw
        have hg := of_decide_eq_false hgood
        simp [System.forbid, hg, a2]
      · simp [System.forbid, hw, a2]

end

theorem foldl_max_ge : ∀ (l : List Cost) (c : Cost), c ≤ l.foldl max c ∧ ∀ x ∈ l, x ≤ l.foldl max c := by
  intro l
  induction l with
  | nil => intro c; simp
  | cons y l ih =>
    intro c
    obtain ⟨h1, h2⟩ := ih (max c y)
    refine ⟨(le_max_left _ _).trans h1, ?_⟩
    intro x hx
    rcases List.mem_cons.1 hx with rfl | hx
    · exact (le_max_right _ _).trans h1
    · exact h2 x hx

theorem foldl_max_mem : ∀ (l : List Cost) (c : Cost), l.foldl max c = c ∨ l.foldl max c ∈ l := by
  intro l
  induction l with
  | nil => intro c; simp
  | cons y l ih =>
    intro c
    rcases ih (max c y) with h | h
    · rw [List.foldl_cons, h]
      rcases max_choice c y with h1 | h1
      · exact .inl h1
      · right; rw [h1]; exact List.mem_cons_self
    · exact .inr (List.mem_cons_of_mem _ h)

theorem costBound_eq {N V : Nat} {agg : Nat → Nat → Cost} {b : Cost}
    (h : LargestOfSmallest N V agg b) : costBound N V agg = b := by
  obtain ⟨⟨v, hv, h1⟩, h2⟩ := h
  have hmem : ∀ w < N, arrayMin V (agg w) ≤ b := by
    intro w hw
    obtain ⟨x, hx, h3⟩ := h2 w hw
    exact (arrayMin_le V _ x hx).trans h3
  apply le_antisymm
  · have hall : ∀ c ∈ (List.range N).map (fun v => arrayMin V (agg v)), c ≤ b := by
      intro c hc
      obtain ⟨w, hw, rfl⟩ := List.mem_map.1 hc
      exact hmem w (List.mem_range.1 hw)
    unfold costBound
    rcases foldl_max_mem ((List.range N).map fun v => arrayMin V (agg v))
      (((List.range N).map fun v => arrayMin V (agg v)).headD 0) with h3 | h3
    · dsimp only
      rw [h3]
      cases hl : (List.range N).map fun v => arrayMin V (agg v) with
      | nil =>
        have : N = 0 := by simpa using congrArg List.length hl
        omega
      | cons c l => exact hall c (by rw [hl]; exact List.mem_cons_self)
    · exact hall _ h3
  · refine le_trans ?_ ((foldl_max_ge _ _).2 (arrayMin V (agg v))
      (List.mem_map.2 ⟨v, List.mem_range.2 hv, rfl⟩))
    rcases arrayMin_attained V (agg v) with h3 | ⟨x, hx, h3⟩
    · rw [h3]; exact le_top
    · rw [h3]; exact h1 x hx

/-! ## The theorems -/

section
variable {K V : Type} [LinearOrder K] [DecidableEq V] {A : Arith} {invalid : Cost}
  {dags : List (PackedDag × List K × List V)} {weights : Option (List ℚ)} {D : DualSystem K V}

/-- C88: partial commitment in any machine arithmetic, after averaging any variables in any order in a
new system, never makes a joint solution cheaper and never adds or removes one: it only forbids
values. -/
theorem C88_only_forbids (hm : makeSystem invalid dags weights = .ok D)
    (hd : ∀ d ∈ dags, GoodDag d) (hw : GoodWeights dags.length weights) (vs : List Nat)
    {S : System} {bs : List Cost} (he : averages A vs D.data = some (S, bs)) (dir : Direction)
    (quantile : (Nat → Nat → Cost) → Quantile) (strictness epsilon : ℚ) (S' : System)
    (status : CommitStatus)
    (hc : Rounded.partiallyCommit A S dir quantile strictness epsilon = some (S', status)) :
    (∀ v x, S'.extra v x = S.extra v x ∨ S'.extra v x = ⊤)
    ∧ (∀ a paths, Joint S' a paths ↔ Joint S a paths)
    ∧ (∀ a paths, jointCost S a paths ≤ jointCost S' a paths)
    ∧ (status = .needsGreedyExtract → S'.extra = S.extra) := by
  obtain ⟨-, hok⟩ := Rnd.run_same vs _ _ _ (made_ready hm hd hw).1 he
  obtain ⟨-, S1, agg, h1, h2⟩ := commit_cases hc
  obtain ⟨c1, c2, c3, -⟩ := collect_spec _ _ _ _ _ hok h1
  rcases h2 with ⟨rfl, rfl⟩ | ⟨gap, b', c', -, h3, h4, -⟩
  · exact ⟨c1.extra, fun a p => c1.tightened.joint, c1.tightened.cost_le, fun _ => c2⟩
  · have h5 := c1.trans (commit_loop _ _ _ _ _ _ _ c3 h3).1
    refine ⟨h5.extra, fun a p => h5.tightened.joint, h5.tightened.cost_le, ?_⟩
    intro hs
    rw [h4] at hs
    split at hs <;> cases hs

/-- C88: every variable keeps a value that is not newly forbidden, however the costs are rounded. -/
theorem C88_keeps_value (hF : FaithfulArith A) (hm : makeSystem invalid dags weights = .ok D)
    (hd : ∀ d ∈ dags, GoodDag d) (hw : GoodWeights dags.length weights) (vs : List Nat)
    {S : System} {bs : List Cost} (he : averages A vs D.data = some (S, bs)) (dir : Direction)
    (quantile : (Nat → Nat → Cost) → Quantile) (strictness epsilon : ℚ) (hs : 0 ≤ strictness)
    (S' : System) (status : CommitStatus)
    (hc : Rounded.partiallyCommit A S dir quantile strictness epsilon = some (S', status))
    (h0 : S.numValues ≠ 0) (v : Nat) (hv : v < S.numKeys) :
    ∃ x < S.numValues, S'.extra v x = S.extra v x := by
  obtain ⟨-, hok⟩ := Rnd.run_same vs _ _ _ (made_ready hm hd hw).1 he
  obtain ⟨-, S1, agg, h1, h2⟩ := commit_cases hc
  obtain ⟨c1, c2, c3, -⟩ := collect_spec _ _ _ _ _ hok h1
  rcases h2 with ⟨rfl, rfl⟩ | ⟨gap, b', c', hg, h3, -, -⟩
  · exact ⟨0, Nat.pos_of_ne_zero h0, by rw [c2]⟩
  · obtain ⟨x, hx, h4⟩ := (commit_loop _ _ _ _ _ _ _ c3 h3).2.2.2 hF (hF.share _ _ hg hs)
      (by rw [c1.values]; exact h0) (order_nodup _ dir) v ((mem_order dir).2 hv)
    exact ⟨x, by rw [← c1.values]; exact hx, by rw [h4, c2]⟩

/-- C88: partial commitment does not fail if there are variables and every subproblem has one. -/
theorem C88_defined (hm : makeSystem invalid dags weights = .ok D)
    (hd : ∀ d ∈ dags, GoodDag d) (hw : GoodWeights dags.length weights) (vs : List Nat)
    {S : System} {bs : List Cost} (he : averages A vs D.data = some (S, bs))
    (hpos : ∀ s ∈ S.subs, 0 < s.memo.dag.numKeys) (h0 : S.numKeys ≠ 0) (dir : Direction)
    (quantile : (Nat → Nat → Cost) → Quantile) (strictness epsilon : ℚ) :
    ∃ r, Rounded.partiallyCommit A S dir quantile strictness epsilon = some r := by
  obtain ⟨-, hok⟩ := Rnd.run_same vs _ _ _ (made_ready hm hd hw).1 he
  have hmarg : ∀ (T : System) (v : Nat),
      (∀ s ∈ T.subs, Rnd.RSubOK A.toMachine T.numKeys T.numValues s) →
      (∀ s ∈ T.subs, 0 < s.memo.dag.numKeys) → ∃ r, systemMarginals A T v = some r := by
    intro T v h1 h2
    obtain ⟨r, hr⟩ := Rnd.marginalsLoop_some v T.subs (fun _ => 0) fun s hs => ⟨h1 s hs, h2 s hs⟩
    exact ⟨_, by unfold systemMarginals; rw [hr]; rfl⟩
  have hcut : ∀ {T T' : System}, Cut T T' → (∀ s ∈ T.subs, 0 < s.memo.dag.numKeys) →
      ∀ s ∈ T'.subs, 0 < s.memo.dag.numKeys := by
    intro T T' h h2 s hs
    obtain ⟨s0, hs0, e1, -⟩ := Rnd.forall₂_mem_right h.subs s hs
    rw [e1]; exact h2 s0 hs0
  have hcollect : ∀ (ws : List Nat) (T : System) (agg : Nat → Nat → Cost),
      (∀ s ∈ T.subs, Rnd.RSubOK A.toMachine T.numKeys T.numValues s) →
      (∀ s ∈ T.subs, 0 < s.memo.dag.numKeys) →
      ∃ r, Rounded.collectMarginals A ws T agg = some r := by
    intro ws
    induction ws with
    | nil => intro T agg _ _; exact ⟨_, rfl⟩
    | cons w ws ih =>
      intro T agg h1 h2
      obtain ⟨⟨T', mm⟩, hr⟩ := hmarg T w h1 h2
      obtain ⟨a1, -, a3, -, -⟩ := marginals_cut h1 hr
      unfold Rounded.collectMarginals
      rw [hr]
      exact ih _ _ a3 (hcut a1 h2)
  have hloop : ∀ (gap : Cost) (ws : List Nat) (T : System) (b : Cost) (c : Nat),
      (∀ s ∈ T.subs, Rnd.RSubOK A.toMachine T.numKeys T.numValues s) →
      (∀ s ∈ T.subs, 0 < s.memo.dag.numKeys) →
      ∃ r, Rounded.commitLoop A gap ws T b c = some r := by
    intro gap ws
    induction ws with
    | nil => intro T b c _ _; exact ⟨_, rfl⟩
    | cons w ws ih =>
      intro T b c h1 h2
      obtain ⟨⟨T', mm⟩, hr⟩ := hmarg T w h1 h2
      obtain ⟨a1, -, a3, -, -⟩ := marginals_cut h1 hr
      unfold Rounded.commitLoop
      rw [hr]
      obtain ⟨b1, b2⟩ := forbid_cut (v := w) (bad := fun x => decide (A.add
        (if b < arrayMin T.numValues mm then arrayMin T.numValues mm else b) gap < mm x)) a3
      exact ih _ _ _ b2 (hcut (a1.trans b1) h2)
  obtain ⟨⟨S1, agg⟩, h1⟩ := hcollect (dir.order S.numKeys) S (fun _ _ => 0) hok hpos
  obtain ⟨c1, -, c3, -⟩ := collect_spec _ _ _ _ _ hok h1
  have hl := fun gap b => hloop gap (dir.order S.numKeys) S1 b 0 c3 (hcut c1 hpos)
  unfold Rounded.partiallyCommit
  rw [if_neg h0, h1]
  dsimp only
  cases quantile agg with
  | negInf => exact ⟨_, rfl⟩
  | nan =>
    obtain ⟨r, hr⟩ := hl (A.mul 0 strictness) (costBound S.numKeys S.numValues agg)
    exact ⟨_, by dsimp only; rw [hr]; rfl⟩
  | val q =>
    dsimp only
    split
    · exact ⟨_, rfl⟩
    · obtain ⟨r, hr⟩ := hl (A.mul (max 0 (A.add (q : Cost)
        (negate (costBound S.numKeys S.numValues agg)))) strictness)
        (costBound S.numKeys S.numValues agg)
      exact ⟨_, by rw [hr]; rfl⟩

/-- C88: with an arithmetic of relative error `u`, a joint solution keeps its cost if this cost, with
the error of greedy extraction added, does not exceed `bound + max (0, q - bound) * strictness`, where
`q` is the quantile and `bound` the largest of the smallest min-marginals; and every joint solution of
finite cost keeps it unless a partial assignment is reported. -/
theorem C88_keeps {F : ℚ → Prop} {u τ η limit : ℚ} (hA : AccurateArith A F u τ limit) (hu : 0 ≤ u)
    (hτ : 0 ≤ τ) (hη : 0 ≤ η)
    (hm : makeSystem invalid dags weights = .ok D)
    (hd : ∀ d ∈ dags, GoodDag d) (hw : GoodWeights dags.length weights)
    {n : Nat} {M X M' : ℚ} (hM : 0 ≤ M) (hX : 0 ≤ X) (hM' : 0 ≤ M')
    (vs : List Nat) (hvs : ∀ v ∈ vs, v < D.data.numKeys)
    (hs : ∀ v ∈ vs, FairShares A D.data v η) (hr : RunInRange A F n M X vs D.data)
    (hl : rangeNeeded u η τ dags.length n M X ≤ limit)
    {S : System} {bs : List Cost} (he : averages A vs D.data = some (S, bs))
    (hr' : ∀ s ∈ S.subs, InRange F s.memo.dag s.memo.pen n M')
    (hl' : (1 + u) ^ (2 * n + 1 + dags.length) * (dags.length * M') ≤ limit)
    (dir : Direction) (quantile : (Nat → Nat → Cost) → Quantile) (strictness epsilon : ℚ)
    (S' : System) (status : CommitStatus)
    (hc : Rounded.partiallyCommit A S dir quantile strictness epsilon = some (S', status))
    (a : Nat → Nat) (paths : List (List PackedEdge)) (hj : Joint D.data a paths) (J : ℚ)
    (hJ : jointCost D.data a paths = J)
    (hkeep : status ≠ .madePartialAssignment
      ∨ ∃ S1 agg bound q,
        Rounded.collectMarginals A (dir.order S.numKeys) S (fun _ _ => 0) = some (S1, agg)
        ∧ LargestOfSmallest S.numKeys S.numValues agg bound ∧ quantile agg = .val q
        ∧ ((J + extractError u η τ dags.length D.data.numKeys n M X M' : ℚ) : Cost)
          ≤ commitLimit A bound q strictness) :
    jointCost S' a paths = J := by
  obtain ⟨h1, h2⟩ := made_ready (A := A) hm hd hw
  have hlen : D.data.subs.length = dags.length := by
    rw [(makeSystem_ok hm).2.2.2.2.2.2]; simp
  obtain ⟨hsame, hok⟩ := Rnd.run_same vs _ _ _ h1 he
  have hlen' : S.subs.length = dags.length := by rw [← hsame.subs.length_eq, hlen]
  have himb : 0 ≤ imbalance u η τ dags.length n M X :=
    Rnd.imbalance_nonneg hu hη hτ (mul_nonneg (Nat.cast_nonneg _) hM) hX
  have hjS := hsame.joint.2 hj
  have hJS := (hsame.cost a paths).trans hJ
  obtain ⟨E, e1, e2⟩ : ∃ E : ℚ, (List.zipWith (fun s p => pathCost s.memo.pen p) S.subs paths).sum = E
      ∧ |E - J| ≤ D.data.numKeys * imbalance u η τ dags.length n M X := by
    have hb := Rnd.run_bal hA hu hτ vs _ _ _ h1 hj hJ (fun w _ => by
      obtain ⟨q, e, b1, b2, b3⟩ := h2 a w
      exact ⟨q, e, b1, b2, b3.trans (by rw [hlen]; exact himb)⟩)
      (fun v hv => ⟨hvs v hv, hs v hv⟩) hr (by rw [hlen]; exact hl) he
    rw [hlen] at hb
    have := Rnd.joint_near hok hjS hJS hb
    rwa [hsame.keys] at this
  obtain ⟨-, S1, agg, k1, k2⟩ := commit_cases hc
  obtain ⟨c1, c2, c3, c4⟩ := collect_spec _ _ _ _ _ hok k1
  rw [← hJS]
  suffices h : ∀ v, S'.extra v (a v) = S.extra v (a v) ∧ S'.numKeys = S.numKeys by
    unfold jointCost
    rw [(h 0).2]
    congr 2
    exact List.map_congr_left fun v _ => (h v).1
  rcases k2 with ⟨rfl, rfl⟩ | ⟨gap, b', c', hg, k3, k4, k5⟩
  · exact fun v => ⟨by rw [c2], c1.keys⟩
  · intro v
    refine ⟨?_, (commit_loop _ _ _ _ _ _ _ c3 k3).1.keys.trans c1.keys⟩
    rw [← c2]
    have hlen1 : S1.subs.length = dags.length := by rw [← c1.subs.length_eq, hlen']
    refine commit_keeps hA.sums hu hM' _ _ _ _ _ _ _ c3 (c1.range hr')
      (by rw [hlen1]; exact hl') (c1.tightened.joint.2 hjS)
      (fun w hw => by rw [c1.keys]; exact (mem_order dir).1 hw) (by rw [views_cost c4]; exact e1) k3 ?_ v
    rw [hlen1]
    rcases hkeep with hn | ⟨S2, agg2, bound, q, g1, g2, g3, g4⟩
    · right
      by_contra hne
      rw [k4, if_neg hne] at hn
      exact hn rfl
    · left
      rw [k1] at g1
      simp only [Option.some.injEq, Prod.mk.injEq] at g1
      obtain ⟨rfl, rfl⟩ := g1
      rw [costBound_eq g2, k5 q g3, costBound_eq g2]
      refine le_trans (WithTop.coe_le_coe.2 ?_) g4
      have := (abs_le.1 e2).2
      unfold extractError
      linarith

end

end RUSure.Props
