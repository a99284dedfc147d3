import Verif.Lemmas.RoundedDrop
import Verif.Spec.RoundedStops

/-! # Averaging in machine arithmetic: consecutive bounds -/

namespace RUSure.Lemmas.Rnd
open RUSure RUSure.Spec RUSure.Lemmas RUSure.Rounded

variable {A : Arith} {F : ℚ → Prop} {u τ η limit : ℚ}
  {S S' : System} {v : Nat} {b : Cost} {rs : List (Sub × Option (Nat × (Nat → Cost)))}
  {st : AverageState}

theorem setPen_self (pen : Penalties) (k : Nat) : setPen pen k (pen k) = pen := by
  funext k'
  unfold setPen
  split
  · rename_i h; rw [h]
  · rfl

/-- The cost of a path is its cost without a variable, plus the charge for its value. -/
theorem path_with {N V : Nat} {s : Sub} (hv : ViewOK N V s.view) {w k x : Nat}
    (hk : s.index w = some k) {p : List PackedEdge} (hp : Complete s.memo.dag p)
    (hx : (k, x) ∈ assignments p) :
    pathCost s.memo.pen p = pathCost (Sub.without s w) p + s.memo.pen k x := by
  have h := pathCost_setPen (d := s.memo.dag) hv.wf hp s.memo.pen hx (s.memo.pen k)
  rw [setPen_self] at h
  rw [without_some hk, h]

/-- The part of the costs that belongs to subproblems not using the variable. -/
def SkipQ (v : Nat) (s : Sub) (q : ℚ) : Prop :=
  (∀ k, s.index v = some k → q = 0)
  ∧ (s.index v = none → ∃ p, Complete s.memo.dag p ∧ pathCost s.memo.pen p = q)

/-- The part of the costs that belongs to subproblems using the variable. -/
def PartQ (A : Arith) (v V : Nat) (total : Nat → Cost) (W : ℚ) (s : Sub) (q : ℚ) : Prop :=
  (s.index v = none → q = 0)
  ∧ ∀ k, s.index v = some k → ∃ p y mm, ∃ c r : ℚ, Complete s.memo.dag p ∧ (k, y) ∈ assignments p
    ∧ y < V ∧ pathCost (Sub.without s v) p = c
    ∧ MarginalOf A.toMachine s.memo.dag (Sub.without s v) k y mm
    ∧ Rounded.newPenalty A (total y) (A.div s.weight W) mm = r ∧ q = c + r

theorem split_costs (h : Effect A S v S' b rs st)
    (hok : ∀ s ∈ S.subs, RSubOK A.toMachine S.numKeys S.numValues s)
    {paths : List (List PackedEdge)}
    (hp : List.Forall₂ (fun (s : Sub) p => Complete s.memo.dag p ∧ pathCost s.memo.pen p < ⊤) S'.subs
      paths) :
    ∃ qs qs' : List ℚ,
      (List.zipWith (fun (s : Sub) p => pathCost s.memo.pen p) S'.subs paths).sum
        = ((qs.sum + qs'.sum : ℚ) : Cost)
      ∧ List.Forall₂ (SkipQ v) S.subs qs
      ∧ List.Forall₂ (PartQ A v S.numValues (totalAt A S v st) st.weight) S.subs qs' := by
  have hcl := h.closed hok
  generalize S'.subs = ss' at *
  generalize S.subs = ss at *
  induction hcl generalizing paths with
  | nil => cases hp; exact ⟨[], [], by simp, .nil, .nil⟩
  | @cons s s' ss ss' h1 _ ih =>
    cases hp with
    | @cons _ p _ paths hp1 hp =>
    obtain ⟨qs, qs', i1, i2, i3⟩ := ih hp (fun s' hs' => hok s' (List.mem_cons_of_mem _ hs'))
    obtain ⟨r, hop, -, hc⟩ := h1
    obtain ⟨hpc, hfin⟩ := hp1
    have hv := (hok s (by simp)).view
    have hpc0 : Complete s.memo.dag p := by rw [← hc.dag]; exact hpc
    have hv' := hc.ok.view
    rw [List.zipWith_cons_cons, List.sum_cons, i1]
    cases hk : s.index v with
    | none =>
      have hk' : s'.index v = none := by rw [hc.index]; exact hk
      have e1 : pathCost s'.memo.pen p = pathCost s.memo.pen p := by
        rw [← without_none hk', ← without_none hk]
        exact close_without_path hv hc hpc0
      obtain ⟨q, hq⟩ := WithTop.ne_top_iff_exists.1 (ne_of_lt hfin)
      refine ⟨q :: qs, 0 :: qs', ?_, .cons ⟨?_, ?_⟩ i2, .cons ⟨fun _ => rfl, ?_⟩ i3⟩
      · rw [← hq, ← WithTop.coe_add, List.sum_cons, List.sum_cons]
        congr 1
        ring
      · intro k h; rw [hk] at h; cases h
      · intro _
        exact ⟨p, hpc0, by rw [← e1]; exact hq.symm⟩
      · intro k h; rw [hk] at h; cases h
    | some k =>
      have hk' : s'.index v = some k := by rw [hc.index]; exact hk
      obtain ⟨y, hy, hpy⟩ := complete_value hv.wf hpc0 (hv.lt v k hk).2
      obtain ⟨mm, -, m2, m3⟩ := close_penalty hc hop hk
      have e1 := path_with hv' hk' hpc hpy
      rw [close_without_path hv hc hpc0] at e1
      rw [e1] at hfin
      obtain ⟨f1, f2⟩ := WithTop.add_lt_top.1 hfin
      obtain ⟨c, hc1⟩ := WithTop.ne_top_iff_exists.1 (ne_of_lt f1)
      obtain ⟨z, hz⟩ := WithTop.ne_top_iff_exists.1 (ne_of_lt f2)
      refine ⟨0 :: qs, (c + z) :: qs', ?_, .cons ⟨fun _ _ => rfl, ?_⟩ i2, .cons ⟨?_, ?_⟩ i3⟩
      · rw [e1, ← hc1, ← hz, ← WithTop.coe_add, ← WithTop.coe_add, List.sum_cons, List.sum_cons]
        congr 1
        ring
      · intro h; rw [hk] at h; cases h
      · intro h; rw [hk] at h; cases h
      · intro k1 h
        rw [hk] at h
        obtain rfl : k = k1 := by simpa using h
        refine ⟨p, y, mm y, c, z, hpc0, hpy, ?_, hc1.symm, m2 y, ?_, rfl⟩
        · have hvv : s.memo.dag.numValues = S.numValues := hv.values
          rw [← hvv]; exact hy
        · rw [← m3 y]; exact hz.symm

/-- The minimal costs added up for subproblems not using the variable. -/
theorem averageOpen_skipped (hA : Accurate A.toMachine F u limit) (hu : 0 ≤ u) {n N V : Nat} {M : ℚ}
    (hM : 0 ≤ M) (v : Nat) : ∀ (ss : List Sub) (qs : List ℚ) (st : AverageState)
    (rs : List (Sub × Option (Nat × (Nat → Cost)))) (st' : AverageState) (k : Nat)
    (g Y T : ℚ), (∀ s ∈ ss, RSubOK A.toMachine N V s) →
    (∀ s ∈ ss, InRange F s.memo.dag (Sub.without s v) n M) → List.Forall₂ (SkipQ v) ss qs →
    Rounded.averageOpen A v ss st = some (rs, st') → st.skipped ≤ g → F g → Near u k g Y T →
    2 * n + 1 ≤ k → (1 + u) ^ (k + ss.length) * (T + ss.length * M) ≤ limit →
    ∃ g' : ℚ, st'.skipped ≤ g' ∧ F g' ∧ Near u (k + ss.length) g' (Y + qs.sum) (T + ss.length * M) := by
  intro ss
  induction ss with
  | nil =>
    intro qs st rs st' k g Y T _ _ hq h hg g0 gn _ _
    cases hq
    simp only [Rounded.averageOpen, Option.some.injEq, Prod.mk.injEq] at h
    obtain ⟨rfl, rfl⟩ := h
    exact ⟨g, hg, g0, by simpa using gn⟩
  | cons s ss ih =>
    intro qs st rs st' k g Y T hok hr hq h hg g0 gn hnk hl
    cases hq with
    | @cons _ q _ qs hq1 hq =>
    have hs := hok s (by simp)
    have hrs := hr s (by simp)
    have hok' := fun s' hs' => hok s' (List.mem_cons_of_mem _ hs')
    have hr' := fun s' hs' => hr s' (List.mem_cons_of_mem _ hs')
    have hlen : ((s :: ss).length : ℚ) = ss.length + 1 := by simp
    have hk1 : k + (s :: ss).length = k + 1 + ss.length := by simp; omega
    rw [hlen, hk1] at hl
    rw [hlen, hk1]
    have hT := gn.size
    have hsM : 0 ≤ (ss.length : ℚ) * M := mul_nonneg (by positivity) hM
    have hPk := one_le_pow_u hu k
    have q1 := pow_mono hu (show k ≤ k + 1 + ss.length by omega)
    have q2 := pow_mono hu (show 2 * n ≤ k + 1 + ss.length by omega)
    have hl1 : (1 + u) ^ (2 * n) * M ≤ limit :=
      le_trans (mul_le_mul q2 (by linarith) hM (by linarith)) hl
    have hl' : (1 + u) ^ (k + 1 + ss.length) * (T + M + ss.length * M) ≤ limit := by
      refine le_trans (le_of_eq ?_) hl
      ring
    have es : T + (ss.length + 1) * M = T + M + ss.length * M := by ring
    rw [es, List.sum_cons]
    unfold Rounded.averageOpen at h
    cases hk : s.index v with
    | none =>
      simp only [hk] at h
      split at h
      · cases h
      · rename_i m c hc
        split at h
        · cases h
        · rename_i rs1 st1 hl2
          simp only [Option.some.injEq, Prod.mk.injEq] at h
          obtain ⟨rfl, rfl⟩ := h
          obtain ⟨-, -, h3⟩ := rsub_skip hs hc
          rw [without_none hk] at hrs
          obtain ⟨p, hp, hpq⟩ := hq1.2 hk
          obtain ⟨r, e, r1, r2, r3, r4⟩ := skip_bound hA hu hs.view.wf hrs hl1 hp
            (by rw [hpq]; exact WithTop.coe_lt_top _) h3
          rw [hpq, WithTop.coe_inj] at r3
          subst r3
          obtain ⟨g', k0, k1, k2⟩ := Near.add hA hu g0 r2 gn (r4.weaken hu hnk (le_refl _))
            (le_trans (mul_le_mul q1 (show T + M ≤ T + (ss.length + 1) * M by linarith)
              (by linarith) (by linarith)) hl)
          obtain ⟨g'', a4, a5, a6⟩ :=
            ih qs _ _ _ (k + 1) g' (Y + q) (T + M) hok' hr' hq hl2 (by
                rw [← k1]; exact A.mono hg r1) k0 k2 (by omega) hl'
          exact ⟨g'', a4, a5, by rw [← add_assoc]; exact a6⟩
    | some kv =>
      simp only [hk] at h
      split at h
      · cases h
      · rename_i m mm hc
        split at h
        · cases h
        · rename_i rs1 st1 hl2
          simp only [Option.some.injEq, Prod.mk.injEq] at h
          obtain ⟨rfl, rfl⟩ := h
          rw [hq1.1 kv hk, zero_add]
          exact ih qs _ _ _ (k + 1) g Y (T + M) hok' hr' hq hl2 hg g0
            (gn.weaken hu (by omega) (by linarith)) (by omega) hl'

/-- The charges of the subproblems using the variable. -/
theorem part_sum {V : Nat} {total : Nat → Cost} {W c err : ℚ} (herr : 0 ≤ err) :
    ∀ (ss : List Sub) (qs : List ℚ), List.Forall₂ (PartQ A v V total W) ss qs →
    (∀ s ∈ ss, ∀ q, PartQ A v V total W s q → (s.index v).isSome → c * A.div s.weight W - err ≤ q) →
    c * ((ss.filter fun s => (s.index v).isSome).map fun s => A.div s.weight W).sum
      - ss.length * err ≤ qs.sum := by
  intro ss
  induction ss with
  | nil => intro qs h _; cases h; simp
  | cons s ss ih =>
    intro qs h hb
    cases h with
    | @cons _ q _ qs h1 h =>
    have i := ih qs h fun s' hs' => hb s' (List.mem_cons_of_mem _ hs')
    rw [List.sum_cons, List.length_cons]
    push_cast
    cases hk : s.index v with
    | none =>
      have hf : (s :: ss).filter (fun s => (s.index v).isSome)
          = ss.filter fun s => (s.index v).isSome := by simp [hk]
      rw [hf, h1.1 hk]
      linarith
    | some k =>
      have hf : (s :: ss).filter (fun s => (s.index v).isSome)
          = s :: ss.filter fun s => (s.index v).isSome := by simp [hk]
      rw [hf, List.map_cons, List.sum_cons]
      have := hb s (by simp) q h1 (by rw [hk]; rfl)
      linarith

/-- Room for two numbers of the size of a total. -/
theorem room_two (hu : 0 ≤ u) (hη : 0 ≤ η) {R T : ℚ} (hB0 : 0 ≤ R * T) :
    (1 + u) * ((1 + η) * (R * T)) + R * T ≤ 2 * (1 + η) * (R * (1 + u) * (1 + u)) * T := by
  have h2 : R * T ≤ (1 + η) * (R * T) := le_mul_of_one_le_left hB0 (by linarith)
  have h3 : (1 + η) * (R * T) ≤ (1 + u) * ((1 + η) * (R * T)) :=
    le_mul_of_one_le_left (by linarith) (by linarith)
  have h4 : (1 + u) * ((1 + η) * (R * T)) ≤ (1 + u) * ((1 + u) * ((1 + η) * (R * T))) :=
    le_mul_of_one_le_left (by linarith) (by linarith)
  have e5 : 2 * (1 + η) * (R * (1 + u) * (1 + u)) * T
      = 2 * ((1 + u) * ((1 + u) * ((1 + η) * (R * T)))) := by ring
  rw [e5]
  linarith

/-- The parts of the error. -/
theorem error_parts (hu : 0 ≤ u) (hη : 0 ≤ η) {R P2 T B : ℚ} (hR : 1 ≤ R) (hP : P2 ≤ R) (hB : 0 ≤ B)
    (hBT : B ≤ T) :
    R * T * ((1 + η) * (1 + u) ^ 2 - 1 + u) ≤ ((1 + η) * (R * (1 + u) * (1 + u) * (1 + u)) - 1) * T
    ∧ (R - 1 + u * R) * B ≤ ((1 + η) * (R * (1 + u) * (1 + u) * (1 + u)) - 1) * T
    ∧ (P2 - 1) * B ≤ ((1 + η) * (R * (1 + u) * (1 + u) * (1 + u)) - 1) * T := by
  have hT : 0 ≤ T := hB.trans hBT
  have hRu : R ≤ R * (1 + u) := le_mul_of_one_le_right (by linarith) (by linarith)
  have hRu2 : R * (1 + u) ≤ R * (1 + u) * (1 + u) := le_mul_of_one_le_right (by linarith) (by linarith)
  have hRu3 : R * (1 + u) * (1 + u) ≤ R * (1 + u) * (1 + u) * (1 + u) :=
    le_mul_of_one_le_right (by linarith) (by linarith)
  have hRP : R * (1 + u) * (1 + u) * (1 + u) ≤ (1 + η) * (R * (1 + u) * (1 + u) * (1 + u)) :=
    le_mul_of_one_le_left (by linarith) (by linarith)
  refine ⟨?_, ?_, ?_⟩
  · have e : ((1 + η) * (R * (1 + u) * (1 + u) * (1 + u)) - 1) * T
        - R * T * ((1 + η) * (1 + u) ^ 2 - 1 + u)
        = T * ((R - 1) + R * u * ((1 + η) * (1 + u) ^ 2 - 1)) := by ring
    have h1 : 1 ≤ (1 + η) * (1 + u) ^ 2 := by
      have := one_le_pow_u hu 2
      have h2 : (1 + u) ^ 2 ≤ (1 + η) * (1 + u) ^ 2 := le_mul_of_one_le_left (by linarith) (by linarith)
      linarith
    have : 0 ≤ T * ((R - 1) + R * u * ((1 + η) * (1 + u) ^ 2 - 1)) :=
      mul_nonneg hT (add_nonneg (by linarith) (mul_nonneg (mul_nonneg (by linarith) hu) (by linarith)))
    linarith
  · exact mul_le_mul (by linarith) hBT hB (by linarith)
  · exact mul_le_mul (by linarith) hBT hB (by linarith)

/-- The sum of the shares. -/
theorem share_parts {T0 Z σ w : ℚ} (hT0 : |T0| ≤ Z) (hσ : |σ - 1| ≤ η) (hw : 0 ≤ w) :
    T0 - Z * η - Z * w * (1 + η) ≤ (T0 - Z * w) * σ := by
  have hZ : 0 ≤ Z := (abs_nonneg _).trans hT0
  have s1 := abs_le.1 hσ
  have h1 : |T0 * (σ - 1)| ≤ Z * η := by
    rw [abs_mul]
    exact mul_le_mul hT0 hσ (abs_nonneg _) hZ
  have h2 := (abs_le.1 h1).1
  have h3 : Z * w * σ ≤ Z * w * (1 + η) :=
    mul_le_mul_of_nonneg_left (by linarith) (mul_nonneg hZ hw)
  linarith

/-- The cost of one subproblem using the variable, from below. -/
theorem part_lower (hA : AccurateArith A F u τ limit) (hu : 0 ≤ u) (hτ : 0 ≤ τ) (hη1 : η < 1)
    {n : Nat} {M X : ℚ} (g : StepGood A F u τ η limit S v n M X) (h : Effect A S v S' b rs st)
    {s : Sub} (hs : s ∈ S.subs) {q : ℚ}
    (hq : PartQ A v S.numValues (totalAt A S v st) st.weight s q) (hsome : (s.index v).isSome) :
    0 ≤ M ∧ ∃ T0 : ℚ, arrayMin S.numValues (totalAt A S v st) = T0 ∧ F T0
      ∧ |T0| ≤ (1 + u) ^ (2 * n + S.subs.length + 2) * (S.subs.length * M + X)
      ∧ (T0 - (1 + u) ^ (2 * n + S.subs.length + 2) * (S.subs.length * M + X) * (2 * u + u ^ 2))
          * A.div s.weight st.weight
        - (((1 + u) ^ (2 * n + 2) - 1) * M + τ * (1 + u)) ≤ q := by
  have hη := g.eta
  have hX := g.sizeX
  obtain ⟨k, hk⟩ := Option.isSome_iff_exists.1 hsome
  obtain ⟨p, y, mm, c, r, hp, hpy, hy, hc, hm, hr, rfl⟩ := hq.2 k hk
  have hty : totalAt A S v st y < ⊤ := by
    rw [lt_top_iff_ne_top]
    intro ht
    rw [ht] at hr
    unfold Rounded.newPenalty at hr
    rw [A.mul_top, if_pos rfl] at hr
    exact absurd hr.symm WithTop.coe_ne_top
  obtain ⟨⟨e, he⟩, hcf⟩ := finite_parts h hty
  obtain ⟨-, T, hT, FT, hM, hTa⟩ := step_balance_at hA hu hτ hη1 g h he hcf
  refine ⟨hM, ?_⟩
  -- the minimum
  have hmin : arrayMin S.numValues (totalAt A S v st) ≤ T := by
    rw [← hT]; exact arrayMin_le _ _ y hy
  obtain ⟨T0, hT0, FT0, hT0a⟩ : ∃ T0 : ℚ, arrayMin S.numValues (totalAt A S v st) = T0 ∧ F T0
      ∧ |T0| ≤ (1 + u) ^ (2 * n + S.subs.length + 2) * (S.subs.length * M + X) := by
    rcases arrayMin_attained S.numValues (totalAt A S v st) with ht | ⟨x, -, hx⟩
    · rw [ht, top_le_iff] at hmin
      exact absurd hmin WithTop.coe_ne_top
    · have hfx : totalAt A S v st x < ⊤ := by
        rw [← hx]
        exact lt_of_le_of_lt hmin (WithTop.coe_lt_top _)
      obtain ⟨⟨e', he'⟩, hcf'⟩ := finite_parts h hfx
      obtain ⟨-, T0, h1, h2, -, h3⟩ := step_balance_at hA hu hτ hη1 g h he' hcf'
      exact ⟨T0, hx.trans h1, h2, h3⟩
  refine ⟨T0, hT0, FT0, hT0a, ?_⟩
  have hTT : T0 ≤ T := by rw [hT0] at hmin; exact WithTop.coe_le_coe.1 hmin
  -- the min-marginal
  have hfin : pathCost (Sub.without s v) p < ⊤ := by rw [hc]; exact WithTop.coe_lt_top _
  have hroom := g.room hη1 hu hτ
  obtain ⟨z, c', z1, -, z3, z4⟩ := marg_bound hA.sums hu (g.range.subs s hs) (hroom hM) hp hfin hpy hm
  rw [hc, WithTop.coe_inj] at z3
  subst z3
  obtain ⟨_, -, -, m, _, m1, m2, -, m4⟩ := marg_attained hA.sums hu (g.range.subs s hs) hroom hm
    (lt_of_le_of_lt z1 (WithTop.coe_lt_top _))
  rw [m1] at z1 hr
  have hmz : m ≤ z := WithTop.coe_le_coe.1 z1
  have hzc := (abs_le.1 z4.err).2
  have hma := m4.abs
  -- the share
  have hmem : A.div s.weight st.weight ∈ machineShares A S v := by
    rw [h.shares]
    exact List.mem_map.2 ⟨s, List.mem_filter.2 ⟨hs, hsome⟩, rfl⟩
  have hs0 := g.shares.nonneg _ hmem
  have hs1 : A.div s.weight st.weight ≤ 1 + η := by
    have h1 := le_sum_of_mem g.shares.nonneg hmem
    have h2 := (abs_le.1 g.shares.total).2
    linarith
  have hlim := g.limit
  have hNpos : (1 : ℚ) ≤ S.subs.length := by exact_mod_cast g.pos hη1
  rw [hT] at hr
  generalize A.div s.weight st.weight = sh at *
  generalize S.subs.length = N at *
  have hNM : M ≤ N * M := by nlinarith
  have hTT0 : 0 ≤ (N : ℚ) * M + X := by nlinarith
  have hR := one_le_pow_u hu (2 * n + N + 2)
  have hB0 : 0 ≤ (1 + u) ^ (2 * n + N + 2) * (N * M + X) := mul_nonneg (by linarith) hTT0
  have hTs : |T| * sh ≤ (1 + η) * ((1 + u) ^ (2 * n + N + 2) * (N * M + X)) := by
    have := mul_le_mul hTa hs1 hs0 hB0
    linarith
  obtain ⟨q', q1, q2⟩ := newPenalty_error hA hu hτ FT m2 hs0 hTs (by
    refine le_trans ?_ hlim
    unfold rangeNeeded
    have pe : (1 + u) ^ (2 * n + N + 4) = (1 + u) ^ (2 * n + N + 2) * (1 + u) * (1 + u) := by
      rw [← pow_succ, ← pow_succ]
    have h1 : |m| ≤ (1 + u) ^ (2 * n + N + 2) * (N * M + X) := by
      refine hma.trans (mul_le_mul (pow_mono hu (by omega)) (by linarith) hM (by linarith))
    rw [pe]
    generalize (1 + u) ^ (2 * n + N + 2) = R at *
    have := room_two hu hη hB0
    linarith)
  rw [q1, WithTop.coe_inj] at hr
  subst hr
  have q3 := (abs_le.1 q2).1
  have a1 : |T| * sh * (2 * u + u ^ 2)
      ≤ (1 + u) ^ (2 * n + N + 2) * (N * M + X) * sh * (2 * u + u ^ 2) :=
    mul_le_mul_of_nonneg_right (mul_le_mul_of_nonneg_right hTa hs0) (by positivity)
  have a2 : T0 * sh ≤ T * sh := mul_le_mul_of_nonneg_right hTT hs0
  have a3 : u * |m| ≤ u * ((1 + u) ^ (2 * n + 1) * M) := mul_le_mul_of_nonneg_left hma hu
  have e6 : (1 + u) ^ (2 * n + 2) = (1 + u) ^ (2 * n + 1) * (1 + u) := pow_succ _ _
  rw [e6]
  nlinarith

/-- The reported bound is at most the cost of any paths, with the new penalties, up to rounding. -/
theorem step_lower (hA : AccurateArith A F u τ limit) (hu : 0 ≤ u) (hτ : 0 ≤ τ) (hη1 : η < 1)
    {n : Nat} {M X : ℚ} (g : StepGood A F u τ η limit S v n M X) (h : Effect A S v S' b rs st)
    {paths : List (List PackedEdge)} {E : ℚ}
    (hp : List.Forall₂ (fun (s : Sub) p => Complete s.memo.dag p ∧ pathCost s.memo.pen p < ⊤) S'.subs
      paths)
    (hE : (List.zipWith (fun (s : Sub) p => pathCost s.memo.pen p) S'.subs paths).sum = E) :
    0 ≤ M ∧ b ≤ ((E + 3 * (((1 + η) * (1 + u) ^ (2 * n + S.subs.length + 5) - 1)
      * (S.subs.length * M + X)) + S.subs.length * (τ * (1 + u)) : ℚ) : Cost) := by
  have hη := g.eta
  have hX := g.sizeX
  obtain ⟨qs, qs', c1, c2, c3⟩ := split_costs h g.ok hp
  rw [hE, WithTop.coe_inj] at c1
  obtain ⟨s0, hs0⟩ := List.exists_mem_of_ne_nil _ (participants_ne g.shares hη1)
  obtain ⟨hs0m, hs0i⟩ := List.mem_filter.1 hs0
  obtain ⟨q0, -, hq0⟩ := forall₂_mem_left c3 s0 hs0m
  obtain ⟨hM, T0, hT0, FT0, hT0a, -⟩ := part_lower hA hu hτ hη1 g h hs0m hq0 hs0i
  have e2 := pow_succ (1 + u) (2 * n + 1)
  have hP2 := one_le_pow_u hu (2 * n + 2)
  have hpart := part_sum (A := A) (v := v) (V := S.numValues) (total := totalAt A S v st)
    (W := st.weight)
    (c := T0 - (1 + u) ^ (2 * n + S.subs.length + 2) * (S.subs.length * M + X) * (2 * u + u ^ 2))
    (err := ((1 + u) ^ (2 * n + 2) - 1) * M + τ * (1 + u))
    (add_nonneg (mul_nonneg (by linarith) hM) (mul_nonneg hτ (by linarith))) S.subs qs' c3 (by
      intro s hs q hq hi
      obtain ⟨-, T1, hT1, -, -, h5⟩ := part_lower hA hu hτ hη1 g h hs hq hi
      rw [hT0, WithTop.coe_inj] at hT1
      rw [hT1]; exact h5)
  rw [← h.shares] at hpart
  have hσ := g.shares.total
  have hσ0 : 0 ≤ (machineShares A S v).sum := List.sum_nonneg g.shares.nonneg
  have hNM : 0 ≤ (S.subs.length : ℚ) * M := by positivity
  obtain ⟨g', k1, k2, k3⟩ := averageOpen_skipped hA.sums hu hM v S.subs qs _ _ _ (2 * n + 1) 0 0 0
    g.ok g.range.subs c2 h.opened (le_refl _) hA.sums.zero ⟨le_refl _, by simp, by simp⟩ (le_refl _)
    (limit_pow hu hη hτ g.limit (by omega) (by linarith) (by linarith))
  rw [zero_add, zero_add] at k3
  have k3' := k3.weaken hu (show 2 * n + 1 + S.subs.length ≤ 2 * n + S.subs.length + 2 by omega)
    (le_refl _)
  have hlim := g.limit
  have hb := h.bound
  change b = A.add (arrayMin S.numValues (totalAt A S v st)) st.skipped at hb
  rw [hT0] at hb
  refine ⟨hM, ?_⟩
  generalize S.subs.length = N at *
  generalize (machineShares A S v).sum = σ at *
  have ga := k3'.abs
  have ge := (abs_le.1 k3'.err).2
  have hTT0 : 0 ≤ (N : ℚ) * M + X := by linarith
  have hR := one_le_pow_u hu (2 * n + N + 2)
  have hsum : |T0 + g'| ≤ (1 + u) ^ (2 * n + N + 2) * (N * M + X)
      + (1 + u) ^ (2 * n + N + 2) * (N * M) :=
    (abs_add_le _ _).trans (add_le_add hT0a ga)
  have pe : (1 + u) ^ (2 * n + N + 4) = (1 + u) ^ (2 * n + N + 2) * (1 + u) * (1 + u) := by
    rw [← pow_succ, ← pow_succ]
  have pf : (1 + u) ^ (2 * n + N + 5) = (1 + u) ^ (2 * n + N + 2) * (1 + u) * (1 + u) * (1 + u) := by
    rw [← pow_succ, ← pow_succ, ← pow_succ]
  have hP2R : (1 + u) ^ (2 * n + 2) ≤ (1 + u) ^ (2 * n + N + 2) := pow_mono hu (by omega)
  obtain ⟨r, r1, r2, r3⟩ := hA.sums.add T0 g' FT0 k2 (by
    refine hsum.trans (le_trans ?_ hlim)
    unfold rangeNeeded
    rw [pe]
    generalize (1 + u) ^ (2 * n + N + 2) = R at *
    have hB0 : 0 ≤ R * (N * M + X) := mul_nonneg (by linarith) hTT0
    have hB1 : R * (N * M) ≤ R * (N * M + X) := mul_le_mul_of_nonneg_left (by linarith) (by linarith)
    have := room_two hu hη hB0
    have h3 : R * (N * M + X) ≤ (1 + u) * ((1 + η) * (R * (N * M + X))) :=
      (le_mul_of_one_le_left hB0 (by linarith)).trans
        (le_mul_of_one_le_left (mul_nonneg (by linarith) hB0) (by linarith))
    linarith)
  have hbr : b ≤ (r : Cost) := by
    rw [hb, ← r2]
    exact A.mono (le_refl _) k1
  refine hbr.trans (WithTop.coe_le_coe.2 ?_)
  have r4 := (abs_le.1 r3).2
  have r5 := mul_le_mul_of_nonneg_left hsum hu
  rw [pf, c1]
  generalize (1 + u) ^ (2 * n + N + 2) = R at *
  generalize (1 + u) ^ (2 * n + 2) = P2 at *
  have hB0 : 0 ≤ R * (N * M + X) := mul_nonneg (by linarith) hTT0
  have t1 := share_parts hT0a hσ (show 0 ≤ 2 * u + u ^ 2 by positivity)
  obtain ⟨w1, w2, w3⟩ := error_parts hu hη hR hP2R hNM (show (N : ℚ) * M ≤ N * M + X by linarith)
  have e9 : (N : ℚ) * ((P2 - 1) * M + τ * (1 + u)) = (P2 - 1) * (N * M) + N * (τ * (1 + u)) := by ring
  rw [e9] at hpart
  linarith

/-- A finite bound is the cost of paths that agree on the variable. -/
theorem step_attained (hA : AccurateArith A F u τ limit) (hu : 0 ≤ u) (hτ : 0 ≤ τ) (hη1 : η < 1)
    {n : Nat} {M X : ℚ} (g : StepGood A F u τ η limit S v n M X) (h : Effect A S v S' b rs st)
    (hb : b < ⊤) :
    ∃ (x : Nat) (paths : List (List PackedEdge)) (E e r : ℚ),
      List.Forall₂ (Ready A.toMachine F S.numKeys S.numValues n M v x) S.subs paths
      ∧ (List.zipWith (fun s p => pathCost (Sub.without s v) p) S.subs paths).sum = E
      ∧ S.extra v x = e ∧ b = r ∧ F r ∧ 0 ≤ M
      ∧ Near u (2 * n + S.subs.length + 3) r (E + e) (S.subs.length * M + X) := by
  have hη := g.eta
  have hX := g.sizeX
  have hbd := h.bound
  change b = A.add (arrayMin S.numValues (totalAt A S v st)) st.skipped at hbd
  have hmin : arrayMin S.numValues (totalAt A S v st) < ⊤ := by
    rw [lt_top_iff_ne_top]
    intro hc
    rw [hc, A.top_left] at hbd
    rw [hbd] at hb
    exact absurd hb (lt_irrefl _)
  have hsk : st.skipped < ⊤ := by
    rw [lt_top_iff_ne_top]
    intro hc
    rw [hc, A.top_right] at hbd
    rw [hbd] at hb
    exact absurd hb (lt_irrefl _)
  rcases arrayMin_attained S.numValues (totalAt A S v st) with ht | ⟨x, -, hx⟩
  · rw [ht] at hmin; exact absurd hmin (lt_irrefl _)
  have hfx : totalAt A S v st x < ⊤ := by rw [← hx]; exact hmin
  obtain ⟨⟨e, he⟩, hcf⟩ := finite_parts h hfx
  obtain ⟨-, T, hT, -, hM, -⟩ := step_balance_at hA hu hτ hη1 g h he hcf
  have htot : st.total x < ⊤ := by
    rw [lt_top_iff_ne_top]
    intro hc
    unfold totalAt at hfx
    rw [hc, A.top_left] at hfx
    exact absurd hfx (lt_irrefl _)
  have hNM : 0 ≤ (S.subs.length : ℚ) * M := by positivity
  obtain ⟨paths, f, X', S1, g', Y', T1, a0, a1, a2, a3, a4, a5, a6, a7, a8⟩ :=
    averageOpen_attained hA.sums hu v x S.subs _ _ _ (2 * n + 1) 0 0 0 0 0 0 g.ok g.range.subs h.opened
      rfl hA.sums.zero ⟨le_refl _, by simp, by simp⟩ rfl hA.sums.zero
      ⟨le_refl _, by simp, by simp⟩ (le_refl _)
      (limit_pow hu hη hτ g.limit (by omega) (by linarith) (by linarith)) htot hsk
  obtain ⟨e1, e2⟩ := g.range.extra x e he.symm
  have hS1 := a3.size
  have hT1 := a6.size
  obtain ⟨f', b1, b2, b3⟩ := Near.add hA.sums hu a2 e1 a3 (near_self hu _ e2)
    (limit_pow hu hη hτ g.limit (by omega) (by linarith) (by linarith))
  obtain ⟨r, c1, c2, c3⟩ := Near.add hA.sums hu b1 a5 b3 (a6.weaken hu (by omega) (le_refl _))
    (limit_pow hu hη hτ g.limit (by omega) (by linarith) (by linarith))
  have hbr : b = (r : Cost) := by
    rw [hbd, hx, ← c2, ← b2, totalAt, a1, a4, ← he]
  have hsumfin : (List.zipWith (fun s p => pathCost (Sub.without s v) p) S.subs paths).sum < ⊤ := by
    rw [lt_top_iff_ne_top]
    intro hc
    rw [hc, WithTop.add_top] at a8
    exact absurd a8 WithTop.coe_ne_top
  obtain ⟨E, hE⟩ := WithTop.ne_top_iff_exists.1 (ne_of_lt hsumfin)
  refine ⟨x, paths, E, e, r, a0, hE.symm, he.symm, hbr, c1, hM, ?_⟩
  rw [← hE, ← WithTop.coe_add, WithTop.coe_inj] at a8
  have hk : 2 * n + 1 + S.subs.length + 1 + 1 = 2 * n + S.subs.length + 3 := by omega
  have hs : S1 + X + T1 = S.subs.length * M + X := by linarith
  have hx' : X' + e + Y' = E + e := by linarith
  rw [hk, hs, hx'] at c3
  exact c3

/-- Paths with the charges for the value of a variable. -/
theorem ready_costs {n N V : Nat} {M : ℚ} {w x : Nat} : ∀ {ss : List Sub} {paths : List (List PackedEdge)},
    List.Forall₂ (Ready A.toMachine F N V n M w x) ss paths →
    (List.zipWith (fun (s : Sub) p => pathCost s.memo.pen p) ss paths).sum
      = (List.zipWith (fun s p => pathCost (Sub.without s w) p) ss paths).sum
        + (ss.map fun s => s.view.charge w x).sum := by
  intro ss paths h
  induction h with
  | nil => simp
  | @cons s p ss paths h1 _ ih =>
    rw [List.zipWith_cons_cons, List.zipWith_cons_cons, List.sum_cons, List.sum_cons, List.map_cons,
      List.sum_cons, ih]
    have e1 : pathCost s.memo.pen p = pathCost (Sub.without s w) p + s.view.charge w x := by
      unfold View.charge
      cases hk : s.index w with
      | none =>
        have hk' : s.view.index w = none := hk
        rw [hk', without_none hk]
        simp
      | some k =>
        have hk' : s.view.index w = some k := hk
        rw [hk']
        exact path_with h1.ok.view hk h1.path (h1.value k hk)
    rw [e1, add_add_add_comm]

theorem imbalance_drop (hu : 0 ≤ u) (hη : 0 ≤ η) {N n : Nat} {M X : ℚ} (hM : 0 ≤ M)
    (hX : 0 ≤ X) : imbalance u η τ N n M X
      ≤ ((1 + η) * (1 + u) ^ (2 * n + N + 5) - 1) * (N * M + X) + N * (τ * (1 + u)) := by
  unfold imbalance
  have pe : (1 + u) ^ (2 * n + N + 5) = (1 + u) ^ (2 * n + 1) * (1 + u) ^ (N + 4) := by
    rw [← pow_add]; congr 1; omega
  have p1 := one_le_pow_u hu (2 * n + 1)
  have p2 := one_le_pow_u hu (N + 4)
  have hNM : 0 ≤ (N : ℚ) * M := by positivity
  rw [pe]
  generalize (1 + u) ^ (2 * n + 1) = P at *
  generalize (1 + u) ^ (N + 4) = Q at *
  have hQ : 1 ≤ (1 + η) * Q := by nlinarith
  have e : ((1 + η) * (P * Q) - 1) * (N * M + X) - ((1 + η) * Q - 1) * (P * (N * M) + X)
      = (P - 1) * (N * M) + (P - 1) * ((1 + η) * Q * X) := by ring
  have h1 : 0 ≤ (P - 1) * (N * M) := mul_nonneg (by linarith) hNM
  have h2 : 0 ≤ (P - 1) * ((1 + η) * Q * X) := mul_nonneg (by linarith) (mul_nonneg (by linarith) hX)
  linarith

/-- A bound is at most the next one, up to rounding. -/
theorem step_drop (hA : AccurateArith A F u τ limit) (hu : 0 ≤ u) (hτ : 0 ≤ τ) (hη1 : η < 1)
    {n : Nat} {M X : ℚ} (g : StepGood A F u τ η limit S v n M X) (h : Effect A S v S' b rs st)
    {S2 : System} {v' : Nat} {b' : Cost} {rs' : List (Sub × Option (Nat × (Nat → Cost)))}
    {st' : AverageState} (g' : StepGood A F u τ η limit S' v' n M X) (h' : Effect A S' v' S2 b' rs' st')
    (hv : v' < S'.numKeys)
    (hs : ∀ w < S'.numKeys, ∀ x, Settled S' (imbalance u η τ S'.subs.length n M X) w x) :
    b ≤ b' + ((dropError u η τ S.subs.length n M X : ℚ) : Cost) := by
  by_cases hb : b' = ⊤
  · rw [hb, WithTop.top_add]; exact le_top
  have hη := g.eta
  have hX := g.sizeX
  obtain ⟨x, paths, E, e, r, p1, p2, p3, rfl, -, hM, p6⟩ := step_attained hA hu hτ hη1 g' h'
    (lt_top_iff_ne_top.2 hb)
  -- the value is in balance
  have hbal : Bal S' (fun _ => x) v' (imbalance u η τ S'.subs.length n M X) := by
    rcases hs v' hv x with h1 | h1
    · exact h1
    · exfalso
      rcases h1 with h1 | ⟨s, hsm, k, hk, hp⟩
      · rw [h1] at p3; exact absurd p3.symm WithTop.coe_ne_top
      · obtain ⟨p, -, hr⟩ := forall₂_mem_left p1 s hsm
        have := hr.finite
        rw [hp p hr.path (hr.value k hk)] at this
        exact absurd this (lt_irrefl _)
  obtain ⟨q, e', b1, b2, b3⟩ := hbal
  rw [p3, WithTop.coe_inj] at b2
  subst b2
  have hsum := ready_costs p1
  rw [p2, b1, ← WithTop.coe_add] at hsum
  have hpaths : List.Forall₂ (fun (s : Sub) p => Complete s.memo.dag p ∧ pathCost s.memo.pen p < ⊤)
      S'.subs paths := by
    have hfin : ∀ c ∈ List.zipWith (fun (s : Sub) p => pathCost s.memo.pen p) S'.subs paths, c < ⊤ := by
      apply sum_lt_top.1
      rw [hsum]
      exact WithTop.coe_lt_top _
    clear hsum b1 p2 p6 g' h' h hs b3
    generalize S'.subs = ss at *
    induction p1 with
    | nil => exact .nil
    | @cons s p ss paths h1 _ ih =>
      exact .cons ⟨h1.path, hfin _ (by simp)⟩
        (ih fun c hc => hfin c (by rw [List.zipWith_cons_cons]; exact List.mem_cons_of_mem _ hc))
  obtain ⟨-, hlow⟩ := step_lower hA hu hτ hη1 g h hpaths hsum
  refine hlow.trans ?_
  rw [← WithTop.coe_add]
  apply WithTop.coe_le_coe.2
  rw [h.length] at p6 b3
  have herr := (abs_le.1 p6.err).1
  have hi := imbalance_drop (τ := τ) (N := S.subs.length) (n := n) hu hη hM hX
  have hb3 := (abs_le.1 b3).2
  unfold dropError
  generalize S.subs.length = N at *
  have hpow := pow_mono hu (show 2 * n + N + 3 ≤ 2 * n + N + 5 by omega)
  have hone := one_le_pow_u hu (2 * n + N + 5)
  have hTT : 0 ≤ (N : ℚ) * M + X := by positivity
  have h9 : ((1 + u) ^ (2 * n + N + 3) - 1) * (N * M + X)
      ≤ ((1 + η) * (1 + u) ^ (2 * n + N + 5) - 1) * (N * M + X) := by
    refine mul_le_mul_of_nonneg_right ?_ hTT
    have : (1 + u) ^ (2 * n + N + 5) ≤ (1 + η) * (1 + u) ^ (2 * n + N + 5) :=
      le_mul_of_one_le_left (by linarith) (by linarith)
    linarith
  linarith

/-- The size of a finite bound. -/
theorem step_bound_size (hA : AccurateArith A F u τ limit) (hu : 0 ≤ u) (hτ : 0 ≤ τ) (hη1 : η < 1)
    {n : Nat} {M X : ℚ} (g : StepGood A F u τ η limit S v n M X) (h : Effect A S v S' b rs st)
    (hb : b < ⊤) : ∃ r : ℚ, b = r ∧ F r ∧ |r| ≤ boundSize u S.subs.length n M X := by
  obtain ⟨x, paths, E, e, r, -, -, -, h1, h2, -, h3⟩ := step_attained hA hu hτ hη1 g h hb
  exact ⟨r, h1, h2, h3.abs⟩

end RUSure.Lemmas.Rnd
