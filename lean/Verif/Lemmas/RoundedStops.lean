import Verif.Lemmas.RoundedDropBound
import Verif.Props.RoundedDual

/-! # The end of the sweeps in machine arithmetic -/

namespace RUSure.Lemmas.Rnd
open RUSure RUSure.Spec RUSure.Lemmas RUSure.Rounded

variable {A : Arith} {F : ℚ → Prop} {u τ η limit : ℚ} {n N K : Nat} {M X : ℚ}

/-- A system before averaging the variables `vs`. -/
structure RunGood (A : Arith) (F : ℚ → Prop) (u τ η limit : ℚ) (n N K : Nat) (M X : ℚ) (vs : List Nat)
    (S : System) : Prop where
  ok : ∀ s ∈ S.subs, RSubOK A.toMachine S.numKeys S.numValues s ∧ 0 < s.memo.dag.numKeys
  settled : ∀ w < S.numKeys, ∀ x, Settled S (imbalance u η τ S.subs.length n M X) w x
  vars : ∀ v ∈ vs, v < S.numKeys ∧ FairShares A S v η
  range : RunInRange A F n M X vs S
  limit : rangeNeeded u η τ S.subs.length n M X ≤ limit
  sizeX : 0 ≤ X
  count : S.subs.length = N
  keys : S.numKeys = K

/-- The step that reported the bound `b`. -/
def Prev (A : Arith) (F : ℚ → Prop) (u τ η limit : ℚ) (n N : Nat) (M X : ℚ) (S : System) (b : Cost) :
    Prop :=
  ∃ S0 v rs st, StepGood A F u τ η limit S0 v n M X ∧ Effect A S0 v S b rs st ∧ S0.subs.length = N

theorem RunGood.step (hA : AccurateArith A F u τ limit) (hu : 0 ≤ u) (hτ : 0 ≤ τ) (hη1 : η < 1)
    {v : Nat} {vs : List Nat} {S : System} (h : RunGood A F u τ η limit n N K M X (v :: vs) S) :
    ∃ S' b rs st, Rounded.average A S v = some (S', b) ∧ StepGood A F u τ η limit S v n M X
      ∧ Effect A S v S' b rs st ∧ RunGood A F u τ η limit n N K M X vs S' := by
  have hok := fun s hs => (h.ok s hs).1
  obtain ⟨⟨S', bs⟩, hav⟩ := averages_some (A := A) [v] S h.ok
  unfold averages at hav
  rw [Option.bind_eq_some_iff] at hav
  obtain ⟨⟨S1, b⟩, he, -⟩ := hav
  obtain ⟨rs, st, hef⟩ := effect hok he
  have g : StepGood A F u τ η limit S v n M X :=
    ⟨hok, h.range.1, (h.vars v (by simp)).2, h.limit, h.sizeX⟩
  refine ⟨S1, b, rs, st, he, g, hef, ?_, ?_, ?_, h.range.2 _ he, ?_, h.sizeX, ?_, ?_⟩
  · intro s hs
    refine ⟨hef.ok hok s hs, ?_⟩
    exact step_dags hok he (P := fun d _ => 0 < d.numKeys) (fun s hs => (h.ok s hs).2) s hs
  · exact step_settled hA hu hτ hη1 g hef h.settled
  · intro w hw
    obtain ⟨g1, g2⟩ := h.vars w (List.mem_cons_of_mem _ hw)
    have hsh := step_shares (w := w) hok he
    refine ⟨by rw [hef.keys]; exact g1, ?_, ?_⟩
    · rw [hsh]; exact g2.nonneg
    · rw [hsh]; exact g2.total
  · rw [hef.length]; exact h.limit
  · rw [hef.length]; exact h.count
  · rw [hef.keys]; exact h.keys

theorem prev_drop (hA : AccurateArith A F u τ limit) (hu : 0 ≤ u) (hτ : 0 ≤ τ) (hη1 : η < 1)
    {v : Nat} {vs : List Nat} {S S' : System} {l b : Cost} {rs st}
    (hp : Prev A F u τ η limit n N M X S l) (h : RunGood A F u τ η limit n N K M X (v :: vs) S)
    (g : StepGood A F u τ η limit S v n M X) (he : Effect A S v S' b rs st) :
    l ≤ b + ((dropError u η τ N n M X : ℚ) : Cost) := by
  obtain ⟨S0, v0, rs0, st0, g0, e0, rfl⟩ := hp
  exact step_drop hA hu hτ hη1 g0 e0 g he (h.vars v (by simp)).1 h.settled

theorem prev_size (hA : AccurateArith A F u τ limit) (hu : 0 ≤ u) (hτ : 0 ≤ τ) (hη1 : η < 1)
    {S : System} {l : Cost} (hp : Prev A F u τ η limit n N M X S l) (hl : l < ⊤) :
    ∃ r : ℚ, l = r ∧ F r ∧ |r| ≤ boundSize u N n M X := by
  obtain ⟨S0, v0, rs0, st0, g0, e0, rfl⟩ := hp
  exact step_bound_size hA hu hτ hη1 g0 e0 hl

theorem drop_nonneg (hA : AccurateArith A F u τ limit) (hu : 0 ≤ u) (hτ : 0 ≤ τ) (hη1 : η < 1)
    {S : System} {l : Cost} (hp : Prev A F u τ η limit n N M X S l) (hl : l < ⊤) :
    0 ≤ dropError u η τ N n M X := by
  obtain ⟨r, -, -, hr⟩ := prev_size hA hu hτ hη1 hp hl
  obtain ⟨S0, v0, rs0, st0, g0, e0, rfl⟩ := hp
  have hη := g0.eta
  have h0 := (abs_nonneg _).trans hr
  unfold boundSize at h0
  have p1 := one_le_pow_u hu (2 * n + S0.subs.length + 3)
  have p2 := one_le_pow_u hu (2 * n + S0.subs.length + 5)
  have hT : 0 ≤ (S0.subs.length : ℚ) * M + X := by
    by_contra hc
    push Not at hc
    nlinarith
  unfold dropError
  have h1 : 1 ≤ (1 + η) * (1 + u) ^ (2 * n + S0.subs.length + 5) := by nlinarith
  have h2 := mul_nonneg (show 0 ≤ (1 + η) * (1 + u) ^ (2 * n + S0.subs.length + 5) - 1 by linarith) hT
  have h3 : 0 ≤ (S0.subs.length : ℚ) * (τ * (1 + u)) :=
    mul_nonneg (by positivity) (mul_nonneg hτ (by linarith))
  linarith

theorem size_limit (hu : 0 ≤ u) (hη : 0 ≤ η) (hτ : 0 ≤ τ) (hB : 0 ≤ boundSize u N n M X)
    (hl : rangeNeeded u η τ N n M X ≤ limit) : 2 * boundSize u N n M X ≤ limit := by
  refine le_trans ?_ hl
  unfold rangeNeeded
  unfold boundSize at *
  have pe : (1 + u) ^ (2 * n + N + 4) = (1 + u) ^ (2 * n + N + 3) * (1 + u) := pow_succ _ _
  have e : 2 * (1 + η) * ((1 + u) ^ (2 * n + N + 3) * (1 + u)) * (N * M + X)
      = 2 * ((1 + η) * ((1 + u) * ((1 + u) ^ (2 * n + N + 3) * (N * M + X)))) := by ring
  rw [pe, e]
  generalize (1 + u) ^ (2 * n + N + 3) * (N * M + X) = Z at *
  have h1 : Z ≤ (1 + u) * Z := le_mul_of_one_le_left hB (by linarith)
  have h2 : (1 + u) * Z ≤ (1 + η) * ((1 + u) * Z) :=
    le_mul_of_one_le_left (hB.trans h1) (by linarith)
  linarith

/-- A step that counts as an improvement raises the bound. -/
theorem improved_gain (hA : AccurateArith A F u τ limit) (hu : 0 ≤ u) (hu1 : u < 1) {tol B : ℚ}
    (htol : 0 ≤ tol) {l b : Cost} (hB : 2 * B ≤ limit)
    (hl : l < ⊤ → ∃ r : ℚ, l = r ∧ F r ∧ |r| ≤ B) (hb : b < ⊤ → ∃ r : ℚ, b = r ∧ F r ∧ |r| ≤ B)
    (h : Rounded.improved A (some l) b tol = true) :
    l < ⊤ ∧ l + ((tol / (1 + u) : ℚ) : Cost) ≤ b := by
  unfold Rounded.improved at h
  dsimp only at h
  by_cases hlt : l = ⊤
  · rw [if_pos hlt] at h; cases h
  rw [if_neg hlt, decide_eq_true_eq] at h
  have hl' := lt_top_iff_ne_top.2 hlt
  refine ⟨hl', ?_⟩
  by_cases hbt : b = ⊤
  · rw [hbt]; exact le_top
  obtain ⟨r, rfl, r1, r2⟩ := hl hl'
  obtain ⟨z, rfl, z1, z2⟩ := hb (lt_top_iff_ne_top.2 hbt)
  have hneg : negate (r : Cost) = ((-r : ℚ) : Cost) := rfl
  rw [hneg] at h
  obtain ⟨d, -, d1, d2⟩ := hA.sums.add z (-r) z1 (hA.neg r r1) (by
    refine (abs_add_le _ _).trans ?_
    rw [abs_neg]; linarith)
  rw [d1, WithTop.coe_lt_coe] at h
  rw [← WithTop.coe_add]
  apply WithTop.coe_le_coe.2
  have d3 := (abs_le.1 d2).2
  have hpos : 0 < z + -r := by
    by_contra hc
    push Not at hc
    rw [abs_of_nonpos hc] at d3
    nlinarith
  rw [abs_of_pos hpos] at d3
  have h5 : tol / (1 + u) ≤ z + -r := by
    rw [div_le_iff₀ (by linarith)]
    linarith
  linarith

theorem gain_first {l b l' : Cost} {t d k : ℚ} (hd : 0 ≤ d) (h1 : l + (t : Cost) ≤ b)
    (h2 : b ≤ l' + ((k * d : ℚ) : Cost)) : l + (t : Cost) ≤ l' + (((k + 1) * d : ℚ) : Cost) := by
  refine h1.trans (h2.trans (add_le_add le_rfl (WithTop.coe_le_coe.2 ?_)))
  linarith

theorem gain_later {l b l' : Cost} {t d k : ℚ} (h1 : l ≤ b + (d : Cost))
    (h2 : b + (t : Cost) ≤ l' + ((k * d : ℚ) : Cost)) :
    l + (t : Cost) ≤ l' + (((k + 1) * d : ℚ) : Cost) := by
  have e : (((k + 1) * d : ℚ) : Cost) = ((k * d : ℚ) : Cost) + (d : Cost) := by
    rw [← WithTop.coe_add]; congr 1; ring
  rw [e, ← add_assoc]
  refine le_trans ?_ (add_le_add h2 le_rfl)
  rw [add_assoc, add_comm (t : Cost), ← add_assoc]
  exact add_le_add h1 le_rfl

theorem drop_later {l b l' : Cost} {d k : ℚ} (h1 : l ≤ b + (d : Cost))
    (h2 : b ≤ l' + ((k * d : ℚ) : Cost)) : l ≤ l' + (((k + 1) * d : ℚ) : Cost) := by
  have h := gain_later (t := 0) h1 (l' := l') (k := k) (by rw [WithTop.coe_zero, add_zero]; exact h2)
  rwa [WithTop.coe_zero, add_zero] at h

/-- What a sweep does to the last bound reported. -/
theorem run_sweep (hA : AccurateArith A F u τ limit) (hu : 0 ≤ u) (hu1 : u < 1) (hτ : 0 ≤ τ)
    (hη1 : η < 1) {tol : ℚ} (htol : 0 ≤ tol) : ∀ (vs ws : List Nat) (st : SweepState) (c : Bool) (l : Cost),
    RunGood A F u τ η limit n N K M X (vs ++ ws) st.system → st.last = some l →
    Prev A F u τ η limit n N M X st.system l →
    ∃ st' c' l', Rounded.runSweep A tol vs st c = some (st', c')
      ∧ RunGood A F u τ η limit n N K M X ws st'.system ∧ st'.last = some l'
      ∧ Prev A F u τ η limit n N M X st'.system l' ∧ st'.objectiveAtSweep = st.objectiveAtSweep
      ∧ l ≤ l' + ((vs.length * dropError u η τ N n M X : ℚ) : Cost)
      ∧ (c' = true → c = true ∨ (l < ⊤ ∧ l + ((tol / (1 + u) : ℚ) : Cost)
          ≤ l' + ((vs.length * dropError u η τ N n M X : ℚ) : Cost))) := by
  intro vs
  induction vs with
  | nil =>
    intro ws st c l hg hl hp
    exact ⟨st, c, l, rfl, hg, hl, hp, rfl, by simp, fun h => Or.inl h⟩
  | cons v vs ih =>
    intro ws st c l hg hl hp
    obtain ⟨S', b, rs, ss, e1, g1, e2, hg'⟩ := hg.step hA hu hτ hη1
    have hd := prev_drop hA hu hτ hη1 hp hg g1 e2
    have hlen : st.system.subs.length = N := hg.count
    have hp' : Prev A F u τ η limit n N M X S' b := ⟨_, _, _, _, g1, e2, hlen⟩
    have hη := g1.eta
    obtain ⟨st', c', l', f1, f2, f3, f4, f5, f6, f7⟩ := ih ws
      { st with
          system := S'
          last := some b
          objectiveAtStep := st.objectiveAtStep ++ [b]
          variableAtStep := st.variableAtStep ++ [v] } (c || Rounded.improved A st.last b tol) b hg' rfl hp'
    have en : (((v :: vs).length : ℕ) : ℚ) = (vs.length : ℚ) + 1 := by simp
    refine ⟨st', c', l', ?_, f2, f3, f4, f5, ?_, ?_⟩
    · unfold Rounded.runSweep
      rw [e1]
      exact f1
    · rw [en]; exact drop_later hd f6
    · intro hc'
      rw [en]
      rcases f7 hc' with h | ⟨h1, h2⟩
      · rw [Bool.or_eq_true] at h
        rcases h with h | h
        · exact Or.inl h
        right
        rw [hl] at h
        have hB : 2 * boundSize u N n M X ≤ limit ∨ ¬ (l < ⊤) := by
          by_cases hlt : l < ⊤
          · left
            obtain ⟨r, -, -, hr⟩ := prev_size hA hu hτ hη1 hp hlt
            refine size_limit hu hη hτ ((abs_nonneg _).trans hr) ?_
            rw [← hlen]; exact hg.limit
          · right; exact hlt
        rcases hB with hB | hB
        · obtain ⟨i1, i2⟩ := improved_gain hA hu hu1 htol hB (prev_size hA hu hτ hη1 hp)
            (prev_size hA hu hτ hη1 hp') h
          exact ⟨i1, gain_first (drop_nonneg hA hu hτ hη1 hp i1) i2 f6⟩
        · exfalso
          unfold Rounded.improved at h
          simp only [not_lt_top_iff.1 hB, if_true] at h
          cases h
      · right
        refine ⟨lt_of_le_of_lt hd ?_, gain_later hd h2⟩
        obtain ⟨r, hr⟩ := WithTop.ne_top_iff_exists.1 (ne_of_lt h1)
        rw [← hr, ← WithTop.coe_add]
        exact WithTop.coe_lt_top _

theorem record_system (st : SweepState) : st.record.system = st.system := rfl
theorem record_last (st : SweepState) : st.record.last = st.last := rfl
theorem record_length (st : SweepState) :
    st.record.objectiveAtSweep.length = st.objectiveAtSweep.length + 1 := by
  simp [SweepState.record]

/-- One round of the main loop: it ends the sweeps, or the bound has grown. -/
theorem loop_once (hA : AccurateArith A F u τ limit) (hu : 0 ≤ u) (hu1 : u < 1) (hτ : 0 ≤ τ)
    (hη1 : η < 1) {tol : ℚ} (htol : 0 ≤ tol) {late : Nat → Bool} {f : Nat} {st : SweepState} {l : Cost}
    (hg : RunGood A F u τ η limit n N K M X (sweepOrder late K (f + 1) st.objectiveAtSweep.length) st.system)
    (hl : st.last = some l) (hp : Prev A F u τ η limit n N M X st.system l) :
    (∃ st', Rounded.solveLoop A tol late (f + 1) st = .ok st') ∨
    ∃ st' l', Rounded.solveLoop A tol late (f + 1) st = Rounded.solveLoop A tol late f st'
      ∧ RunGood A F u τ η limit n N K M X (sweepOrder late K f st'.objectiveAtSweep.length) st'.system
      ∧ st'.last = some l' ∧ Prev A F u τ η limit n N M X st'.system l' ∧ l < ⊤
      ∧ l + ((tol / (1 + u) : ℚ) : Cost)
        ≤ l' + ((2 * ((K - 1 : ℕ) : ℚ) * dropError u η τ N n M X : ℚ) : Cost) := by
  have hk : st.system.numKeys = K := hg.keys
  have lf : (forwardVars K).length = K - 1 := by simp [forwardVars]
  have lr : (reverseVars K).length = K - 1 := by simp [reverseVars]
  unfold sweepOrder at hg
  obtain ⟨s1, c1, l1, f1, f2, f3, f4, f5, f6, f7⟩ := run_sweep hA hu hu1 hτ hη1 htol _ _ st false l hg hl hp
  rw [lf] at f6 f7
  have hr1 : s1.record.objectiveAtSweep.length = st.objectiveAtSweep.length + 1 := by
    rw [record_length, f5]
  simp only [Rounded.solveLoop.eq_2, hk, f1]
  rw [hr1]
  by_cases hlate : late (st.objectiveAtSweep.length + 1) = true
  · rw [if_pos hlate] at f2 ⊢
    by_cases hc : c1 = true
    · rw [if_pos hc]
      right
      rcases f7 hc with h | ⟨h1, h2⟩
      · cases h
      refine ⟨s1.record, l1, rfl, ?_, f3, f4, h1, h2.trans (add_le_add le_rfl (WithTop.coe_le_coe.2 ?_))⟩
      · rw [hr1]; exact f2
      · have := mul_nonneg (Nat.cast_nonneg (α := ℚ) (K - 1)) (drop_nonneg hA hu hτ hη1 hp h1)
        linarith
    · rw [if_neg hc]; exact Or.inl ⟨_, rfl⟩
  · rw [if_neg hlate] at f2 ⊢
    obtain ⟨s2, c2, l2, g1, g2, g3, g4, g5, g6, g7⟩ :=
      run_sweep hA hu hu1 hτ hη1 htol _ _ s1.record c1 l1 f2 f3 f4
    rw [lr] at g6 g7
    rw [g1]
    dsimp only
    by_cases hc : c2 = true
    · rw [if_pos hc]
      right
      have hr2 : s2.record.objectiveAtSweep.length = st.objectiveAtSweep.length + 2 := by
        rw [record_length, g5, hr1]
      refine ⟨s2.record, l2, rfl, by rw [hr2]; exact g2, g3, g4, ?_⟩
      have two : ∀ {a b c : Cost} {d e : ℚ}, a ≤ b + (d : Cost) → b ≤ c + (d : Cost) → e = 2 * d →
          a ≤ c + (e : Cost) := by
        intro a b c d e h1 h2 h3
        have : (e : Cost) = (d : Cost) + (d : Cost) := by
          rw [← WithTop.coe_add, h3]; congr 1; ring
        rw [this, ← add_assoc]
        exact h1.trans (add_le_add h2 le_rfl)
      rcases g7 hc with h | ⟨h1, h2⟩
      · rcases f7 h with h' | ⟨h1, h2⟩
        · cases h'
        · exact ⟨h1, two h2 g6 (by ring)⟩
      · refine ⟨lt_of_le_of_lt f6 ?_, ?_⟩
        · obtain ⟨r, hr⟩ := WithTop.ne_top_iff_exists.1 (ne_of_lt h1)
          rw [← hr, ← WithTop.coe_add]
          exact WithTop.coe_lt_top _
        · refine two (b := l1 + ((tol / (1 + u) : ℚ) : Cost)) ?_ h2 (by ring)
          rw [add_assoc, add_comm (((tol / (1 + u) : ℚ)) : Cost), ← add_assoc]
          exact add_le_add f6 le_rfl
    · rw [if_neg hc]; exact Or.inl ⟨_, rfl⟩

/-- After the first round, the main loop ends. -/
theorem loop_stops (hA : AccurateArith A F u τ limit) (hu : 0 ≤ u) (hu1 : u < 1) (hτ : 0 ≤ τ)
    (hη1 : η < 1) {tol : ℚ} (htol : 0 ≤ tol) {late : Nat → Bool} : ∀ (f : Nat) (st : SweepState) (l : Cost),
    RunGood A F u τ η limit n N K M X (sweepOrder late K (f + 1) st.objectiveAtSweep.length) st.system →
    st.last = some l → Prev A F u τ η limit n N M X st.system l →
    (∀ q : ℚ, l = q → boundSize u N n M X < q + f * roundGain u η τ tol K N n M X) →
    ∃ st', Rounded.solveLoop A tol late (f + 1) st = .ok st' := by
  intro f
  induction f with
  | zero =>
    intro st l hg hl hp hq
    rcases loop_once hA hu hu1 hτ hη1 htol hg hl hp with h | ⟨-, -, -, -, -, -, h, -⟩
    · exact h
    · obtain ⟨q, rfl, -, h2⟩ := prev_size hA hu hτ hη1 hp h
      have := hq q rfl
      have := (abs_le.1 h2).2
      simp at *
      linarith
  | succ f ih =>
    intro st l hg hl hp hq
    rcases loop_once hA hu hu1 hτ hη1 htol hg hl hp with h | ⟨st', l', h1, h2, h3, h4, h5, h6⟩
    · exact h
    · rw [h1]
      apply ih st' l' h2 h3 h4
      intro q' hq'
      obtain ⟨q, rfl, -, -⟩ := prev_size hA hu hτ hη1 hp h5
      have h0 := hq q rfl
      rw [hq', ← WithTop.coe_add, ← WithTop.coe_add, WithTop.coe_le_coe] at h6
      have hgain : roundGain u η τ tol K N n M X
        = tol / (1 + u) - 2 * ((K - 1 : ℕ) : ℚ) * dropError u η τ N n M X := rfl
      push_cast at h0
      linarith

/-- The sweeps end. -/
theorem sweeps_stop (hA : AccurateArith A F u τ limit) (hu : 0 ≤ u) (hu1 : u < 1) (hτ : 0 ≤ τ)
    (hη1 : η < 1) {tol : ℚ} (htol : 0 ≤ tol) {late : Nat → Bool} {fuel : Nat} {S : System}
    (hg : RunGood A F u τ η limit n N K M X (sweepOrder late K (fuel + 2) 0) S)
    (hf : 2 * boundSize u N n M X < fuel * roundGain u η τ tol K N n M X) :
    ∃ st, Rounded.solve A S tol late (fuel + 2) = .ok st := by
  have hk : S.numKeys = K := hg.keys
  unfold Rounded.solve
  by_cases hK : K ≤ 1
  · have e1 : forwardVars K = [] := by simp [forwardVars]; omega
    have e2 : reverseVars K = [] := by simp [reverseVars]; omega
    unfold Rounded.solveLoop
    rw [hk, e1, e2]
    simp only [Rounded.runSweep]
    split <;> exact ⟨_, rfl⟩
  obtain ⟨k, rfl⟩ : ∃ k, K = k + 2 := ⟨K - 2, by omega⟩
  have e1 : forwardVars (k + 2) = 0 :: List.range' 1 k := by
    simp only [forwardVars, List.range_eq_range']
    rfl
  have next : ∀ (st : SweepState) (l : Cost),
      RunGood A F u τ η limit n N (k + 2) M X (sweepOrder late (k + 2) (fuel + 1) st.objectiveAtSweep.length)
        st.system → st.last = some l → Prev A F u τ η limit n N M X st.system l →
      ∃ st', Rounded.solveLoop A tol late (fuel + 1) st = .ok st' := by
    intro st l h1 h2 h3
    apply loop_stops hA hu hu1 hτ hη1 htol fuel st l h1 h2 h3
    rintro q rfl
    obtain ⟨r, hr, -, h⟩ := prev_size hA hu hτ hη1 h3 (WithTop.coe_lt_top q)
    rw [WithTop.coe_inj] at hr
    subst hr
    have := (abs_le.1 h).1
    linarith
  unfold sweepOrder at hg
  rw [e1, List.cons_append] at hg
  obtain ⟨S', b, rs, ss, d1, d2, d3, hg'⟩ := hg.step hA hu hτ hη1
  have hp' : Prev A F u τ η limit n N M X S' b := ⟨_, _, _, _, d2, d3, hg.count⟩
  obtain ⟨s1, c1, l1, f1, f2, f3, f4, f5, -, -⟩ := run_sweep hA hu hu1 hτ hη1 htol _ _
    ⟨S', some b, [b], [0], [], []⟩ true b hg' rfl hp'
  have hr1 : s1.record.objectiveAtSweep.length = 0 + 1 := by
    rw [record_length, f5]; rfl
  have fw : Rounded.runSweep A tol (0 :: List.range' 1 k) ⟨S, none, [], [], [], []⟩ false = some (s1, c1) := by
    unfold Rounded.runSweep
    dsimp only
    rw [d1]
    exact f1
  unfold Rounded.solveLoop
  dsimp only
  rw [hk, e1, fw]
  dsimp only
  rw [hr1]
  by_cases hlate : late (0 + 1) = true
  · rw [if_pos hlate] at f2 ⊢
    by_cases hc : c1 = true
    · rw [if_pos hc]
      exact next _ l1 (by rw [hr1]; exact f2) f3 f4
    · rw [if_neg hc]; exact ⟨_, rfl⟩
  · rw [if_neg hlate] at f2 ⊢
    obtain ⟨s2, c2, l2, g1, g2, g3, g4, g5, -, -⟩ :=
      run_sweep hA hu hu1 hτ hη1 htol _ _ s1.record c1 l1 f2 f3 f4
    rw [g1]
    dsimp only
    by_cases hc : c2 = true
    · rw [if_pos hc]
      exact next _ l2 (by rw [record_length, g5, hr1]; exact g2) g3 g4
    · rw [if_neg hc]; exact ⟨_, rfl⟩

end RUSure.Lemmas.Rnd
