import Verif.Lemmas.DualMemo

/-!
# Joint solutions, sweeps and greedy extraction
-/

namespace RUSure.Lemmas
open RUSure RUSure.Spec

theorem joint_iff (S : System) (a : Nat → Nat) (paths : List (List PackedEdge)) :
    Joint S a paths ↔ VJoint S.numKeys S.numValues (views S) a paths := by
  constructor
  · rintro ⟨h1, h2⟩
    refine ⟨h1, ?_⟩
    unfold views
    rw [List.forall₂_map_left_iff]
    exact h2
  · rintro ⟨h1, h2⟩
    refine ⟨h1, ?_⟩
    unfold views at h2
    rw [List.forall₂_map_left_iff] at h2
    exact h2

theorem dualValue_eq {S : System} (h : SysInv S) : dualValue S = ((views S).map View.cost).sum := by
  unfold dualValue views
  rw [List.map_map]
  congr 1
  apply List.map_congr_left
  intro s hs
  obtain ⟨m, c, h1, -⟩ := minimalCost_spec (h.subs s hs).view.wf (h.subs s hs).memo .atStart (by simp)
  have h1' : s.memo.minimalCost .atStart = some (m, c) := h1
  obtain ⟨-, -, h3⟩ := sub_skip (h.subs s hs) h1'
  rw [h1']
  simp [h3]

theorem charge_eq (s : Sub) (v x : Nat) : Sub.charge s v x = s.view.charge v x := rfl

/-! ### same problem -/

/-- The problem to be solved is the same in both systems. -/
structure SameProblem (S S' : System) : Prop where
  keys : S'.numKeys = S.numKeys
  values : S'.numValues = S.numValues
  extra : S'.extra = S.extra
  dags : (views S').map (fun w => (w.dag, w.index)) = (views S).map fun w => (w.dag, w.index)

theorem SameProblem.refl (S : System) : SameProblem S S := ⟨rfl, rfl, rfl, rfl⟩

theorem SameProblem.trans {S S' S'' : System} (h : SameProblem S S') (h' : SameProblem S' S'') :
    SameProblem S S'' :=
  ⟨h'.keys.trans h.keys, h'.values.trans h.values, h'.extra.trans h.extra, h'.dags.trans h.dags⟩

theorem forall2_map_eq {α β γ : Type} (f : α → γ) (R : γ → β → Prop) :
    ∀ (ws ws' : List α) (ps : List β), ws'.map f = ws.map f →
    List.Forall₂ (fun a p => R (f a) p) ws ps → List.Forall₂ (fun a p => R (f a) p) ws' ps := by
  intro ws ws' ps h hf
  have := (List.forall₂_map_left_iff (R := R) (f := f)).2 hf
  rw [← h] at this
  exact List.forall₂_map_left_iff.1 this

theorem vjoint_same {N V : Nat} {ws ws' : List View}
    (h : ws'.map (fun w => (w.dag, w.index)) = ws.map fun w => (w.dag, w.index)) {a : Nat → Nat}
    {paths : List (List PackedEdge)} (hj : VJoint N V ws a paths) : VJoint N V ws' a paths := by
  refine ⟨hj.values, ?_⟩
  exact forall2_map_eq (fun w : View => (w.dag, w.index)) (fun (x : PackedDag × (Nat → Option Nat)) p =>
    Complete x.1 p ∧ ∀ v k y, x.2 v = some k → (k, y) ∈ assignments p → y = a v) ws ws' paths h hj.paths

theorem SameProblem.joint {S S' : System} (h : SameProblem S S') {a : Nat → Nat}
    {paths : List (List PackedEdge)} : Joint S' a paths ↔ Joint S a paths := by
  rw [joint_iff, joint_iff, h.keys, h.values]
  exact ⟨vjoint_same h.dags.symm, vjoint_same h.dags⟩

theorem SameProblem.cost {S S' : System} (h : SameProblem S S') (a : Nat → Nat)
    (paths : List (List PackedEdge)) : jointCost S' a paths = jointCost S a paths := by
  unfold jointCost
  rw [h.keys, h.extra]

theorem jointCost_eq (S : System) (a : Nat → Nat) (paths : List (List PackedEdge)) :
    jointCost S a paths = vCost S.numKeys S.extra a paths := rfl

theorem update_same (ws : List View) (v : Nat) (q : View → Nat → Nat → Cost) :
    (ws.map fun w => w.update v q).map (fun w => (w.dag, w.index))
      = ws.map fun w => (w.dag, w.index) := by
  rw [List.map_map]
  apply List.map_congr_left
  intro w _
  simp only [Function.comp, update_dag, update_index]

theorem minMarginals_same {S S' : System} (h : SysInv S) {v : Nat} {mm : Nat → Cost}
    (he : S.minMarginals v = some (S', mm)) : SameProblem S S' := by
  obtain ⟨-, h2, h3, h4, h5, -⟩ := h.minMarginals he
  exact ⟨h4, h5, h3, by rw [h2]⟩

theorem average_same {S S' : System} (h : SysInv S) {v : Nat} (hv : v < S.numKeys) {c : Cost}
    (he : S.average v = some (S', c)) : SameProblem S S' := by
  obtain ⟨-, h2, h3, h4, h5, -⟩ := h.average hv he
  exact ⟨h3, h4, h2, by rw [h5]; exact update_same _ _ _⟩

theorem average_dual {S S' : System} (h : SysInv S) {v : Nat} (hv : v < S.numKeys) {c : Cost}
    (he : S.average v = some (S', c)) : dualValue S ≤ dualValue S' ∧ c = dualValue S' := by
  obtain ⟨h1, h2, h3, h4, h5, h6⟩ := h.average hv he
  have hd : c = dualValue S' := by
    rw [dualValue_eq h1, h5, average_value h.inv hv, h6]
  refine ⟨?_, hd⟩
  rw [← hd, h6, dualValue_eq h]
  exact average_le h.inv hv

/-! ### sweeps -/

/-- What is known about the state of the sweep solver started on `S`. -/
structure SweepInv (S : System) (st : SweepState) : Prop where
  inv : SysInv st.system
  same : SameProblem S st.system
  sorted : st.objectiveAtStep.Pairwise (· ≤ ·)
  lower : ∀ c ∈ st.objectiveAtStep, dualValue S ≤ c
  mono : dualValue S ≤ dualValue st.system
  last : st.last = st.objectiveAtStep.getLast?
  current : ∀ c, st.last = some c → c = dualValue st.system
  upper : ∀ c ∈ st.objectiveAtStep, c ≤ dualValue st.system
  count : st.variableAtStep.length = st.objectiveAtStep.length
  vars : ∀ v ∈ st.variableAtStep, v < S.numKeys

theorem runSweep_inv {S : System} {tol : ℚ} : ∀ (vs : List Nat) (st : SweepState) (c : Bool)
    (st' : SweepState) (c' : Bool), SweepInv S st → (∀ v ∈ vs, v < S.numKeys) →
    runSweep tol vs st c = some (st', c') →
    SweepInv S st' ∧ st'.objectiveAtSweep = st.objectiveAtSweep ∧ st'.stepsAtSweep = st.stepsAtSweep
      ∧ st'.variableAtStep = st.variableAtStep ++ vs
      ∧ dualValue st.system ≤ dualValue st'.system
      ∧ (vs ≠ [] → st'.last = some (dualValue st'.system))
      ∧ (vs = [] → st' = st ∧ c' = c)
      ∧ (c' = true → c = true ∨ st.last = none
          ∨ dualValue st.system + (tol : Cost) < dualValue st'.system) := by
  intro vs
  induction vs with
  | nil =>
    intro st c st' c' h _ he
    simp only [runSweep, Option.some.injEq, Prod.mk.injEq] at he
    obtain ⟨rfl, rfl⟩ := he
    exact ⟨h, rfl, rfl, by simp, le_refl _, by simp, fun _ => ⟨rfl, rfl⟩, fun h => .inl h⟩
  | cons v vs ih =>
    intro st c st' c' h hvs he
    unfold runSweep at he
    cases hav : st.system.average v with
    | none => rw [hav] at he; cases he
    | some r =>
      obtain ⟨S1, b⟩ := r
      rw [hav] at he
      simp only at he
      have hv : v < st.system.numKeys := by rw [h.same.keys]; exact hvs v (by simp)
      obtain ⟨i1, -⟩ := h.inv.average hv hav
      have i2 := average_same h.inv hv hav
      obtain ⟨i3, i4⟩ := average_dual h.inv hv hav
      have hst1 : SweepInv S { st with
          system := S1
          last := some b
          objectiveAtStep := st.objectiveAtStep ++ [b]
          variableAtStep := st.variableAtStep ++ [v] } := by
        refine ⟨i1, h.same.trans i2, ?_, ?_, h.mono.trans i3, by simp, ?_, ?_, ?_, ?_⟩
        · rw [List.pairwise_append]
          refine ⟨h.sorted, by simp, ?_⟩
          intro x hx y hy
          simp only [List.mem_singleton] at hy
          rw [hy, i4]
          exact (h.upper x hx).trans i3
        · intro x hx
          rcases List.mem_append.1 hx with hx | hx
          · exact h.lower x hx
          · simp only [List.mem_singleton] at hx
            rw [hx, i4]
            exact h.mono.trans i3
        · intro x hx
          simp only [Option.some.injEq] at hx
          rw [← hx, i4]
        · intro x hx
          rcases List.mem_append.1 hx with hx | hx
          · exact (h.upper x hx).trans i3
          · simp only [List.mem_singleton] at hx
            rw [hx, i4]
        · simp [h.count]
        · intro u hu
          rcases List.mem_append.1 hu with hu | hu
          · exact h.vars u hu
          · simp only [List.mem_singleton] at hu
            rw [hu]; exact hvs v (by simp)
      obtain ⟨j1, j2, j3, j4, j5, j6, j7, j8⟩ :=
        ih _ _ _ _ hst1 (fun u hu => hvs u (List.mem_cons_of_mem _ hu)) he
      refine ⟨j1, j2, j3, by rw [j4]; simp, i3.trans j5, ?_, by simp, ?_⟩
      · intro _
        by_cases hvs' : vs = []
        · obtain ⟨rfl, -⟩ := j7 hvs'
          simp [i4]
        · exact j6 hvs'
      · intro hc'
        rcases j8 hc' with hc | hc | hc
        · rw [Bool.or_eq_true] at hc
          rcases hc with hc | hc
          · exact .inl hc
          · unfold improved at hc
            cases hl : st.last with
            | none => exact .inr (.inl rfl)
            | some l =>
              rw [hl] at hc
              simp only at hc
              split at hc
              · cases hc
              · right; right
                have := h.current l hl
                rw [← this]
                have hc := of_decide_eq_true hc
                rw [i4] at hc
                exact lt_of_lt_of_le hc j5
        · simp at hc
        · right; right
          refine lt_of_le_of_lt ?_ hc
          exact add_le_add i3 (le_refl _)

theorem runSweep_isSome {S : System} {tol : ℚ} (hu : ∀ s ∈ S.subs, 0 < s.memo.dag.numKeys) :
    ∀ (vs : List Nat) (st : SweepState) (c : Bool), SweepInv S st → (∀ v ∈ vs, v < S.numKeys) →
    ∃ r, runSweep tol vs st c = some r := by
  intro vs
  induction vs with
  | nil => intro st c _ _; exact ⟨_, rfl⟩
  | cons v vs ih =>
    intro st c h hvs
    have hv : v < st.system.numKeys := by rw [h.same.keys]; exact hvs v (by simp)
    have hsome : (st.system.average v).isSome := by
      rw [h.inv.average_isSome]
      intro s hs _
      have hd := h.same.dags
      have : (s.view.dag, s.view.index) ∈ (views st.system).map fun w => (w.dag, w.index) :=
        List.mem_map.2 ⟨s.view, List.mem_map.2 ⟨s, hs, rfl⟩, rfl⟩
      rw [hd] at this
      obtain ⟨w, hw, hwe⟩ := List.mem_map.1 this
      obtain ⟨s0, hs0, rfl⟩ := List.mem_map.1 hw
      have := hu s0 hs0
      simp only [Prod.mk.injEq] at hwe
      have h1 : s.memo.dag = s0.memo.dag := hwe.1.symm
      rw [h1]; exact this
    rw [Option.isSome_iff_exists] at hsome
    obtain ⟨⟨S1, b⟩, hav⟩ := hsome
    have h1 := runSweep_inv (tol := tol) [v] st c _ _ h (fun u hu => by
      simp only [List.mem_singleton] at hu; rw [hu]; exact hvs v (by simp))
      (by simp only [runSweep, hav]; rfl)
    obtain ⟨r, hr⟩ := ih _ (c || improved st.last b tol) h1.1
      (fun u hu => hvs u (List.mem_cons_of_mem _ hu))
    refine ⟨r, ?_⟩
    rw [runSweep, hav]
    exact hr

theorem record_inv {S : System} {st : SweepState} (h : SweepInv S st) : SweepInv S st.record := by
  obtain ⟨h1, h2, h3, h4, h5, h6, h7, h8, h9, h10⟩ := h
  exact ⟨h1, h2, h3, h4, h5, h6, h7, h8, h9, h10⟩

theorem forwardVars_lt {n v : Nat} (h : v ∈ forwardVars n) : v < n := by
  simp only [forwardVars, List.mem_range] at h
  omega

theorem reverseVars_lt {n v : Nat} (h : v ∈ reverseVars n) : v < n := by
  simp only [reverseVars, List.mem_reverse, List.mem_range'_1] at h
  omega

/-- Relating the log of sweeps to the log of steps. -/
structure SweepLog (st : SweepState) : Prop where
  lengths : st.objectiveAtSweep.length = st.stepsAtSweep.length
  entries : ∀ (i : Nat) (o : Option Cost) (n : Nat), st.objectiveAtSweep[i]? = some o →
    st.stepsAtSweep[i]? = some n → n ≤ st.objectiveAtStep.length ∧
      o = (st.objectiveAtStep.take n).getLast?

theorem solveLoop_inv {S : System} {tol : ℚ} {late : Nat → Bool} : ∀ (fuel : Nat) (st : SweepState)
    (st' : SweepState), SweepInv S st → SweepLog st → solveLoop tol late fuel st = .ok st' →
    SweepInv S st' ∧ SweepLog st' ∧ st'.objectiveAtSweep ≠ [] ∧
      st'.objectiveAtSweep.getLast? = some st'.last := by
  have hrec : ∀ (st0 st : SweepState), SweepInv S st → SweepLog st0 →
      st.objectiveAtSweep = st0.objectiveAtSweep → st.stepsAtSweep = st0.stepsAtSweep →
      st0.objectiveAtStep <+: st.objectiveAtStep → SweepLog st.record := by
    intro st0 st hi hl h1 h2 hp
    constructor
    · simp [SweepState.record, h1, h2, hl.lengths]
    · intro i o n ho hn
      simp only [SweepState.record, h1, h2] at ho hn ⊢
      rw [List.getElem?_append] at ho hn
      rw [hl.lengths] at ho
      split at ho
      · rename_i hi'
        rw [if_pos hi'] at hn
        obtain ⟨h3, h4⟩ := hl.entries i o n ho hn
        refine ⟨h3.trans hp.length_le, ?_⟩
        obtain ⟨t, ht⟩ := hp
        rw [← ht, List.take_append_of_le_length h3]
        exact h4
      · rename_i hi'
        rw [if_neg hi'] at hn
        have hi0 : i - st0.stepsAtSweep.length = 0 := by
          by_contra hne
          rw [List.getElem?_eq_none (by simp; omega)] at ho
          cases ho
        rw [hi0] at ho hn
        simp only [List.getElem?_cons_zero, Option.some.injEq] at ho hn
        subst ho hn
        refine ⟨le_refl _, ?_⟩
        rw [List.take_length, hi.last]
  have hpre : ∀ (vs : List Nat) (st : SweepState) (c : Bool) (st' : SweepState) (c' : Bool),
      runSweep tol vs st c = some (st', c') → st.objectiveAtStep <+: st'.objectiveAtStep := by
    intro vs
    induction vs with
    | nil =>
      intro st c st' c' he
      simp only [runSweep, Option.some.injEq, Prod.mk.injEq] at he
      rw [he.1]
      exact List.prefix_refl _
    | cons v vs ih =>
      intro st c st' c' he
      unfold runSweep at he
      cases hav : st.system.average v with
      | none => rw [hav] at he; cases he
      | some r =>
        rw [hav] at he
        exact (List.prefix_append _ _).trans (ih _ _ _ _ he)
  intro fuel
  induction fuel with
  | zero => intro st st' _ _ h; simp [solveLoop] at h
  | succ fuel ih =>
    intro st st' h hlog he
    unfold solveLoop at he
    split at he
    · cases he
    · rename_i st1 c1 h1
      obtain ⟨i1, i2, i3, -⟩ := runSweep_inv _ _ _ _ _ h
        (fun v hv => by rw [← h.same.keys]; exact forwardVars_lt hv) h1
      have l1 := hrec st st1 i1 hlog i2 i3 (hpre _ _ _ _ _ h1)
      have r1 := record_inv i1
      have e1 : st1.record.objectiveAtSweep.getLast? = some st1.record.last := by
        simp [SweepState.record]
      dsimp only at he
      split at he
      · split at he
        · exact ih _ _ r1 l1 he
        · cases he
          exact ⟨r1, l1, by simp [SweepState.record], e1⟩
      · split at he
        · cases he
        · rename_i st2 c2 h2
          obtain ⟨k1, k2, k3, -⟩ := runSweep_inv _ _ _ _ _ r1
            (fun v hv => by rw [← h.same.keys]; exact reverseVars_lt hv) h2
          have l2 := hrec st1.record st2 k1 l1 k2 k3 (hpre _ _ _ _ _ h2)
          have r2 := record_inv k1
          split at he
          · exact ih _ _ r2 l2 he
          · cases he
            exact ⟨r2, l2, by simp [SweepState.record], by simp [SweepState.record]⟩

theorem start_inv {S : System} (h : SysInv S) : SweepInv S ⟨S, none, [], [], [], []⟩ := by
  refine ⟨h, .refl S, by simp, by simp, le_refl _, rfl, by simp, by simp, rfl, by simp⟩

theorem start_log (S : System) : SweepLog ⟨S, none, [], [], [], []⟩ := by
  refine ⟨rfl, by simp⟩

/-- Enough fuel. -/
theorem solveLoop_stops {S : System} {tol : ℚ} {late : Nat → Bool}
    (hu : ∀ s ∈ S.subs, 0 < s.memo.dag.numKeys) {B : ℚ}
    (hB : ∀ st, SweepInv S st → dualValue st.system ≤ (B : Cost)) : ∀ (n : Nat) (fuel : Nat)
    (st : SweepState), SweepInv S st → n < fuel →
    (st.last ≠ none → (B : Cost) < dualValue st.system + ((n * tol : ℚ) : Cost)) →
    (st.last = none → 0 < n → ((B - (n - 1) * tol : ℚ) : Cost) < dualValue st.system) →
    (st.last = none → 0 < n) →
    ∃ st', solveLoop tol late fuel st = .ok st' := by
  intro n
  induction n with
  | zero =>
    intro fuel st h hf h1 h2 h3
    have hl : st.last ≠ none := fun hc => absurd (h3 hc) (by simp)
    have := h1 hl
    simp only [Nat.cast_zero, zero_mul, WithTop.coe_zero, add_zero] at this
    exact absurd (hB st h) (not_le.2 this)
  | succ n ih =>
    intro fuel st h hf h1 h2 h3
    obtain ⟨fuel, rfl⟩ : ∃ f, fuel = f + 1 := ⟨fuel - 1, by omega⟩
    have hf' : n < fuel := by omega
    -- what remains to be shown after one iteration
    have key : ∀ (st2 : SweepState), SweepInv S st2 → dualValue st.system ≤ dualValue st2.system →
        (st.last = none → st2.last ≠ none) → (st.last ≠ none → st2.last ≠ none) →
        (st.last ≠ none → dualValue st.system + (tol : Cost) < dualValue st2.system) →
        ∃ st', solveLoop tol late fuel st2 = .ok st' := by
      intro st2 k1 k2 k3 k4 k5
      have hl2 : st2.last ≠ none := by
        by_cases hl : st.last = none
        · exact k3 hl
        · exact k4 hl
      refine ih fuel st2 k1 hf' ?_ (fun hc => absurd hc hl2) (fun hc => absurd hc hl2)
      intro _
      by_cases hl : st.last = none
      · have h2' := h2 hl (by omega)
        have h4 := lt_of_lt_of_le h2' k2
        generalize dualValue st2.system = d at h4
        induction d using WithTop.recTopCoe with
        | top => rw [WithTop.top_add]; exact WithTop.coe_lt_top B
        | coe d =>
          rw [WithTop.coe_lt_coe] at h4
          rw [← WithTop.coe_add, WithTop.coe_lt_coe]
          push_cast at h4
          linarith
      · have h4 := h1 hl
        have h5 := k5 hl
        generalize dualValue st.system = d0 at h4 h5
        generalize dualValue st2.system = d at h5
        induction d using WithTop.recTopCoe with
        | top => rw [WithTop.top_add]; exact WithTop.coe_lt_top B
        | coe d =>
          induction d0 using WithTop.recTopCoe with
          | top => rw [WithTop.top_add] at h5; exact absurd h5 (by simp)
          | coe d0 =>
            rw [← WithTop.coe_add, WithTop.coe_lt_coe] at h4 h5 ⊢
            push_cast at h4
            linarith
    obtain ⟨⟨st1, c1⟩, e1⟩ := runSweep_isSome (tol := tol) hu (forwardVars st.system.numKeys) st false h
      (fun v hv => by rw [← h.same.keys]; exact forwardVars_lt hv)
    obtain ⟨i1, i2, i3, i4, i5, i6, i7, i8⟩ := runSweep_inv _ _ _ _ _ h
        (fun v hv => by rw [← h.same.keys]; exact forwardVars_lt hv) e1
    have r1 := record_inv i1
    have hnone1 : c1 = true → st1.last ≠ none := by
      intro hc
      by_cases hv : forwardVars st.system.numKeys = []
      · have := (i7 hv).2
        rw [hc] at this; cases this
      · rw [i6 hv]; simp
    unfold solveLoop
    rw [e1]
    dsimp only
    by_cases hlate : late st1.record.objectiveAtSweep.length = true
    · rw [if_pos hlate]
      by_cases hc1 : c1 = true
      · rw [if_pos hc1]
        refine key st1.record r1 i5 (fun _ => hnone1 hc1) (fun _ => hnone1 hc1) ?_
        intro hl
        rcases i8 hc1 with h' | h' | h'
        · cases h'
        · exact absurd h' hl
        · exact h'
      · rw [if_neg hc1]
        exact ⟨_, rfl⟩
    · rw [if_neg hlate]
      obtain ⟨⟨st2, c2⟩, e2⟩ := runSweep_isSome (tol := tol) hu (reverseVars st.system.numKeys)
        st1.record c1 r1 (fun v hv => by rw [← h.same.keys]; exact reverseVars_lt hv)
      obtain ⟨j1, j2, j3, j4, j5, j6, j7, j8⟩ := runSweep_inv _ _ _ _ _ r1
        (fun v hv => by rw [← h.same.keys]; exact reverseVars_lt hv) e2
      have r2 := record_inv j1
      rw [e2]
      dsimp only
      by_cases hc2 : c2 = true
      · rw [if_pos hc2]
        have hnone2 : st2.last ≠ none := by
          by_cases hv : reverseVars st.system.numKeys = []
          · obtain ⟨h7, h8⟩ := j7 hv
            rw [h7]
            apply hnone1
            rw [← h8]; exact hc2
          · rw [j6 hv]; simp
        refine key st2.record r2 (i5.trans j5) (fun _ => hnone2) (fun _ => hnone2) ?_
        intro hl
        rcases j8 hc2 with h' | h' | h'
        · rcases i8 h' with h'' | h'' | h''
          · cases h''
          · exact absurd h'' hl
          · exact lt_of_lt_of_le h'' j5
        · -- the first sweep left the last objective as it was
          exfalso
          by_cases hv : forwardVars st.system.numKeys = []
          · have := (i7 hv).1
            rw [this] at h'
            exact hl h'
          · have := i6 hv
            rw [show st1.record.last = st1.last from rfl, this] at h'
            cases h'
        · refine lt_of_le_of_lt ?_ h'
          exact add_le_add i5 (le_refl _)
      · rw [if_neg hc2]
        exact ⟨_, rfl⟩

/-! ### greedy extraction -/

theorem argMin_spec {n : Nat} (hn : 0 < n) (t : Nat → Cost) :
    argMin n t < n ∧ (∀ x < n, t (argMin n t) ≤ t x) ∧ ∀ x < argMin n t, t (argMin n t) < t x := by
  have : ∀ m, m ≤ n → 0 < m →
      (List.range m).foldl (fun best x => if t x < t best then x else best) 0 < m ∧
      (∀ x < m, t ((List.range m).foldl (fun best x => if t x < t best then x else best) 0) ≤ t x) ∧
      ∀ x < (List.range m).foldl (fun best x => if t x < t best then x else best) 0,
        t ((List.range m).foldl (fun best x => if t x < t best then x else best) 0) < t x := by
    intro m
    induction m with
    | zero => intro _ h; omega
    | succ m ih =>
      intro hm _
      rw [List.range_succ, List.foldl_append]
      by_cases h0 : m = 0
      · subst h0
        simp
      · obtain ⟨h1, h2, h3⟩ := ih (by omega) (by omega)
        simp only [List.foldl_cons, List.foldl_nil]
        generalize (List.range m).foldl (fun best x => if t x < t best then x else best) 0 = b at *
        split
        · rename_i hlt
          refine ⟨by omega, ?_, ?_⟩
          · intro x hx
            rcases Nat.lt_succ_iff_lt_or_eq.1 hx with hx | rfl
            · exact hlt.le.trans (h2 x hx)
            · exact le_refl _
          · intro x hx
            exact lt_of_lt_of_le hlt (h2 x hx)
        · rename_i hlt
          refine ⟨by omega, ?_, h3⟩
          intro x hx
          rcases Nat.lt_succ_iff_lt_or_eq.1 hx with hx | rfl
          · exact h2 x hx
          · exact not_lt.1 hlt
  exact this n (le_refl n) hn

/-- The state of greedy extraction with the variables `done` fixed. -/
structure GreedyInv (S0 S : System) (done : Nat → Prop) (a : Nat → Nat) : Prop where
  inv : SysInv S
  keys : S.numKeys = S0.numKeys
  values : S.numValues = S0.numValues
  dags : (views S).map (fun w => (w.dag, w.index)) = (views S0).map fun w => (w.dag, w.index)
  bound : ∀ v, done v → a v < S0.numValues
  chosen : ∀ v, done v → S.extra v (a v) = S0.extra v (a v)
  other : ∀ v, ¬ done v → S.extra v = S0.extra v
  pens : ∀ v, done v → ∀ w ∈ views S, ∀ k, w.index v = some k → ∀ x, x ≠ a v → w.pen k x = ⊤

theorem greedy_step {S0 S S' : System} {done : Nat → Prop} {a : Nat → Nat} {v : Nat}
    {mm : Nat → Cost} (h : GreedyInv S0 S done a) (hv : v < S0.numKeys) (hd : ¬ done v)
    (hm : S.minMarginals v = some (S', mm)) (hV : S.numValues ≠ 0) :
    GreedyInv S0 (S'.forbid v (fun x => decide (x ≠ argMin S.numValues mm)))
      (fun u => u = v ∨ done u) (fun u => if u = v then argMin S.numValues mm else a u) := by
  obtain ⟨i1, i2, i3, i4, i5, -⟩ := h.inv.minMarginals hm
  have hv' : v < S'.numKeys := by rw [i4, h.keys]; exact hv
  obtain ⟨j1, j2⟩ := i1.forbid hv' (fun x => decide (x ≠ argMin S.numValues mm))
  obtain ⟨c1, -, -⟩ := argMin_spec (Nat.pos_of_ne_zero hV) mm
  generalize argMin S.numValues mm = c at *
  refine ⟨j1, i4.trans h.keys, i5.trans h.values, ?_, ?_, ?_, ?_, ?_⟩
  · rw [j2, update_same, i2]; exact h.dags
  · rintro u hu
    split
    · rw [← h.values]; exact c1
    · rename_i hne
      exact h.bound u (by tauto)
  · rintro u hu
    simp only [System.forbid]
    by_cases hne : u = v
    · subst hne
      simp only [↓reduceIte, ne_eq, not_true_eq_false, decide_false, Bool.false_eq_true, and_false]
      rw [i3, h.other u hd]
    · simp only [hne, ↓reduceIte, false_and]
      rw [i3]
      exact h.chosen u (by tauto)
  · intro u hu
    have hne : u ≠ v := fun hc => hu (.inl hc)
    funext x
    simp only [System.forbid, hne, false_and, ↓reduceIte]
    rw [i3, h.other u (fun hc => hu (.inr hc))]
  · intro u hu w hw k hk x hx
    rw [j2] at hw
    obtain ⟨w0, hw0, rfl⟩ := List.mem_map.1 hw
    rw [update_index] at hk
    have hok := i1.inv.ok w0 hw0
    by_cases hne : u = v
    · subst hne
      rw [if_pos rfl] at hx
      rw [update_pen_same _ _ hk]
      simp [forbidPen, hx]
    · rw [if_neg hne] at hx
      rw [update_pen_other v _ hok hk hne]
      rw [i2] at hw0
      exact h.pens u (by tauto) w0 hw0 k hk x hx

/-- The sum of min-marginals at the last variable is the exact cost. -/
theorem greedy_last {S0 S : System} {done : Nat → Prop} {a : Nat → Nat} {v : Nat}
    (h : GreedyInv S0 S done a) (hv : v < S0.numKeys) {c : Nat} (hc : c < S0.numValues)
    (hall : ∀ u < S0.numKeys, u = v ∨ done u) (hd : ¬ done v) :
    IsMinimum (Joint S0 (fun u => if u = v then c else a u))
      (jointCost S0 (fun u => if u = v then c else a u))
      ((views S).map fun w => w.marg v c).sum := by
  have hav : (fun u => if u = v then c else a u) v = c := by simp
  have hao : ∀ u, u ≠ v → (fun u => if u = v then c else a u) u = a u := by
    intro u hu; simp [hu]
  generalize (fun u => if u = v then c else a u) = b at *
  have hcost : ∀ paths, vCost S.numKeys S.extra b paths = jointCost S0 b paths := by
    intro paths
    unfold vCost jointCost
    rw [h.keys]
    congr 2
    apply List.map_congr_left
    intro u hu
    by_cases hne : u = v
    · subst hne; rw [h.other u hd]
    · rw [hao u hne]
      exact h.chosen u ((hall u (by simpa using hu)).resolve_left hne)
  have hjoint : ∀ paths, Joint S0 b paths ↔ VJoint S.numKeys S.numValues (views S) b paths := by
    intro paths
    rw [joint_iff, h.keys, h.values]
    exact ⟨vjoint_same h.dags, vjoint_same h.dags.symm⟩
  constructor
  · intro paths hj
    rw [← hcost, ← hav]
    exact h.inv.inv.marg_le ((hjoint paths).1 hj) v
  · by_cases htop : ((views S).map fun w => w.marg v c).sum = ⊤
    · exact .inl htop
    · right
      have hfin := lt_top_iff_ne_top.2 htop
      rw [sum_lt_top, List.forall_mem_map] at hfin
      -- the best paths
      have hpath : ∀ w ∈ views S, ∃ p, (Complete w.dag p ∧
          ∀ u k x, w.index u = some k → (k, x) ∈ assignments p → x = b u)
          ∧ pathCost w.pen p = w.marg v c := by
        intro w hw
        have hok := h.inv.inv.ok w hw
        have hlt := hfin w hw
        have hgo : ∃ p, Complete w.dag p ∧ pathCost w.pen p = w.marg v c ∧
            ∀ k x, w.index v = some k → (k, x) ∈ assignments p → x = c := by
          unfold View.marg at hlt ⊢
          cases hk : w.index v with
          | none =>
            rw [hk] at hlt
            rcases (costOf_min hok.wf w.pen).attained with h' | ⟨p, hp, h'⟩
            · rw [View.cost, h'] at hlt; simp at hlt
            · exact ⟨p, hp, h', by simp⟩
          | some k =>
            rw [hk] at hlt
            rcases (margOf_min hok.wf w.pen (hok.lt v k hk).2 c).attained with h' | ⟨p, hp, h'⟩
            · dsimp only at hlt; rw [h'] at hlt; simp at hlt
            · refine ⟨p, hp.1, h', ?_⟩
              intro k' x hk' hm
              simp only [Option.some.injEq] at hk'
              subst hk'
              exact complete_unique hok.wf hp.1 hm hp.2
        obtain ⟨p, hp1, hp2, hp3⟩ := hgo
        refine ⟨p, ⟨hp1, ?_⟩, hp2⟩
        intro u k x hk hm
        by_cases hne : u = v
        · subst hne; rw [hav]; exact hp3 k x hk hm
        · by_contra hx
          have hlt' : pathCost w.pen p < ⊤ := by rw [hp2]; exact hlt
          rw [pathCost_lt_top] at hlt'
          have h1 := hlt'.2 (k, x) hm
          have hu : u < S0.numKeys := by rw [← h.keys]; exact (hok.lt u k hk).1
          rw [hao u hne] at hx
          rw [h.pens u ((hall u hu).resolve_left hne) w hw k hk x hx] at h1
          simp at h1
      -- collect them
      have hcollect : ∀ ws : List View, (∀ w ∈ ws, ∃ p, (Complete w.dag p ∧
          ∀ u k x, w.index u = some k → (k, x) ∈ assignments p → x = b u)
          ∧ pathCost w.pen p = w.marg v c) → ∃ paths : List (List PackedEdge),
          List.Forall₂ (fun (w : View) p => Complete w.dag p ∧
            ∀ u k x, w.index u = some k → (k, x) ∈ assignments p → x = b u) ws paths
          ∧ (List.zipWith (fun (w : View) p => pathCost w.pen p) ws paths).sum
            = (ws.map fun w => w.marg v c).sum := by
        intro ws
        induction ws with
        | nil => intro _; exact ⟨[], .nil, rfl⟩
        | cons w ws ih =>
          intro hws
          obtain ⟨p, hp, hpc⟩ := hws w (by simp)
          obtain ⟨ps, h1, h2⟩ := ih fun w' hw' => hws w' (List.mem_cons_of_mem _ hw')
          refine ⟨p :: ps, .cons hp h1, ?_⟩
          simp [hpc, h2]
      obtain ⟨paths, hp1, hp2⟩ := hcollect _ hpath
      have hvj : VJoint S.numKeys S.numValues (views S) b paths := by
        refine ⟨?_, hp1⟩
        intro u hu
        rw [h.keys] at hu
        rw [h.values]
        by_cases hne : u = v
        · subst hne; rw [hav]; exact hc
        · rw [hao u hne]; exact h.bound u ((hall u hu).resolve_left hne)
      refine ⟨paths, (hjoint paths).2 hvj, ?_⟩
      rw [← hcost, ← hp2]
      have hzlt : (List.zipWith (fun (w : View) p => pathCost w.pen p) (views S) paths).sum < ⊤ := by
        rw [hp2]; exact lt_top_iff_ne_top.2 htop
      rw [joint_charges h.inv.inv.ok hvj, vCost]
      congr 2
      apply List.map_congr_left
      intro u hu
      have hu : u < S.numKeys := by simpa using hu
      rcases h.inv.inv.bal u hu (b u) (hvj.values u hu) with h' | h'
      · exact h'.symm
      · exfalso
        obtain ⟨w, hw, k, hk⟩ := h.inv.inv.part u hu
        obtain ⟨p, hq1, hq2, hq3⟩ := joint_path hp1 hzlt hw
        have hok := h.inv.inv.ok w hw
        obtain ⟨x, hx, hm⟩ := complete_value hok.wf hq1 (hok.lt u k hk).2
        have hxe := hq2 u k x hk hm
        rw [pathCost_lt_top] at hq3
        have := hq3.2 (k, x) hm
        rw [hxe, h'.pens w hw k hk] at this
        simp at this

theorem greedyLoop_spec {S0 : System} : ∀ (vs : List Nat) (S : System) (done : Nat → Prop)
    (a : Nat → Nat) (c : Option Cost) (S' : System) (a' : Nat → Nat) (c' : Option Cost),
    GreedyInv S0 S done a → vs.Nodup → (∀ v ∈ vs, v < S0.numKeys ∧ ¬ done v) →
    (∀ v < S0.numKeys, v ∈ vs ∨ done v) → greedyLoop vs S a c = some (S', a', c') →
    (∀ v < S0.numKeys, a' v < S0.numValues) ∧ (∀ v, done v → a' v = a v) ∧
    (vs ≠ [] → ∃ C, c' = some C ∧ IsMinimum (Joint S0 a') (jointCost S0 a') C) ∧
    (vs = [] → c' = c) := by
  intro vs
  induction vs with
  | nil =>
    intro S done a c S' a' c' h _ _ hall he
    simp only [greedyLoop, Option.some.injEq, Prod.mk.injEq] at he
    obtain ⟨rfl, rfl, rfl⟩ := he
    refine ⟨?_, fun _ _ => rfl, by simp, fun _ => rfl⟩
    intro v hv
    exact h.bound v ((hall v hv).resolve_left (by simp))
  | cons v vs ih =>
    intro S done a c S' a' c' h hnd hvs hall he
    obtain ⟨hv, hdv⟩ := hvs v (by simp)
    rw [List.nodup_cons] at hnd
    unfold greedyLoop at he
    cases hm : S.minMarginals v with
    | none => rw [hm] at he; cases he
    | some r =>
      obtain ⟨S1, mm⟩ := r
      rw [hm] at he
      dsimp only at he
      by_cases hV : S.numValues = 0
      · rw [if_pos hV] at he; cases he
      · rw [if_neg hV] at he
        have h1 := greedy_step h hv hdv hm hV
        obtain ⟨i1, i2, i3, i4⟩ := ih _ _ _ _ _ _ _ h1 hnd.2 (by
          intro u hu
          refine ⟨(hvs u (List.mem_cons_of_mem _ hu)).1, ?_⟩
          rintro (rfl | hd)
          · exact hnd.1 hu
          · exact (hvs u (List.mem_cons_of_mem _ hu)).2 hd) (by
          intro u hu
          rcases hall u hu with hu' | hu'
          · rcases List.mem_cons.1 hu' with rfl | hu'
            · exact .inr (.inl rfl)
            · exact .inl hu'
          · exact .inr (.inr hu')) he
        refine ⟨i1, ?_, ?_, by simp⟩
        · intro u hu
          rw [i2 u (.inr hu)]
          have : u ≠ v := fun hc => hdv (hc ▸ hu)
          simp [this]
        · intro _
          by_cases hvs' : vs = []
          · subst hvs'
            have hc' := i4 rfl
            obtain ⟨-, -, -, -, -, i6⟩ := h.inv.minMarginals hm
            have hlast := greedy_last h hv (c := argMin S.numValues mm)
              (by rw [← h.values]; exact (argMin_spec (Nat.pos_of_ne_zero hV) mm).1)
              (by
                intro u hu
                rcases hall u hu with hu' | hu'
                · simp only [List.mem_singleton] at hu'
                  exact .inl hu'
                · exact .inr hu') hdv
            refine ⟨_, hc', ?_⟩
            rw [i6]
            -- the assignments agree on the variables
            have hag : ∀ u < S0.numKeys, a' u = if u = v then argMin S.numValues mm else a u := by
              intro u hu
              apply i2
              rcases hall u hu with hu' | hu'
              · simp only [List.mem_singleton] at hu'
                exact .inl hu'
              · exact .inr hu'
            have hJ : ∀ paths, Joint S0 a' paths
                ↔ Joint S0 (fun u => if u = v then argMin S.numValues mm else a u) paths := by
              have hlt : ∀ w ∈ views S0, ∀ u k, w.index u = some k → u < S0.numKeys := by
                intro w hw u k hk
                have : (w.dag, w.index) ∈ (views S).map fun w => (w.dag, w.index) := by
                  rw [h.dags]; exact List.mem_map.2 ⟨w, hw, rfl⟩
                obtain ⟨w', hw', he'⟩ := List.mem_map.1 this
                simp only [Prod.mk.injEq] at he'
                rw [← he'.2] at hk
                rw [← h.keys]
                exact ((h.inv.inv.ok w' hw').lt u k hk).1
              have mk : ∀ (b b' : Nat → Nat) paths, (∀ u < S0.numKeys, b u = b' u) →
                  Joint S0 b paths → Joint S0 b' paths := by
                intro b b' paths hbb hj
                rw [joint_iff] at hj ⊢
                refine ⟨fun u hu => by rw [← hbb u hu]; exact hj.values u hu, ?_⟩
                have hf := hj.paths
                clear hj
                generalize views S0 = ws at hf hlt
                induction hf with
                | nil => exact .nil
                | @cons w p ws ps h1 _ ih' =>
                  refine .cons ⟨h1.1, ?_⟩ (ih' fun w' hw' => hlt w' (List.mem_cons_of_mem _ hw'))
                  intro u k x hk hx
                  rw [← hbb u (hlt w (by simp) u k hk)]
                  exact h1.2 u k x hk hx
              intro paths
              exact ⟨mk _ _ paths hag, mk _ _ paths fun u hu => (hag u hu).symm⟩
            have hC : ∀ paths, jointCost S0 a' paths
                = jointCost S0 (fun u => if u = v then argMin S.numValues mm else a u) paths := by
              intro paths
              unfold jointCost
              congr 2
              apply List.map_congr_left
              intro u hu
              rw [hag u (by simpa using hu)]
            constructor
            · intro paths hj
              rw [hC]
              exact hlast.le paths ((hJ paths).1 hj)
            · rcases hlast.attained with h' | ⟨paths, hj, h'⟩
              · exact .inl h'
              · exact .inr ⟨paths, (hJ paths).2 hj, by rw [hC]; exact h'⟩
          · exact i3 hvs'

theorem greedy_start {S : System} (h : SysInv S) : GreedyInv S S (fun _ => False) (fun _ => 0) := by
  refine ⟨h, rfl, rfl, rfl, by simp, by simp, by simp, by simp⟩

theorem order_nodup (n : Nat) (dir : Direction) : (dir.order n).Nodup := by
  cases dir
  · exact List.nodup_range
  · simp only [Direction.order, List.nodup_reverse]; exact List.nodup_range

theorem mem_order {n v : Nat} (dir : Direction) : v ∈ dir.order n ↔ v < n := by
  cases dir <;> simp [Direction.order]

end RUSure.Lemmas
