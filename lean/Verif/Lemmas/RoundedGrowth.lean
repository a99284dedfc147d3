import Verif.Lemmas.RoundedSystem
import Verif.Lemmas.RoundedGreedy

/-! # How large penalties can get in a number of averaging steps -/

namespace RUSure.Lemmas.Rnd
open RUSure RUSure.Spec RUSure.Lemmas RUSure.Rounded

/-! ## Path lengths -/

/-- A walk is a part of the list of edges, in order. -/
theorem walk_sublist {σ ε : Type} {src dst : ε → σ} : ∀ {E : List ε}, Topo src dst E →
    ∀ {p : List ε} {a b : σ}, Walk src dst E a b p → p.Sublist E := by
  intro E
  induction E with
  | nil =>
    intro _ p a b h
    cases h with
    | nil => simp
    | cons he _ => simp at he
  | cons x E ih =>
    intro ht p a b h
    have ht' : Topo src dst E := ⟨(List.pairwise_cons.1 ht.1).2, fun e he => ht.2 e (by simp [he])⟩
    -- the first edge can only be used at once
    have key : ∀ {p : List ε} {a b : σ}, Walk src dst (x :: E) a b p →
        (∃ e ∈ x :: E, dst e = a) → Walk src dst E a b p := by
      intro p a b h
      induction h with
      | nil => intro _; exact .nil _
      | @cons e b p he hw ih =>
        rintro ⟨e0, h0, h1⟩
        rcases List.mem_cons.1 he with rfl | he'
        · rcases List.mem_cons.1 h0 with rfl | h0'
          · exact absurd h1 (ht.2 e0 (by simp))
          · exact absurd h1 ((List.pairwise_cons.1 ht.1).1 e0 h0')
        · exact .cons he' (ih ⟨e, he, rfl⟩)
    cases h with
    | nil => simp
    | @cons e b p he hw =>
      have hw' := key hw ⟨e, he, rfl⟩
      rcases List.mem_cons.1 he with rfl | he'
      · exact (ih ht' hw').cons_cons e
      · exact (ih ht' (.cons he' hw')).cons x

/-- Complete paths visit every state at most once. -/
theorem path_length {d : PackedDag} (wf : PackedWF d) {p : List PackedEdge} (hp : Complete d p) :
    p.length + 1 ≤ d.numStates := by
  have hsub := walk_sublist wf.topo hp
  have hpw : p.Pairwise (fun e e' => e'.dest ≠ e.source) := wf.topo.1.sublist hsub
  have hloop : ∀ e ∈ p, e.dest ≠ e.source := fun e he => wf.topo.2 e (hsub.subset he)
  have hst : ∀ e ∈ p, e.source < d.numStates ∧ e.dest < d.numStates :=
    fun e he => (edge_tag_mono wf (hsub.subset he)).2.2
  have h0 : 0 < d.numStates := start_lt wf
  -- the states after the first one
  have hnd : ∀ (p : List PackedEdge) (a b : Nat), Walk PackedEdge.source PackedEdge.dest d.edges a b p →
      p.Pairwise (fun e e' => e'.dest ≠ e.source) → (∀ e ∈ p, e.dest ≠ e.source) →
      (a :: p.map PackedEdge.dest).Nodup := by
    intro p
    induction p with
    | nil => intro a b _ _ _; simp
    | cons e p ih =>
      intro a b hw h1 h2
      rw [Walk.cons_iff] at hw
      obtain ⟨-, rfl, hw⟩ := hw
      rw [List.map_cons, List.nodup_cons]
      refine ⟨?_, ih _ _ hw (List.pairwise_cons.1 h1).2 fun e' he' => h2 e' (by simp [he'])⟩
      intro hc
      rcases List.mem_cons.1 hc with hc | hc
      · exact h2 e (by simp) hc.symm
      · obtain ⟨e', he', hc⟩ := List.mem_map.1 hc
        exact (List.pairwise_cons.1 h1).1 e' he' hc
  have := hnd p _ _ hp hpw hloop
  have hle := List.subperm_of_subset this (l₂ := List.range d.numStates) (by
    intro s hs
    rw [List.mem_range]
    rcases List.mem_cons.1 hs with rfl | hs
    · exact h0
    · obtain ⟨e, he, rfl⟩ := List.mem_map.1 hs
      exact (hst e he).2)
  have := hle.length_le
  simp at this
  omega

/-! ## Ranges from bounds on penalties -/

/-- Finite costs are in `F`; complete paths have at most `n` edges, with costs of total size at most
`C`. -/
structure Costed (F : ℚ → Prop) (d : PackedDag) (n : Nat) (C : ℚ) : Prop where
  member : ∀ e ∈ d.edges, ∀ x : ℚ, e.cost = x → F x
  length : ∀ p, Complete d p → p.length ≤ n
  total : ∀ p, Complete d p → ∀ l : List ℚ, p.map PackedEdge.cost = coes l → (l.map abs).sum ≤ C

/-- Finite penalties are in `F` and have at most size `P`. -/
def Penned (F : ℚ → Prop) (pen : Penalties) (P : ℚ) : Prop :=
  ∀ k x, ∀ q : ℚ, pen k x = q → F q ∧ |q| ≤ P

theorem penalty_penned {F : ℚ → Prop} {pen : Penalties} {P : ℚ} (h0 : F 0) (hP : 0 ≤ P)
    (h : Penned F pen P) (e : PackedEdge) (q : ℚ) (hq : e.penalty pen = q) : F q ∧ |q| ≤ P := by
  unfold PackedEdge.penalty at hq
  split at hq
  · obtain rfl : (0 : ℚ) = q := WithTop.coe_inj.1 hq
    exact ⟨h0, by simpa using hP⟩
  · exact h _ _ q hq

theorem range_of_penned {F : ℚ → Prop} {d : PackedDag} {pen : Penalties} {n : Nat} {C P : ℚ}
    (h0 : F 0) (hP : 0 ≤ P) (hc : Costed F d n C) (hp : Penned F pen P) :
    InRange F d pen n (C + n * P) := by
  refine ⟨?_, hc.length, ?_⟩
  · rintro e he x (hx | hx)
    · exact hc.member e he x hx
    · exact (penalty_penned h0 hP hp e x hx).1
  · intro p hcp t ht
    obtain ⟨l, h1, -, rfl⟩ := ht
    have key : ∀ (p : List PackedEdge) (l : List ℚ), summands pen p = coes l →
        ∃ l1 : List ℚ, p.map PackedEdge.cost = coes l1
          ∧ (l.map abs).sum ≤ (l1.map abs).sum + p.length * P := by
      intro p
      induction p with
      | nil =>
        intro l hl
        have : l = [] := by
          cases l with
          | nil => rfl
          | cons a l => simp [summands, coes] at hl
        subst this
        exact ⟨[], rfl, by simp⟩
      | cons e p ih =>
        intro l hl
        have e1 : summands pen (e :: p) = e.cost :: e.penalty pen :: summands pen p := by
          simp [summands]
        rw [e1] at hl
        match l, hl with
        | [], hl => simp [coes] at hl
        | [a], hl => simp [coes] at hl
        | a :: b :: l, hl =>
          simp only [coes, List.map_cons, List.cons.injEq] at hl
          obtain ⟨g1, g2, g3⟩ := hl
          obtain ⟨l1, k1, k2⟩ := ih l g3
          refine ⟨a :: l1, by simp only [coes, List.map_cons, g1]; rw [k1]; rfl, ?_⟩
          have := (penalty_penned h0 hP hp e b g2).2
          simp only [List.map_cons, List.sum_cons, List.length_cons, Nat.cast_add, Nat.cast_one]
          linarith
    obtain ⟨l1, k1, k2⟩ := key p l h1
    have k3 := hc.total p hcp l1 k1
    have k4 : (p.length : ℚ) * P ≤ n * P :=
      mul_le_mul_of_nonneg_right (by exact_mod_cast hc.length p hcp) hP
    linarith

/-! ## One step -/

variable {A : Arith} {F : ℚ → Prop} {u τ η limit : ℚ}

theorem rangeNeeded_mono (hu : 0 ≤ u) (hη : 0 ≤ η) {N n : Nat} {M M' : ℚ} (h : M ≤ M') :
    rangeNeeded u η τ N n M 0 ≤ rangeNeeded u η τ N n M' 0 := by
  unfold rangeNeeded
  have h1 := one_le_pow_u hu (2 * n + N + 4)
  have h2 : (N : ℚ) * M ≤ N * M' := mul_le_mul_of_nonneg_left h (Nat.cast_nonneg _)
  have h3 : 0 ≤ 2 * (1 + η) * (1 + u) ^ (2 * n + N + 4) := by positivity
  have := mul_le_mul_of_nonneg_left (add_le_add_left h2 0) h3
  linarith

theorem abs_sum_length {l : List ℚ} {G : ℚ} (h : ∀ x ∈ l, |x| ≤ G) : (l.map abs).sum ≤ l.length * G := by
  induction l with
  | nil => simp
  | cons x l ih =>
    have h1 := ih fun y hy => h y (List.mem_cons_of_mem _ hy)
    have h2 := h x (by simp)
    simp only [List.map_cons, List.sum_cons, List.length_cons, Nat.cast_add, Nat.cast_one]
    linarith

/-- The size of a new penalty. -/
theorem newPenalty_size (hA : AccurateArith A F u τ limit) (hu : 0 ≤ u) (hτ : 0 ≤ τ) (hη : 0 ≤ η)
    {cs : List Cost} {N n : Nat} {M X : ℚ} (hM : 0 ≤ M) (hX : 0 ≤ X) (hN : cs.length ≤ N)
    (hcs : ∀ m ∈ cs, m < ⊤ → ∃ q : ℚ, m = q ∧ F q ∧ |q| ≤ (1 + u) ^ (2 * n + 1) * M)
    {x : Cost} (hx : ∀ c : ℚ, x = c → F c ∧ |c| ≤ X)
    (hl : rangeNeeded u η τ N n M X ≤ limit) {m : Cost} (hm : m ∈ cs) {s : ℚ} (hs0 : 0 ≤ s)
    (hs1 : s ≤ 1 + η) {q : ℚ}
    (hq : Rounded.newPenalty A (A.add (machineSum A.toMachine cs) x) s m = q) :
    F q ∧ |q| ≤ (1 + u) * rangeNeeded u η τ N n M X := by
  unfold Rounded.newPenalty at hq
  split at hq
  · exact absurd hq.symm WithTop.coe_ne_top
  rename_i hmul
  have hT : A.add (machineSum A.toMachine cs) x ≠ ⊤ := by
    intro hc
    rw [hc, A.mul_top] at hmul
    exact hmul rfl
  have hT0 : machineSum A.toMachine cs < ⊤ := by
    rw [lt_top_iff_ne_top]
    intro hc
    rw [hc, A.top_left] at hT
    exact hT rfl
  obtain ⟨x0, rfl⟩ : ∃ x0 : ℚ, x = x0 := by
    cases hc : x using WithTop.recTopCoe with
    | top => rw [hc, A.top_right] at hT; exact absurd rfl hT
    | coe x0 => exact ⟨x0, rfl⟩
  obtain ⟨x1, x2⟩ := hx x0 rfl
  obtain ⟨l, rfl⟩ := machineSum_finite hT0
  have hmem : ∀ x ∈ l, F x ∧ |x| ≤ (1 + u) ^ (2 * n + 1) * M := by
    intro x hx
    obtain ⟨q, q1, q2, q3⟩ := hcs x (List.mem_map.2 ⟨x, hx, rfl⟩) (WithTop.coe_lt_top x)
    rw [WithTop.coe_inj.1 q1]
    exact ⟨q2, q3⟩
  obtain ⟨m0, hm0, rfl⟩ := List.mem_map.1 hm
  have hlN : l.length ≤ N := by simpa [coes] using hN
  have hN1 : (1 : ℚ) ≤ N := by
    have := List.length_pos_of_mem hm0
    exact_mod_cast (by omega : 1 ≤ N)
  have hsum := abs_sum_length fun x hx => (hmem x hx).2
  have ha : (0 : ℚ) ≤ 1 + u := by linarith
  have pG := one_le_pow_u hu (2 * n + 1)
  have hG0 : 0 ≤ (1 + u) ^ (2 * n + 1) * M := mul_nonneg (by linarith) hM
  have hsum2 : (l.map abs).sum ≤ N * ((1 + u) ^ (2 * n + 1) * M) :=
    hsum.trans (mul_le_mul_of_nonneg_right (by exact_mod_cast hlN) hG0)
  have hs' := abs_sum_nonneg l
  -- the total without the extra cost
  have hY0 : (1 + u) ^ l.length * (l.map abs).sum ≤ (1 + u) ^ (2 * n + N + 1) * (N * M) := by
    have e : (1 + u) ^ (2 * n + N + 1) * (N * M)
        = (1 + u) ^ N * (N * ((1 + u) ^ (2 * n + 1) * M)) := by
      rw [show 2 * n + N + 1 = N + (2 * n + 1) by omega, pow_add]; ring
    rw [e]
    exact mul_le_mul (pow_mono hu hlN) hsum2 hs' (pow_nonneg ha _)
  have hNM : 0 ≤ (N : ℚ) * M := mul_nonneg (Nat.cast_nonneg _) hM
  have hYX : (1 + u) ^ (2 * n + N + 1) * (N * M) + X ≤ (1 + u) ^ (2 * n + N + 1) * (N * M + X) := by
    have := mul_le_mul_of_nonneg_right (one_le_pow_u hu (2 * n + N + 1)) hX
    rw [mul_add]
    linarith
  have hY1 : 0 ≤ (1 + u) ^ (2 * n + N + 1) * (N * M) := mul_nonneg (pow_nonneg ha _) hNM
  have hmY : |m0| ≤ (1 + u) ^ (2 * n + N + 1) * (N * M) := by
    refine (hmem m0 hm0).2.trans ?_
    exact mul_le_mul (pow_mono hu (by omega)) (by nlinarith) hM (pow_nonneg ha _)
  generalize hY' : (1 + u) ^ (2 * n + N + 1) * (N * M) = Y' at *
  generalize hY : (1 + u) ^ (2 * n + N + 1) * (N * M + X) = Y at *
  have hYpos : 0 ≤ Y := by linarith
  have hR : rangeNeeded u η τ N n M X = 2 * (1 + η) * ((1 + u) ^ 3 * Y) + τ := by
    rw [← hY]
    unfold rangeNeeded
    rw [show 2 * n + N + 4 = 3 + (2 * n + N + 1) by omega, pow_add]
    ring
  rw [hR] at hl ⊢
  replace hmY : |m0| ≤ Y := by linarith
  have c1 : (1 + u) * Y ≤ (1 + u) ^ 3 * Y := by
    have := pow_mono hu (show 1 ≤ 3 by omega)
    rw [pow_one] at this
    exact mul_le_mul_of_nonneg_right this hYpos
  have c2 : (1 + u) ^ 2 * Y ≤ (1 + u) ^ 3 * Y :=
    mul_le_mul_of_nonneg_right (pow_mono hu (by omega)) hYpos
  have c0 : Y ≤ (1 + u) * Y := by nlinarith
  have c4 : 0 ≤ η * ((1 + u) ^ 3 * Y) := mul_nonneg hη (by linarith)
  obtain ⟨T, t0, t1, -, t3⟩ := sum_error hA.sums hu l (fun x hx => (hmem x hx).1) (by nlinarith)
  have hTY : |T + x0| ≤ Y := by
    refine (abs_add_le _ _).trans ?_
    have := t3.trans hY0
    linarith
  obtain ⟨T', t0', t1', t3'⟩ := hA.sums.add T x0 t0 x1 (hTY.trans (by nlinarith))
  have hT'Y : |T'| ≤ (1 + u) * Y := by
    have e : T' = (T' - (T + x0)) + (T + x0) := by ring
    rw [e]
    refine (abs_add_le _ _).trans ?_
    have := mul_le_mul_of_nonneg_left hTY hu
    linarith
  have t1'' : A.add (machineSum A.toMachine (coes l)) x0 = (T' : Cost) := by rw [t1]; exact t1'
  rw [t1''] at hq hmul
  have hab : |T' * s| ≤ (1 + η) * ((1 + u) * Y) := by
    rw [abs_mul, abs_of_nonneg hs0, mul_comm]
    exact mul_le_mul hs1 hT'Y (abs_nonneg _) (by linarith)
  obtain ⟨d, d0, d1, d2⟩ := hA.mul T' s t0' (hab.trans (by nlinarith))
  have hd : |d| ≤ (1 + η) * ((1 + u) ^ 2 * Y) + τ := by
    have e : d = (d - T' * s) + T' * s := by ring
    rw [e]
    refine (abs_add_le _ _).trans ?_
    have h1 := mul_le_mul_of_nonneg_left hab hu
    have h2 : (1 + η) * ((1 + u) ^ 2 * Y) = u * ((1 + η) * ((1 + u) * Y)) + (1 + η) * ((1 + u) * Y) := by
      ring
    linarith
  have hneg : negate (m0 : Cost) = ((-m0 : ℚ) : Cost) := rfl
  rw [d1, hneg] at hq
  have hsum3 : |d + -m0| ≤ 2 * (1 + η) * ((1 + u) ^ 3 * Y) + τ := by
    refine (abs_add_le _ _).trans ?_
    rw [abs_neg]
    have : η * ((1 + u) ^ 2 * Y) ≤ η * ((1 + u) ^ 3 * Y) := mul_le_mul_of_nonneg_left c2 hη
    linarith
  obtain ⟨r, r0, r1, r2⟩ := hA.sums.add d (-m0) d0 (hA.neg m0 (hmem m0 hm0).1) (hsum3.trans hl)
  have r1' : A.add (d : Cost) ((-m0 : ℚ) : Cost) = r := r1
  rw [r1'] at hq
  obtain rfl := WithTop.coe_inj.1 hq
  refine ⟨r0, ?_⟩
  have e : r = (r - (d + -m0)) + (d + -m0) := by ring
  rw [e]
  refine (abs_add_le _ _).trans ?_
  have := mul_le_mul_of_nonneg_left hsum3 hu
  linarith

theorem step_penned (hA : AccurateArith A F u τ limit) (hu : 0 ≤ u) (hτ : 0 ≤ τ) (hη : 0 ≤ η)
    {S S' : System} {v : Nat} {b : Cost} {n : Nat} {C P X : ℚ}
    (hok : ∀ s ∈ S.subs, RSubOK A.toMachine S.numKeys S.numValues s) (hC : 0 ≤ C) (hP : 0 ≤ P)
    (hX : 0 ≤ X)
    (hc : ∀ s ∈ S.subs, Costed F s.memo.dag n C) (hp : ∀ s ∈ S.subs, Penned F s.memo.pen P)
    (hx : ∀ w x, ∀ c : ℚ, S.extra w x = c → F c ∧ |c| ≤ X) (hs : FairShares A S v η)
    (hl : rangeNeeded u η τ S.subs.length n (C + n * P) X ≤ limit)
    (he : Rounded.average A S v = some (S', b)) :
    ∀ s ∈ S'.subs,
      Penned F s.memo.pen (max P ((1 + u) * rangeNeeded u η τ S.subs.length n (C + n * P) X)) := by
  obtain ⟨rs, st, -, h2, h3, h4, -, -, -, h8, -⟩ := average_effect hok he
  have hlen := h2.length_eq
  have hM0 : 0 ≤ C + n * P := add_nonneg hC (mul_nonneg (Nat.cast_nonneg _) hP)
  have hwithout : ∀ s ∈ S.subs, Penned F (Sub.without s v) P := by
    intro s hs' k x q hq
    unfold Sub.without at hq
    split at hq
    · obtain rfl : (0 : ℚ) = q := WithTop.coe_inj.1 hq
      exact ⟨hA.sums.zero, by simpa using hP⟩
    · exact hp s hs' k x q hq
  have hrange : ∀ s ∈ S.subs, InRange F s.memo.dag (Sub.without s v) n (C + n * P) :=
    fun s hs' => range_of_penned hA.sums.zero hP (hc s hs') (hwithout s hs')
  generalize C + n * P = M at *
  have p1 := one_le_pow_u hu (2 * n + 1)
  -- sizes of the min-marginals
  have hmarg : ∀ x, ∀ m ∈ collected x rs, m < ⊤ → ∃ q : ℚ, m = q ∧ F q
      ∧ |q| ≤ (1 + u) ^ (2 * n + 1) * M := by
    intro x m hm hfin
    obtain ⟨r, hr, hrm⟩ := List.mem_filterMap.1 hm
    obtain ⟨s, hs', ho⟩ := forall₂_mem_right h2 r hr
    cases hk : s.index v with
    | none => rw [ho.out hk] at hrm; cases hrm
    | some k =>
      obtain ⟨mm, m1, m2⟩ := ho.marg k hk
      rw [m1] at hrm
      obtain rfl : mm x = m := by simpa using hrm
      refine marg_size hA.sums hu (hrange s hs') ?_ (m2 x) hfin
      have hN1 : (1 : ℚ) ≤ S.subs.length := by
        exact_mod_cast List.length_pos_of_mem hs'
      refine le_trans ?_ hl
      unfold rangeNeeded
      rw [mul_assoc (2 * (1 + η))]
      have q1 := pow_mono hu (show 2 * n ≤ 2 * n + S.subs.length + 4 by omega)
      have q2 := one_le_pow_u hu (2 * n)
      have q3 : M ≤ S.subs.length * M := by nlinarith
      have q4 : (1 + u) ^ (2 * n) * M ≤ (1 + u) ^ (2 * n + S.subs.length + 4) * (S.subs.length * M) :=
        mul_le_mul q1 q3 hM0 (by linarith)
      have q5 : 0 ≤ (1 + u) ^ (2 * n) * M := mul_nonneg (by linarith) hM0
      have q6 : (1 + u) ^ (2 * n) * M
          ≤ (1 + u) ^ (2 * n + S.subs.length + 4) * (S.subs.length * M + X) :=
        q4.trans (mul_le_mul_of_nonneg_left (by linarith) (by linarith))
      generalize (1 + u) ^ (2 * n + S.subs.length + 4) * (S.subs.length * M + X) = Z at q6 ⊢
      have q7 := mul_nonneg hη (q5.trans q6)
      linarith
  intro s' hs'
  rw [h8] at hs'
  obtain ⟨r, hr, rfl⟩ := List.mem_map.1 hs'
  obtain ⟨s, hsm, ho⟩ := forall₂_mem_right h2 r hr
  have hpen : r.1.memo.pen = Sub.without s v := by
    rw [without_eq]
    exact congrArg View.pen ho.view
  have hw : r.1.weight = s.weight := by
    have := congrArg View.weight ho.view
    rw [openView, update_weight] at this
    exact this
  have hbase : Penned F r.1.memo.pen (max P ((1 + u) * rangeNeeded u η τ S.subs.length n M X)) := by
    rw [hpen]
    intro k x q hq
    obtain ⟨q1, q2⟩ := hwithout s hsm k x q hq
    exact ⟨q1, q2.trans (le_max_left _ _)⟩
  unfold Rounded.averageClose
  split
  · exact hbase
  · rename_i k mm hrk
    intro k' x q hq
    simp only [setPenalties_pen, setPen] at hq
    split at hq
    · have hin : s.index v ≠ none := by
        intro hn
        rw [ho.out hn] at hrk
        cases hrk
      have hpart : s ∈ participants S v := by
        refine List.mem_filter.2 ⟨hsm, ?_⟩
        cases hk : s.index v with
        | none => exact absurd hk hin
        | some _ => rfl
      have hshare : A.div r.1.weight st.weight ∈ machineShares A S v := by
        rw [hw, h4]
        exact List.mem_map.2 ⟨s, hpart, rfl⟩
      have hle : A.div r.1.weight st.weight ≤ 1 + η := by
        have h5 := le_sum_of_mem hs.nonneg hshare
        have h6 := (abs_le.1 hs.total).2
        linarith
      dsimp only at hq
      rw [h3 x] at hq
      obtain ⟨g1, g2⟩ := newPenalty_size hA hu hτ hη hM0 hX (N := S.subs.length) (by
          rw [hlen]
          exact List.length_filterMap_le _ _) (hmarg x) (hx v x) hl (m := mm x)
        (List.mem_filterMap.2 ⟨r, hr, by rw [hrk]; rfl⟩) (hs.nonneg _ hshare) hle hq
      exact ⟨g1, g2.trans (le_max_right _ _)⟩
    · exact hbase k' x q hq

/-! ## Several steps -/

theorem rangeNeeded_nonneg (hu : 0 ≤ u) (hη : 0 ≤ η) (hτ : 0 ≤ τ) {N n : Nat} {M : ℚ} (hM : 0 ≤ M) :
    0 ≤ rangeNeeded u η τ N n M 0 := by
  unfold rangeNeeded
  have := one_le_pow_u hu (2 * n + N + 4)
  positivity

theorem pathSize_base (hu : 0 ≤ u) (hη : 0 ≤ η) (hτ : 0 ≤ τ) {N n : Nat} {C : ℚ} (hC : 0 ≤ C) :
    ∀ t, C ≤ pathSize u η τ N n C t
  | 0 => le_refl _
  | t + 1 => by
    have h1 := pathSize_base hu hη hτ (N := N) (n := n) hC t
    have h2 := rangeNeeded_nonneg hu hη hτ (N := N) (n := n) (hC.trans h1)
    have : 0 ≤ (n : ℚ) * ((1 + u) * rangeNeeded u η τ N n (pathSize u η τ N n C t) 0) :=
      mul_nonneg (Nat.cast_nonneg _) (mul_nonneg (by linarith) h2)
    unfold pathSize
    linarith

theorem pathSize_succ (hu : 0 ≤ u) (hη : 0 ≤ η) (hτ : 0 ≤ τ) {N n : Nat} {C : ℚ} (hC : 0 ≤ C) :
    ∀ t, pathSize u η τ N n C t ≤ pathSize u η τ N n C (t + 1)
  | 0 => pathSize_base hu hη hτ hC 1
  | t + 1 => by
    have h1 := pathSize_succ hu hη hτ (N := N) (n := n) hC t
    rw [pathSize, pathSize]
    have h2 := rangeNeeded_mono (τ := τ) hu hη (N := N) (n := n) h1
    have h3 := mul_le_mul_of_nonneg_left h2 (by linarith : 0 ≤ 1 + u)
    have h4 := mul_le_mul_of_nonneg_left h3 (Nat.cast_nonneg (α := ℚ) n)
    rw [pathSize] at h4 ⊢
    linarith

theorem pathSize_mono (hu : 0 ≤ u) (hη : 0 ≤ η) (hτ : 0 ≤ τ) {N n : Nat} {C : ℚ} (hC : 0 ≤ C) {t t' : Nat}
    (h : t ≤ t') : pathSize u η τ N n C t ≤ pathSize u η τ N n C t' := by
  induction h with
  | refl => exact le_refl _
  | step _ ih => exact ih.trans (pathSize_succ hu hη hτ hC _)

theorem _root_.RUSure.Spec.InRange.weaken {d : PackedDag} {pen : Penalties} {n : Nat} {M M' : ℚ} (h : InRange F d pen n M)
    (hM : M ≤ M') : InRange F d pen n M' :=
  ⟨h.member, h.length, fun p hp t ht => (h.total p hp t ht).trans hM⟩

theorem run_penned (hA : AccurateArith A F u τ limit) (hu : 0 ≤ u) (hτ : 0 ≤ τ) (hη : 0 ≤ η)
    {N n : Nat} {C : ℚ} (hC : 0 ≤ C) {T : Nat} (hN1 : 1 ≤ N)
    (hl : rangeNeeded u η τ N n (pathSize u η τ N n C T) 0 ≤ limit) :
    ∀ (vs : List Nat) (S : System) (t : Nat) (P : ℚ), t + vs.length ≤ T → S.subs.length = N →
    (∀ s ∈ S.subs, RSubOK A.toMachine S.numKeys S.numValues s) →
    (∀ s ∈ S.subs, Costed F s.memo.dag n C) → 0 ≤ P → (∀ s ∈ S.subs, Penned F s.memo.pen P) →
    C + n * P ≤ pathSize u η τ N n C t → (S.extra = fun _ _ => 0) →
    (∀ v ∈ vs, FairShares A S v η) →
    RunInRange A F n (pathSize u η τ N n C T) 0 vs S
    ∧ ∀ S' bs, averages A vs S = some (S', bs) →
      ∀ s ∈ S'.subs, InRange F s.memo.dag s.memo.pen n (pathSize u η τ N n C T) := by
  intro vs
  induction vs with
  | nil =>
    intro S t P ht hN hok hc hP hp hCP hx _
    refine ⟨trivial, ?_⟩
    intro S' bs he s hs
    simp only [averages, Option.some.injEq, Prod.mk.injEq] at he
    rw [← he.1] at hs
    exact (range_of_penned hA.sums.zero hP (hc s hs) (hp s hs)).weaken
      (hCP.trans (pathSize_mono hu hη hτ hC (by simp at ht; omega)))
  | cons v vs ih =>
    intro S t P ht hN hok hc hP hp hCP hx hs
    rw [List.length_cons] at ht
    have hsz := hCP.trans (pathSize_mono (t' := T) hu hη hτ (N := N) (n := n) hC (by omega))
    have hstep : StepInRange F S v n (pathSize u η τ N n C T) 0 := by
      refine ⟨fun s hsm => ?_, fun x c hxc => ?_⟩
      · refine (range_of_penned hA.sums.zero hP (hc s hsm) ?_).weaken hsz
        intro k x q hq
        unfold Sub.without at hq
        split at hq
        · obtain rfl : (0 : ℚ) = q := WithTop.coe_inj.1 hq
          exact ⟨hA.sums.zero, by simpa using hP⟩
        · exact hp s hsm k x q hq
      · rw [hx] at hxc
        obtain rfl : (0 : ℚ) = c := WithTop.coe_inj.1 hxc
        exact ⟨hA.sums.zero, by simp⟩
    have hnext : ∀ S1 b, Rounded.average A S v = some (S1, b) →
        RunInRange A F n (pathSize u η τ N n C T) 0 vs S1
        ∧ ∀ S' bs, averages A vs S1 = some (S', bs) →
          ∀ s ∈ S'.subs, InRange F s.memo.dag s.memo.pen n (pathSize u η τ N n C T) := by
      intro S1 b he
      obtain ⟨hsame, hok1⟩ := step_same hok he
      have hM0 : 0 ≤ C + n * P := add_nonneg hC (mul_nonneg (Nat.cast_nonneg _) hP)
      have hpen := step_penned hA hu hτ hη hok hC hP (le_refl 0) hc hp (fun w x c hxc => by
          rw [hx] at hxc
          rw [← WithTop.coe_inj.1 (show ((0 : ℚ) : Cost) = c from hxc)]
          exact ⟨hA.sums.zero, by simp⟩) (hs v (by simp)) (by
        rw [hN]; exact (rangeNeeded_mono hu hη hsz).trans hl) he
      rw [hN] at hpen
      refine ih S1 (t + 1) _ (by omega) (hsame.subs.length_eq.symm.trans hN) hok1 ?_
        (hP.trans (le_max_left _ _)) hpen ?_ (hsame.extra.trans hx) ?_
      · exact step_dags hok he (P := fun d _ => Costed F d n C) hc
      · rw [pathSize]
        have h1 := rangeNeeded_mono (τ := τ) hu hη (N := N) (n := n) hCP
        have h2 := mul_le_mul_of_nonneg_left h1 (by linarith : 0 ≤ 1 + u)
        rcases Nat.eq_zero_or_pos n with hn | hn
        · subst hn; simp
        · have hn1 : (1 : ℚ) ≤ n := by exact_mod_cast hn
          refine add_le_add_right (mul_le_mul_of_nonneg_left (max_le ?_ h2) (by linarith)) C
          refine le_trans ?_ h2
          have hN' : (1 : ℚ) ≤ N := by exact_mod_cast hN1
          have h3 : P ≤ C + n * P := by nlinarith
          refine h3.trans ?_
          have h4 := rangeNeeded_nonneg hu hη hτ (N := N) (n := n) hM0
          have h5 : C + n * P ≤ rangeNeeded u η τ N n (C + n * P) 0 := by
            unfold rangeNeeded
            have p1 := one_le_pow_u hu (2 * n + N + 4)
            generalize C + n * P = M at *
            have h6 : M ≤ N * M := by nlinarith
            have h7 : (1 : ℚ) ≤ 2 * (1 + η) * (1 + u) ^ (2 * n + N + 4) := by nlinarith
            nlinarith
          have h6 : 0 ≤ u * rangeNeeded u η τ N n (C + n * P) 0 := mul_nonneg hu h4
          have h7 := mul_nonneg hu h4
          linarith
      · intro w hw
        have h1 := hs w (List.mem_cons_of_mem _ hw)
        have h2 := step_shares (w := w) hok he
        exact ⟨by rw [h2]; exact h1.nonneg, by rw [h2]; exact h1.total⟩
    refine ⟨⟨hstep, ?_⟩, ?_⟩
    · rintro ⟨S1, b⟩ he
      exact (hnext S1 b he).1
    · intro S' bs he
      unfold averages at he
      rw [Option.bind_eq_some_iff] at he
      obtain ⟨⟨S1, b⟩, h1, h2⟩ := he
      rw [Option.map_eq_some_iff] at h2
      obtain ⟨⟨S2, bs2⟩, h2, h3⟩ := h2
      simp only [Prod.mk.injEq] at h3
      rw [← h3.1]
      exact (hnext S1 b h1).2 S2 bs2 h2

/-! ## Built systems -/

theorem scaled_costed (hA : AccurateArith A F u τ limit) (hu : 0 ≤ u) (hτ : 0 ≤ τ) {d : PackedDag}
    {s : ℚ} {n : Nat} {size : ℚ} (hr : ScaleInRange F limit d s n size) :
    Costed F (scaleDag A d s) n ((1 + u) * size + n * τ) := by
  have hmul : ∀ e ∈ d.edges, ∀ x : ℚ, A.mul e.cost s = x → ∃ y : ℚ, e.cost = y ∧ F x
      ∧ |x| ≤ (1 + u) * |y * s| + τ := by
    intro e he x hx
    cases hc : e.cost using WithTop.recTopCoe with
    | top => rw [hc, A.mul_top] at hx; exact absurd hx.symm WithTop.coe_ne_top
    | coe y =>
      obtain ⟨h1, h2⟩ := hr.member e he y hc
      obtain ⟨r, r0, r1, r2⟩ := hA.mul y s h1 h2
      rw [hc, r1] at hx
      obtain rfl := WithTop.coe_inj.1 hx
      refine ⟨y, rfl, r0, ?_⟩
      have e : r = (r - y * s) + y * s := by ring
      rw [e]
      refine (abs_add_le _ _).trans ?_
      linarith
  have hcomp : ∀ q, Complete (scaleDag A d s) q → ∃ p, q = p.map (repriceEdge fun c => A.mul c s)
      ∧ Complete d p := fun q hq => (reprice_complete (f := fun c => A.mul c s)).1 hq
  refine ⟨?_, ?_, ?_⟩
  · intro e he x hx
    obtain ⟨e0, he0, rfl⟩ := List.mem_map.1 he
    obtain ⟨y, -, y2, -⟩ := hmul e0 he0 x hx
    exact y2
  · intro q hq
    obtain ⟨p, rfl, hp⟩ := hcomp q hq
    rw [List.length_map]
    exact hr.length p hp
  · intro q hq l hl
    obtain ⟨p, rfl, hp⟩ := hcomp q hq
    have key : ∀ (p : List PackedEdge), (∀ e ∈ p, e ∈ d.edges) → ∀ l : List ℚ,
        (p.map (repriceEdge fun c => A.mul c s)).map PackedEdge.cost = coes l →
        ∃ l0 : List ℚ, p.map PackedEdge.cost = l0.map (fun x : ℚ => (x : Cost))
          ∧ (l.map abs).sum ≤ (1 + u) * (l0.map fun x => |x * s|).sum + p.length * τ := by
      intro p
      induction p with
      | nil =>
        intro _ l hl
        cases l with
        | nil => exact ⟨[], rfl, by simp⟩
        | cons a l => simp [coes] at hl
      | cons e p ih =>
        intro he l hl
        cases l with
        | nil => simp [coes] at hl
        | cons a l =>
          simp only [coes, List.map_cons, List.cons.injEq] at hl
          obtain ⟨y, y1, -, y3⟩ := hmul e (he e (by simp)) a hl.1
          obtain ⟨l0, k1, k2⟩ := ih (fun e' he' => he e' (List.mem_cons_of_mem _ he')) l hl.2
          refine ⟨y :: l0, by simp only [List.map_cons, y1, k1], ?_⟩
          simp only [List.map_cons, List.sum_cons, List.length_cons, Nat.cast_add, Nat.cast_one]
          linarith
    obtain ⟨l0, k1, k2⟩ := key p (fun e he => complete_mem hp e he) l hl
    have k3 := hr.total p hp l0 k1
    have k4 : (p.length : ℚ) * τ ≤ n * τ :=
      mul_le_mul_of_nonneg_right (by exact_mod_cast hr.length p hp) hτ
    have k5 := mul_le_mul_of_nonneg_left k3 (by linarith : 0 ≤ 1 + u)
    linarith

theorem bounded_scale {S I : Type} {p : Part S I} {n : Nat} {c : ℚ} (hp : PartBounded F p n c)
    (hc : 0 ≤ c) (hl : c ≤ limit) (wf : PackedWF (scaleDag A p.conversion.packed p.scale)) :
    ScaleInRange F limit p.conversion.packed p.scale n (n * c) := by
  have hlen : ∀ q, Complete p.conversion.packed q → q.length ≤ n := by
    intro q hq
    have := path_length wf (p := q.map (repriceEdge fun c => A.mul c p.scale))
      ((reprice_complete (f := fun c => A.mul c p.scale)).2 ⟨q, rfl, hq⟩)
    rw [List.length_map] at this
    have h2 : (scaleDag A p.conversion.packed p.scale).numStates = p.conversion.packed.numStates := rfl
    have := hp.states
    omega
  refine ⟨fun e he x hx => ⟨(hp.member e he x hx).1, (hp.member e he x hx).2.trans hl⟩, hlen, ?_⟩
  intro q hq l hl
  have key : ∀ (q : List PackedEdge), (∀ e ∈ q, e ∈ p.conversion.packed.edges) → ∀ l : List ℚ,
      q.map PackedEdge.cost = l.map (fun x : ℚ => (x : Cost)) →
      (l.map fun x => |x * p.scale|).sum ≤ q.length * c := by
    intro q
    induction q with
    | nil =>
      intro _ l hl
      cases l with
      | nil => simp
      | cons a l => simp at hl
    | cons e q ih =>
      intro he l hl
      cases l with
      | nil => simp at hl
      | cons a l =>
        simp only [List.map_cons, List.cons.injEq] at hl
        have h1 := (hp.member e (he e (by simp)) a hl.1).2
        have h2 := ih (fun e' he' => he e' (List.mem_cons_of_mem _ he')) l hl.2
        simp only [List.map_cons, List.sum_cons, List.length_cons, Nat.cast_add, Nat.cast_one]
        linarith
  refine (key q (fun e he => complete_mem hq e he) l hl).trans ?_
  exact mul_le_mul_of_nonneg_right (by exact_mod_cast hlen q hq) hc

end RUSure.Lemmas.Rnd
