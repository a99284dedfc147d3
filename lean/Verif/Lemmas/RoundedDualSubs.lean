import Verif.Lemmas.RoundedDualArith
import Verif.Lemmas.DualMemo

/-! # Averaging in machine arithmetic: one subproblem -/

namespace RUSure.Lemmas.Rnd
open RUSure RUSure.Spec RUSure.Lemmas RUSure.Rounded

/-- What is kept for every subproblem. -/
structure RSubOK (A : Machine) (N V : Nat) (s : Sub) : Prop where
  memo : Rnd.MemoInv A s.memo.dag s.memo
  view : ViewOK N V s.view

/-- The paths whose machine cost the min-marginals minimise. -/
def MarginalOf (A : Machine) (d : PackedDag) (pen : Penalties) (k x : Nat) (c : Cost) : Prop :=
  IsMinimum (fun y : List PackedEdge × PackedEdge × List PackedEdge =>
      Complete d (y.1 ++ y.2.1 :: y.2.2) ∧ y.2.1.req = some (k, x))
    (fun y => middleCost A pen y.1 y.2.1 y.2.2) c

section
variable {A : Machine} {N V : Nat}

theorem rsub_skip {s : Sub} (h : RSubOK A N V s) {m : Memo} {c : Cost}
    (hc : Rounded.minimalCost A s.memo .fromMiddle = some (m, c)) :
    RSubOK A N V { s with memo := m } ∧ ({ s with memo := m } : Sub).view = s.view
      ∧ StrategyCost A s.memo.dag s.memo.pen c .fromMiddle := by
  have hk : 0 < s.memo.dag.numKeys := by
    by_contra h0
    have : s.memo.dag.numKeys = 0 := by omega
    simp [Rounded.minimalCost, this] at hc
  obtain ⟨m', c', h1, h2, h3, h4⟩ := Rnd.minimalCost_spec A h.view.wf h.memo .fromMiddle (fun _ => hk)
  have hc' : Rounded.minimalCost A s.memo .fromMiddle = some (m', c') := h1
  rw [hc] at hc'
  simp only [Option.some.injEq, Prod.mk.injEq] at hc'
  obtain ⟨rfl, rfl⟩ := hc'
  have hd : m.dag = s.memo.dag := h2.dag
  have hv : ({ s with memo := m } : Sub).view = s.view := by
    simp only [Sub.view, View.mk.injEq, true_and]
    exact ⟨hd, h3⟩
  refine ⟨⟨?_, ?_⟩, hv, h4⟩
  · change Rnd.MemoInv A m.dag m
    rw [hd]; exact h2
  · rw [hv]; exact h.view

theorem rsub_marg {s : Sub} (h : RSubOK A N V s) {m : Memo} {mm : Nat → Cost} {k : Nat}
    (hc : Rounded.minMarginals A s.memo k = some (m, mm)) :
    RSubOK A N V { s with memo := m } ∧ ({ s with memo := m } : Sub).view = s.view
      ∧ ∀ x, MarginalOf A s.memo.dag s.memo.pen k x (mm x) := by
  have hk : k < s.memo.dag.numKeys := by
    by_contra h0
    simp [Rounded.minMarginals, h0] at hc
  obtain ⟨m', mm', h1, h2, h3, h4⟩ := Rnd.minMarginals_spec A h.view.wf h.memo hk
  have hc' : Rounded.minMarginals A s.memo k = some (m', mm') := h1
  rw [hc] at hc'
  simp only [Option.some.injEq, Prod.mk.injEq] at hc'
  obtain ⟨rfl, rfl⟩ := hc'
  have hd : m.dag = s.memo.dag := h2.dag
  have hv : ({ s with memo := m } : Sub).view = s.view := by
    simp only [Sub.view, View.mk.injEq, true_and]
    exact ⟨hd, h3⟩
  refine ⟨⟨?_, ?_⟩, hv, h4⟩
  · change Rnd.MemoInv A m.dag m
    rw [hd]; exact h2
  · rw [hv]; exact h.view

theorem rsub_set {s : Sub} (h : RSubOK A N V s) {v k : Nat} (hk : s.index v = some k)
    (p : Nat → Cost) :
    RSubOK A N V { s with memo := s.memo.setPenalties k p }
      ∧ ({ s with memo := s.memo.setPenalties k p } : Sub).view
        = s.view.update v (fun _ _ => p) := by
  have hv : ({ s with memo := s.memo.setPenalties k p } : Sub).view
      = s.view.update v (fun _ _ => p) := by
    have hk' : s.view.index v = some k := hk
    unfold View.update
    rw [hk']
    simp only [Sub.view, setPenalties_pen, setPenalties_dag]
  refine ⟨⟨?_, ?_⟩, hv⟩
  · exact Rnd.setPenalties_inv A h.view.wf h.memo (h.view.lt v k hk).2 p
  · rw [hv]; exact update_ok v _ h.view

theorem without_eq (s : Sub) (v : Nat) : Sub.without s v = (openView v s.view).pen := by
  funext k
  unfold Sub.without openView View.update
  cases h : s.index v with
  | none =>
    have hk' : s.view.index v = none := h
    simp [hk']
    rfl
  | some k' =>
    have hk' : s.view.index v = some k' := h
    simp only [hk', setPen, Option.some.injEq]
    by_cases hkk : k = k'
    · subst hkk; simp
    · rw [if_neg (Ne.symm hkk), if_neg hkk]; rfl

end

variable {A : Machine} {F : ℚ → Prop} {u limit : ℚ} {N V : Nat}

theorem middle_near (hA : Accurate A F u limit) (hu : 0 ≤ u) {pen : Penalties}
    {p q : List PackedEdge} {e : PackedEdge} {t : ℚ} (ht : TotalSize F pen (p ++ e :: q) t) {n : Nat}
    (hn : (p ++ e :: q).length ≤ n) (hl : (1 + u) ^ (2 * n) * t ≤ limit) :
    ∃ x r : ℚ, pathCost pen (p ++ e :: q) = x ∧ middleCost A pen p e q = r ∧ F r
      ∧ Near u (2 * n + 1) r x t := by
  have hs : p ++ e :: q = (p ++ [e]) ++ q := by simp
  rw [hs] at ht hn ⊢
  obtain ⟨s, s', h1, h2, rfl⟩ := size_append ht
  have k1 := size_nonneg h1
  have k2 := size_nonneg h2
  have hP := one_le_pow_u hu (2 * n)
  have hPs : 0 ≤ (1 + u) ^ (2 * n) * s := mul_nonneg (by linarith) k1
  have hPs' : 0 ≤ (1 + u) ^ (2 * n) * s' := mul_nonneg (by linarith) k2
  rw [List.length_append] at hn
  obtain ⟨x, f, b, a1, a2, a3, a4, a5, af, ab, a6, a7⟩ := path_error_le hA hu h1 (n := n) (by omega)
    (by linarith)
  obtain ⟨x', f', b', b1, b2, b3, b4, b5, bf, bb, b6, b7⟩ := path_error_le hA hu h2 (n := n) (by omega)
    (by linarith)
  obtain ⟨r, c0, c1, c2⟩ := Near.add hA hu af bb ⟨k1, a4, a6⟩ ⟨k2, b5, b7⟩ hl
  refine ⟨x + x', r, ?_, ?_, c0, c2⟩
  · rw [pathCost_append', a1, b1]; rfl
  · rw [middle_forward, a2, b3, c1]

/-- The machine cost of the path through an assignment of the path. -/
theorem path_middle (hA : Accurate A F u limit) (hu : 0 ≤ u) {d : PackedDag} {pen : Penalties}
    {n : Nat} {M : ℚ} (hr : InRange F d pen n M) (hl : (1 + u) ^ (2 * n) * M ≤ limit)
    {p : List PackedEdge} (hp : Complete d p) (hfin : pathCost pen p < ⊤) {k x : Nat}
    (hx : (k, x) ∈ assignments p) :
    ∃ y : List PackedEdge × PackedEdge × List PackedEdge, Complete d (y.1 ++ y.2.1 :: y.2.2)
      ∧ y.2.1.req = some (k, x) ∧ ∃ r e : ℚ, middleCost A pen y.1 y.2.1 y.2.2 = r ∧ F r
      ∧ pathCost pen p = e ∧ Near u (2 * n + 1) r e M := by
  obtain ⟨e, he, hreq⟩ := List.mem_filterMap.1 hx
  obtain ⟨p1, p2, rfl⟩ := List.append_of_mem he
  have hmem : Members F pen (p1 ++ e :: p2) :=
    fun e' he' => hr.member e' (complete_mem hp e' he')
  obtain ⟨t, ht⟩ := size_of_pathCost hmem hfin
  have h0 := size_nonneg ht
  have htM := hr.total _ hp t ht
  have hP := one_le_pow_u hu (2 * n)
  obtain ⟨z, r, g1, g2, g3, g4⟩ := middle_near hA hu ht (hr.length _ hp)
    ((mul_le_mul_of_nonneg_left htM (by linarith)).trans hl)
  exact ⟨(p1, e, p2), hp, hreq, r, z, g2, g3, g1, g4.weaken hu (le_refl _) htM⟩

theorem skip_bound (hA : Accurate A F u limit) (hu : 0 ≤ u) {d : PackedDag} (wf : PackedWF d)
    {pen : Penalties} {n : Nat} {M : ℚ} (hr : InRange F d pen n M)
    (hl : (1 + u) ^ (2 * n) * M ≤ limit) {p : List PackedEdge} (hp : Complete d p)
    (hfin : pathCost pen p < ⊤) {c : Cost} (hc : StrategyCost A d pen c .fromMiddle) :
    ∃ r e : ℚ, c ≤ r ∧ F r ∧ pathCost pen p = e ∧ Near u (2 * n + 1) r e M := by
  obtain ⟨v, hv, h2⟩ := hc
  obtain ⟨x, -, hx⟩ := complete_value wf hp hv
  obtain ⟨y, y1, y2, r, e, g1, g2, g3, g4⟩ := path_middle hA hu hr hl hp hfin hx
  refine ⟨r, e, ?_, g2, g3, g4⟩
  rw [← g1]
  exact h2.le y ⟨y1, x, y2⟩

theorem marg_bound (hA : Accurate A F u limit) (hu : 0 ≤ u) {d : PackedDag}
    {pen : Penalties} {n : Nat} {M : ℚ} (hr : InRange F d pen n M)
    (hl : (1 + u) ^ (2 * n) * M ≤ limit) {p : List PackedEdge} (hp : Complete d p)
    (hfin : pathCost pen p < ⊤) {k x : Nat} (hx : (k, x) ∈ assignments p) {c : Cost}
    (hc : MarginalOf A d pen k x c) :
    ∃ r e : ℚ, c ≤ r ∧ F r ∧ pathCost pen p = e ∧ Near u (2 * n + 1) r e M := by
  obtain ⟨y, y1, y2, r, e, g1, g2, g3, g4⟩ := path_middle hA hu hr hl hp hfin hx
  refine ⟨r, e, ?_, g2, g3, g4⟩
  rw [← g1]
  exact hc.le y ⟨y1, y2⟩

theorem marg_size (hA : Accurate A F u limit) (hu : 0 ≤ u) {d : PackedDag}
    {pen : Penalties} {n : Nat} {M : ℚ} (hr : InRange F d pen n M)
    (hl : (1 + u) ^ (2 * n) * M ≤ limit) {k x : Nat} {c : Cost}
    (hc : MarginalOf A d pen k x c) (hfin : c < ⊤) :
    ∃ m : ℚ, c = m ∧ F m ∧ |m| ≤ (1 + u) ^ (2 * n + 1) * M := by
  rcases hc.attained with rfl | ⟨⟨p1, e, p2⟩, ⟨hp, hreq⟩, rfl⟩
  · exact absurd hfin (lt_irrefl _)
  · have hmem : Members F pen (p1 ++ e :: p2) :=
      fun e' he' => hr.member e' (complete_mem hp e' he')
    obtain ⟨t, ht⟩ := size_of_middle hmem hfin
    have htM := hr.total _ hp t ht
    have hP := one_le_pow_u hu (2 * n)
    obtain ⟨z, r, g1, g2, g3, g4⟩ := middle_near hA hu ht (hr.length _ hp)
      ((mul_le_mul_of_nonneg_left htM (by linarith)).trans hl)
    exact ⟨r, g2, g3, (g4.weaken hu (le_refl _) htM).abs⟩

end RUSure.Lemmas.Rnd
