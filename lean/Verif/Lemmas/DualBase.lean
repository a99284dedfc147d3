import Mathlib.Algebra.BigOperators.Group.List.Basic
import Mathlib.Tactic.Ring
import Mathlib.Tactic.FieldSimp
import Mathlib.Tactic.Linarith
import Verif.Lemmas.PackedMore
import Verif.Spec.Dual

/-!
# Min-marginals and minimal costs as functions of the penalties
-/

namespace RUSure.Lemmas
open RUSure RUSure.Spec

/-- Replacing the penalties of one variable. -/
def setPen (pen : Penalties) (k : Nat) (p : Nat → Cost) : Penalties :=
  fun k' => if k' = k then p else pen k'

/-- The minimal penalised cost. -/
def costOf (d : PackedDag) (pen : Penalties) : Cost :=
  (((emptyTable ⊤ d pen).minimalCost .atStart).map Prod.snd).getD 0

/-- The min-marginals. -/
def margOf (d : PackedDag) (pen : Penalties) (k x : Nat) : Cost :=
  (((emptyTable ⊤ d pen).minMarginals k).map fun r => r.2 x).getD 0

theorem costOf_min {d : PackedDag} (wf : PackedWF d) (pen : Penalties) :
    IsMinimum (Complete d) (pathCost pen) (costOf d pen) := by
  obtain ⟨m', c, h1, -, -, h4⟩ := minimalCost_spec wf (emptyTable_inv wf ⊤ pen) .atStart (by simp)
  rw [costOf, h1]
  exact h4

theorem margOf_min {d : PackedDag} (wf : PackedWF d) (pen : Penalties) {k : Nat}
    (hk : k < d.numKeys) (x : Nat) :
    IsMinimum (fun p => Complete d p ∧ (k, x) ∈ assignments p) (pathCost pen) (margOf d pen k x) := by
  obtain ⟨m', mm, h1, -, -, h4⟩ := minMarginals_spec wf (emptyTable_inv wf ⊤ pen) hk
  rw [margOf, h1]
  exact h4 x

theorem memo_cost {d : PackedDag} (wf : PackedWF d) {m : Memo} (hm : MemoInv d m) {st : Strategy}
    {m' : Memo} {c : Cost} (h : m.minimalCost st = some (m', c)) :
    MemoInv d m' ∧ m'.pen = m.pen ∧ c = costOf d m.pen := by
  have hst : st = .fromMiddle → 0 < d.numKeys := by
    rintro rfl
    by_contra h0
    have : m.dag.numKeys = 0 := by rw [hm.dag]; omega
    simp [Memo.minimalCost, this] at h
  obtain ⟨m1, c1, h1, h2, h3, h4⟩ := minimalCost_spec wf hm st hst
  rw [h1] at h
  simp only [Option.some.injEq, Prod.mk.injEq] at h
  obtain ⟨rfl, rfl⟩ := h
  exact ⟨h2, h3, IsMinimum.unique h4 (costOf_min wf _)⟩

theorem memo_marg {d : PackedDag} (wf : PackedWF d) {m : Memo} (hm : MemoInv d m) {k : Nat}
    {m' : Memo} {mm : Nat → Cost} (h : m.minMarginals k = some (m', mm)) :
    k < d.numKeys ∧ MemoInv d m' ∧ m'.pen = m.pen ∧ mm = margOf d m.pen k := by
  have hk : k < d.numKeys := by
    by_contra h0
    rw [← hm.dag] at h0
    simp [Memo.minMarginals, h0] at h
  obtain ⟨m1, c1, h1, h2, h3, h4⟩ := minMarginals_spec wf hm hk
  rw [h1] at h
  simp only [Option.some.injEq, Prod.mk.injEq] at h
  obtain ⟨rfl, rfl⟩ := h
  refine ⟨hk, h2, h3, ?_⟩
  funext x
  exact IsMinimum.unique (h4 x) (margOf_min wf _ hk x)

/-- A complete path gives each variable a value. -/
theorem complete_value {d : PackedDag} (wf : PackedWF d) {p : List PackedEdge} (hp : Complete d p)
    {k : Nat} (hk : k < d.numKeys) : ∃ x < d.numValues, (k, x) ∈ assignments p := by
  have h := complete_keys wf hp
  have : k ∈ (assignments p).map Prod.fst := by rw [h]; simpa using hk
  obtain ⟨⟨k', x⟩, hmem, rfl⟩ := List.mem_map.1 this
  obtain ⟨-, hx, -⟩ := assign_edge wf hp hmem
  exact ⟨x, hx, hmem⟩

theorem complete_unique {d : PackedDag} (wf : PackedWF d) {p : List PackedEdge} (hp : Complete d p)
    {k x y : Nat} (hx : (k, x) ∈ assignments p) (hy : (k, y) ∈ assignments p) : x = y := by
  have h := complete_keys wf hp
  exact pairwise_fst_inj (by rw [h]; exact List.nodup_range) hx hy

theorem costOf_eq_arrayMin {d : PackedDag} (wf : PackedWF d) (pen : Penalties) {k : Nat}
    (hk : k < d.numKeys) : costOf d pen = arrayMin d.numValues (margOf d pen k) := by
  refine IsMinimum.unique (costOf_min wf pen) ?_
  constructor
  · intro p hp
    obtain ⟨x, hx, hm⟩ := complete_value wf hp hk
    exact (arrayMin_le _ _ x hx).trans ((margOf_min wf pen hk x).le p ⟨hp, hm⟩)
  · rcases arrayMin_attained d.numValues (margOf d pen k) with h | ⟨x, hx, h⟩
    · exact .inl h
    · rcases (margOf_min wf pen hk x).attained with h' | ⟨p, ⟨hp, -⟩, h'⟩
      · left; rw [h, h']
      · right; exact ⟨p, hp, by rw [h, h']⟩

theorem costOf_le_margOf {d : PackedDag} (wf : PackedWF d) (pen : Penalties) {k : Nat}
    (hk : k < d.numKeys) (x : Nat) : costOf d pen ≤ margOf d pen k x := by
  rcases (margOf_min wf pen hk x).attained with h | ⟨p, ⟨hp, -⟩, h⟩
  · rw [h]; exact le_top
  · rw [← h]; exact (costOf_min wf pen).le p hp

/-- Separating the penalties from the cost of a path. -/
theorem pathCost_split (pen : Penalties) (p : List PackedEdge) :
    pathCost pen p = weight PackedEdge.cost p
      + ((assignments p).map fun kx => pen kx.1 kx.2).sum := by
  induction p with
  | nil => simp [pathCost, weight, assignments]
  | cons e p ih =>
    have h1 : pathCost pen (e :: p) = (e.cost + e.penalty pen) + pathCost pen p := by
      simp [pathCost, weight]
    have h2 : weight PackedEdge.cost (e :: p) = e.cost + weight PackedEdge.cost p := by
      simp [weight]
    rw [h1, h2, ih]
    cases hr : e.req with
    | none =>
      have : assignments (e :: p) = assignments p := by simp [assignments, hr]
      rw [this]
      simp [PackedEdge.penalty, hr, add_assoc]
    | some kx =>
      have : assignments (e :: p) = kx :: assignments p := by simp [assignments, hr]
      rw [this]
      simp only [PackedEdge.penalty, hr, List.map_cons, List.sum_cons]
      exact add_add_add_comm _ _ _ _

/-- The penalties of a path as a sum over variables. -/
theorem complete_sum {d : PackedDag} (wf : PackedWF d) {p : List PackedEdge} (hp : Complete d p)
    (f : Nat → Nat → Cost) (b : Nat → Nat) (hb : ∀ k x, (k, x) ∈ assignments p → x = b k) :
    ((assignments p).map fun kx => f kx.1 kx.2).sum
      = ((List.range d.numKeys).map fun k => f k (b k)).sum := by
  rw [← complete_keys wf hp, List.map_map]
  congr 1
  apply List.map_congr_left
  rintro ⟨k, x⟩ hm
  simp [hb k x hm]

theorem sum_setPen (l : List (Nat × Nat)) (hl : (l.map Prod.fst).Nodup) (pen : Penalties) (k x : Nat)
    (hm : (k, x) ∈ l) (q : Nat → Cost) :
    (l.map fun kx => setPen pen k q kx.1 kx.2).sum
      = (l.map fun kx => setPen pen k (fun _ => 0) kx.1 kx.2).sum + q x := by
  induction l with
  | nil => simp at hm
  | cons a l ih =>
    rw [List.map_cons, List.nodup_cons] at hl
    simp only [List.map_cons, List.sum_cons]
    rcases List.mem_cons.1 hm with rfl | h
    · have hne : ∀ kx ∈ l, kx.1 ≠ k := by
        intro kx hkx he
        exact hl.1 (List.mem_map.2 ⟨kx, hkx, he⟩)
      have : (l.map fun kx => setPen pen k q kx.1 kx.2)
          = (l.map fun kx => setPen pen k (fun _ => 0) kx.1 kx.2) := by
        apply List.map_congr_left
        intro kx hkx
        simp [setPen, hne kx hkx]
      rw [this]
      simp [setPen, add_comm]
    · have hne : a.1 ≠ k := by
        intro he
        exact hl.1 (List.mem_map.2 ⟨(k, x), h, he.symm⟩)
      rw [ih hl.2 h]
      simp [setPen, hne, add_assoc]

theorem pathCost_setPen {d : PackedDag} (wf : PackedWF d) {p : List PackedEdge} (hp : Complete d p)
    (pen : Penalties) {k x : Nat} (hm : (k, x) ∈ assignments p) (q : Nat → Cost) :
    pathCost (setPen pen k q) p = pathCost (setPen pen k (fun _ => 0)) p + q x := by
  rw [pathCost_split, pathCost_split, sum_setPen _ _ pen k x hm q, add_assoc]
  rw [complete_keys wf hp]
  exact List.nodup_range

theorem IsMinimum.add_const {α : Type} {P : α → Prop} {f g : α → Cost} {c q : Cost}
    (h : IsMinimum P f c) (hg : ∀ a, P a → g a = f a + q) : IsMinimum P g (c + q) := by
  constructor
  · intro a ha
    rw [hg a ha]
    exact add_le_add (h.le a ha) (le_refl _)
  · rcases h.attained with h' | ⟨a, ha, h'⟩
    · left; rw [h']; exact top_add q
    · right; exact ⟨a, ha, by rw [hg a ha, h']⟩

theorem margOf_setPen {d : PackedDag} (wf : PackedWF d) (pen : Penalties) {k : Nat}
    (hk : k < d.numKeys) (q : Nat → Cost) (x : Nat) :
    margOf d (setPen pen k q) k x = margOf d (setPen pen k (fun _ => 0)) k x + q x := by
  refine IsMinimum.unique (margOf_min wf _ hk x) ?_
  exact IsMinimum.add_const (margOf_min wf (setPen pen k fun _ => 0) hk x)
    (fun p hp => pathCost_setPen wf hp.1 pen hp.2 q)

theorem setPen_self (pen : Penalties) (k : Nat) : setPen pen k (pen k) = pen := by
  funext k'
  by_cases h : k' = k
  · subst h; simp [setPen]
  · simp [setPen, h]

theorem setPen_setPen (pen : Penalties) (k : Nat) (p q : Nat → Cost) :
    setPen (setPen pen k p) k q = setPen pen k q := by
  funext k'
  by_cases h : k' = k <;> simp [setPen, h]

theorem margOf_split {d : PackedDag} (wf : PackedWF d) (pen : Penalties) {k : Nat}
    (hk : k < d.numKeys) (x : Nat) :
    margOf d pen k x = margOf d (setPen pen k (fun _ => 0)) k x + pen k x := by
  conv_lhs => rw [← setPen_self pen k]
  exact margOf_setPen wf pen hk _ x

theorem sum_lt_top {l : List Cost} : l.sum < ⊤ ↔ ∀ c ∈ l, c < ⊤ := by
  induction l with
  | nil => simp
  | cons a l ih => simp [ih]

theorem pathCost_lt_top (pen : Penalties) (p : List PackedEdge) :
    pathCost pen p < ⊤ ↔ weight PackedEdge.cost p < ⊤
      ∧ ∀ kx ∈ assignments p, pen kx.1 kx.2 < ⊤ := by
  rw [pathCost_split, WithTop.add_lt_top, sum_lt_top, List.forall_mem_map]

/-- A value that is impossible stays impossible when further penalties become infinite. -/
theorem margOf_top_mono {d : PackedDag} (wf : PackedWF d) {pen pen' : Penalties} {k x : Nat}
    (hk : k < d.numKeys)
    (h : ∀ k' < d.numKeys, ∀ y < d.numValues, pen k' y = ⊤ → pen' k' y = ⊤)
    (ht : margOf d pen k x = ⊤) : margOf d pen' k x = ⊤ := by
  rcases (margOf_min wf pen' hk x).attained with h' | ⟨p, ⟨hp, hm⟩, h'⟩
  · exact h'
  · by_contra hne
    have hlt : pathCost pen' p < ⊤ := by rw [h']; exact lt_top_iff_ne_top.2 hne
    rw [pathCost_lt_top] at hlt
    have : pathCost pen p < ⊤ := by
      rw [pathCost_lt_top]
      refine ⟨hlt.1, ?_⟩
      intro kx hkx
      rw [lt_top_iff_ne_top]
      intro hc
      obtain ⟨h1, h2, -⟩ := assign_edge wf hp (v := kx.1) (x := kx.2) hkx
      have := hlt.2 kx hkx
      rw [h kx.1 h1 kx.2 h2 hc] at this
      exact lt_irrefl _ this
    have h2 := (margOf_min wf pen hk x).le p ⟨hp, hm⟩
    rw [ht] at h2
    exact absurd this (not_lt.2 h2)

end RUSure.Lemmas
