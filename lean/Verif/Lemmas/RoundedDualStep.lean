import Verif.Lemmas.RoundedDualLoops

/-! # Averaging in machine arithmetic: one step -/

namespace RUSure.Lemmas.Rnd
open RUSure RUSure.Spec RUSure.Lemmas RUSure.Rounded

variable {A : Arith} {F : ℚ → Prop} {u τ η limit : ℚ} {N V : Nat}

/-- What the second loop does to one subproblem. -/
structure Closed (A : Arith) (N V v : Nat) (total : Nat → Cost) (W : ℚ) (s : Sub)
    (r : Sub × Option (Nat × (Nat → Cost))) (s' : Sub) : Prop where
  ok : RSubOK A.toMachine N V s'
  dag : s'.memo.dag = s.memo.dag
  index : s'.index = s.index
  weight : s'.weight = s.weight
  other : ∀ w, w ≠ v → ∀ x, s'.view.charge w x = s.view.charge w x
  same : ∀ x, s'.view.charge v x
    = (r.2.map fun q => Rounded.newPenalty A (total x) (A.div r.1.weight W) (q.2 x)).getD 0

theorem averageClose_spec {v : Nat} {s : Sub} (hs : ViewOK N V s.view)
    {r : Sub × Option (Nat × (Nat → Cost))}
    (h : Opened A.toMachine N V v s r) (total : Nat → Cost) (W : ℚ) :
    Closed A N V v total W s r (Rounded.averageClose A total W r) := by
  have hdag : r.1.memo.dag = s.memo.dag := by
    have := congrArg View.dag h.view
    rw [openView, update_dag] at this
    exact this
  have hidx : r.1.index = s.index := by
    have := congrArg View.index h.view
    rw [openView, update_index] at this
    exact this
  have hw : r.1.weight = s.weight := by
    have := congrArg View.weight h.view
    rw [openView, update_weight] at this
    exact this
  have hoth : ∀ w, w ≠ v → ∀ x, r.1.view.charge w x = s.view.charge w x := by
    intro w hwv x
    rw [h.view, openView, update_charge_other v _ hs hwv]
  cases hr : r.2 with
  | none =>
    have hclose : Rounded.averageClose A total W r = r.1 := by
      simp [Rounded.averageClose, hr]
    rw [hclose]
    have hn : r.1.index v = none := by
      rw [hidx]
      cases hk : s.index v with
      | none => rfl
      | some k =>
        obtain ⟨mm, hm, -⟩ := h.marg k hk
        rw [hr] at hm; cases hm
    refine ⟨h.ok, hdag, hidx, hw, hoth, ?_⟩
    intro x
    have hn' : r.1.view.index v = none := hn
    rw [hr, View.charge, hn']
    rfl
  | some q =>
    obtain ⟨k, mm⟩ := q
    have hk : s.index v = some k := by
      cases hk : s.index v with
      | none => have := h.out hk; rw [hr] at this; cases this
      | some k' =>
        obtain ⟨mm', hm, -⟩ := h.marg k' hk
        rw [hr] at hm
        simp only [Option.some.injEq, Prod.mk.injEq] at hm
        rw [hm.1]
    have hk1 : r.1.index v = some k := by rw [hidx]; exact hk
    have hclose : Rounded.averageClose A total W r = { r.1 with
        memo := r.1.memo.setPenalties k
          (fun x => Rounded.newPenalty A (total x) (A.div r.1.weight W) (mm x)) } := by
      simp [Rounded.averageClose, hr]
    obtain ⟨g1, g2⟩ := rsub_set h.ok hk1
      (fun x => Rounded.newPenalty A (total x) (A.div r.1.weight W) (mm x))
    rw [hclose]
    refine ⟨g1, hdag, hidx, hw, ?_, ?_⟩
    · intro w hwv x
      rw [g2, update_charge_other v _ h.ok.view hwv]
      exact hoth w hwv x
    · intro x
      have hk2 : r.1.view.index v = some k := hk1
      rw [g2, View.charge, update_index, hk2, hr]
      simp only [Option.map_some, Option.getD_some]
      rw [update_pen_same v _ hk2]

/-- The min-marginals and shares of the participating subproblems. -/
theorem collected_rational (hA : Accurate A.toMachine F u limit) (hu : 0 ≤ u) {n : Nat} {M : ℚ}
    (v x : Nat) (W : ℚ) : ∀ (ss : List Sub)
    (paths : List (List PackedEdge)) (rs : List (Sub × Option (Nat × (Nat → Cost)))),
    (ss ≠ [] → (1 + u) ^ (2 * n) * M ≤ limit) →
    List.Forall₂ (Ready A.toMachine F N V n M v x) ss paths →
    List.Forall₂ (Opened A.toMachine N V v) ss rs →
    ∃ l : List (ℚ × ℚ),
      (rs.filterMap fun r => r.2.map fun q => (q.2 x, A.div r.1.weight W))
        = l.map (fun p => ((p.1 : Cost), p.2))
      ∧ (∀ p ∈ l, F p.1 ∧ |p.1| ≤ (1 + u) ^ (2 * n + 1) * M)
      ∧ l.length ≤ ss.length
      ∧ l.map Prod.snd = (ss.filter fun s => (s.index v).isSome).map fun s => A.div s.weight W := by
  intro ss
  induction ss with
  | nil =>
    intro paths rs _ _ h
    cases h
    exact ⟨[], rfl, by simp, by simp, rfl⟩
  | cons s ss ih =>
    intro paths rs hl hj h
    have hl := hl (by simp)
    cases hj with
    | @cons _ p _ paths hp hj =>
    cases h with
    | @cons _ r _ rs hr h =>
    obtain ⟨l, h1, h2, h3, h4⟩ := ih paths rs (fun _ => hl) hj h
    have hw : r.1.weight = s.weight := by
      have := congrArg View.weight hr.view
      rw [openView, update_weight] at this
      exact this
    cases hk : s.index v with
    | none =>
      refine ⟨l, ?_, h2, by simp; omega, ?_⟩
      · rw [List.filterMap_cons, hr.out hk]
        exact h1
      · rw [h4, List.filter_cons, hk]; rfl
    | some k =>
      obtain ⟨mm, m1, m2⟩ := hr.marg k hk
      obtain ⟨z, e, z1, z2, z3, z4⟩ := marg_bound hA hu hp.range hl hp.path hp.finite
        (hp.value k hk) (m2 x)
      obtain ⟨m, e1, e2, e3⟩ := marg_size hA hu hp.range hl (m2 x)
        (lt_of_le_of_lt z1 (WithTop.coe_lt_top z))
      refine ⟨(m, A.div s.weight W) :: l, ?_, ?_, by simp; omega, ?_⟩
      · rw [List.filterMap_cons, m1]
        simp only [Option.map_some, List.map_cons]
        rw [h1, e1, hw]
      · intro p hp'
        rcases List.mem_cons.1 hp' with rfl | hp'
        · exact ⟨e2, e3⟩
        · exact h2 p hp'
      · rw [List.map_cons, h4, List.filter_cons, hk]
        rfl

theorem filterMap_comp {α β γ : Type} (l : List α) (f : α → Option β) (g : β → γ) :
    (l.filterMap fun a => (f a).map g) = (l.filterMap f).map g := by
  induction l with
  | nil => rfl
  | cons a l ih =>
    cases h : f a <;> simp [h, ih]

theorem sum_getD {α : Type} (l : List α) (f : α → Option Cost) :
    (l.map fun a => (f a).getD 0).sum = (l.filterMap f).sum := by
  induction l with
  | nil => rfl
  | cons a l ih =>
    cases h : f a <;> simp [h, ih]

/-- The charges for the value of a variable sum to its extra cost, up to `D`. -/
def Bal (S : System) (a : Nat → Nat) (w : Nat) (D : ℚ) : Prop :=
  ∃ q e : ℚ, (S.subs.map fun s => s.view.charge w (a w)).sum = q ∧ S.extra w (a w) = e ∧ |q - e| ≤ D

theorem forall₂_map_both {α β γ : Type} {R : α → β → Prop} {P : α → γ → Prop} {f : β → γ}
    {l : List α} {l' : List β} (h : List.Forall₂ R l l') (hP : ∀ a b, a ∈ l → R a b → P a (f b)) :
    List.Forall₂ P l (l'.map f) := by
  induction h with
  | nil => exact .nil
  | @cons a b l l' h1 _ ih =>
    exact .cons (hP a b (by simp) h1) (ih fun a' b' ha' => hP a' b' (List.mem_cons_of_mem _ ha'))

theorem sum_range_ite {v : Nat} (c : ℚ) : ∀ N, v < N →
    ((List.range N).map fun w => if w = v then c else 0).sum = c := by
  intro N
  induction N with
  | zero => intro h; omega
  | succ N ih =>
    intro h
    rw [List.range_succ, List.map_append, List.sum_append]
    by_cases hv : v < N
    · rw [ih hv]
      have : N ≠ v := by omega
      simp [this]
    · obtain rfl : v = N := by omega
      have h0 : ((List.range v).map fun w => if w = v then c else 0).sum = 0 := by
        apply List.sum_eq_zero
        intro x hx
        obtain ⟨w, hw, rfl⟩ := List.mem_map.1 hx
        have : w ≠ v := by have := List.mem_range.1 hw; omega
        simp [this]
      rw [h0]
      simp

theorem coe_sum_map (l : List Nat) (f : Nat → ℚ) :
    ((((l.map f).sum : ℚ)) : Cost) = (l.map fun w => ((f w : ℚ) : Cost)).sum := by
  induction l with
  | nil => rfl
  | cons a l ih => rw [List.map_cons, List.sum_cons, List.map_cons, List.sum_cons, WithTop.coe_add, ih]

theorem sum_le_sum_range {N : Nat} {f g : Nat → ℚ} (h : ∀ w < N, f w ≤ g w) :
    ((List.range N).map f).sum ≤ ((List.range N).map g).sum := by
  apply List.sum_le_sum
  intro w hw
  exact h w (List.mem_range.1 hw)

/-- The charges of the other variables. -/
theorem other_charges {N v : Nat} (hv : v < N) {q e : Nat → ℚ} {D : ℚ}
    (h : ∀ w < N, w ≠ v → |q w - e w| ≤ D) :
    ((List.range N).map fun w => if w = v then 0 else q w).sum + e v
      ≤ ((List.range N).map e).sum + (N - 1) * D := by
  have h1 := sum_le_sum_range (N := N) (f := fun w => if w = v then 0 else q w)
    (g := fun w => (e w + D) - if w = v then e v + D else 0) (by
      intro w hw
      by_cases hwv : w = v
      · subst hwv; simp
      · rw [if_neg hwv, if_neg hwv]
        have := (abs_le.1 (h w hw hwv)).2
        linarith)
  have h2 : ((List.range N).map fun w => (e w + D) - if w = v then e v + D else 0).sum
      = ((List.range N).map e).sum + N * D - (e v + D) := by
    have e1 : ((List.range N).map fun w => (e w + D) - if w = v then e v + D else 0).sum
        + ((List.range N).map fun w => if w = v then e v + D else 0).sum
        = ((List.range N).map fun w => e w + D).sum := by
      rw [← List.sum_map_add]
      congr 1
      apply List.map_congr_left
      intro w _
      ring
    rw [sum_range_ite _ N hv] at e1
    have e2 : ((List.range N).map fun w => e w + D).sum = ((List.range N).map e).sum + N * D := by
      rw [List.sum_map_add]
      congr 1
      simp
    linarith
  linarith

end RUSure.Lemmas.Rnd
