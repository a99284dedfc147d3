import Mathlib.Algebra.Order.BigOperators.Group.List
import Verif.Lemmas.DualViews

/-!
# Averaging, forbidding and adding unary costs, on views
-/

namespace RUSure.Lemmas
open RUSure RUSure.Spec

/-! ### arithmetic with infinity -/

/-- Multiplication by a positive number. -/
def scaleC (r : ℚ) (c : Cost) : Cost := c.map (· * r)

theorem scaleC_coe (r q : ℚ) : scaleC r (q : Cost) = ((q * r : ℚ) : Cost) := rfl

theorem scaleC_top (r : ℚ) : scaleC r ⊤ = ⊤ := rfl

theorem sum_coe {α : Type} (l : List α) (f : α → ℚ) :
    (l.map fun a => ((f a : ℚ) : Cost)).sum = (((l.map f).sum : ℚ) : Cost) := by
  induction l with
  | nil => simp
  | cons a l ih => simp [ih]

theorem sum_linear {α : Type} (l : List α) (t : ℚ) (g m : α → ℚ) :
    (l.map fun a => t * g a - m a).sum = t * (l.map g).sum - (l.map m).sum := by
  induction l with
  | nil => simp
  | cons a l ih =>
    simp only [List.map_cons, List.sum_cons, ih]
    ring

theorem sum_div {α : Type} (l : List α) (g : α → ℚ) (W : ℚ) :
    (l.map fun a => g a / W).sum = (l.map g).sum / W := by
  induction l with
  | nil => simp
  | cons a l ih =>
    simp only [List.map_cons, List.sum_cons, ih]
    ring

theorem lift_finite {α : Type} (l : List α) (f : α → Cost) (h : (l.map f).sum < ⊤) :
    (l.map f).sum = (((l.map fun a => (f a).untopD 0).sum : ℚ) : Cost) := by
  rw [← sum_coe]
  congr 1
  apply List.map_congr_left
  intro a ha
  have := (sum_lt_top.1 h) (f a) (List.mem_map.2 ⟨a, ha, rfl⟩)
  generalize f a = c at this
  induction c using WithTop.recTopCoe with
  | top => simp at this
  | coe q => rfl

theorem sum_nonneg_pos {α : Type} (l : List α) (g : α → ℚ) (h0 : ∀ a ∈ l, 0 ≤ g a) {a : α}
    (ha : a ∈ l) (hp : 0 < g a) : 0 < (l.map g).sum := by
  induction l with
  | nil => simp at ha
  | cons b l ih =>
    simp only [List.map_cons, List.sum_cons]
    have hb := h0 b (by simp)
    have hl : 0 ≤ (l.map g).sum := by
      apply List.sum_nonneg
      intro x hx
      obtain ⟨c, hc, rfl⟩ := List.mem_map.1 hx
      exact h0 c (List.mem_cons_of_mem _ hc)
    rcases List.mem_cons.1 ha with rfl | ha
    · linarith
    · have := ih (fun c hc => h0 c (List.mem_cons_of_mem _ hc)) ha
      linarith

theorem arrayMin_congr {n : Nat} {f g : Nat → Cost} (h : ∀ x < n, f x = g x) :
    arrayMin n f = arrayMin n g := by
  unfold arrayMin
  congr 1
  apply List.map_congr_left
  intro x hx
  exact h x (by simpa using hx)

theorem le_arrayMin {n : Nat} {t : Nat → Cost} {c : Cost} (h : ∀ x < n, c ≤ t x) :
    c ≤ arrayMin n t := by
  rcases arrayMin_attained n t with h' | ⟨x, hx, h'⟩
  · rw [h']; exact le_top
  · rw [h']; exact h x hx

theorem scaleC_le {r : ℚ} (hr : 0 < r) {a b : Cost} (h : a ≤ b) : scaleC r a ≤ scaleC r b := by
  induction b using WithTop.recTopCoe with
  | top => exact le_top
  | coe b =>
    induction a using WithTop.recTopCoe with
    | top => simp at h
    | coe a =>
      rw [scaleC_coe, scaleC_coe, WithTop.coe_le_coe]
      exact mul_le_mul_of_nonneg_right (WithTop.coe_le_coe.1 h) hr.le

theorem arrayMin_scale {n : Nat} {t : Nat → Cost} {r : ℚ} (hr : 0 < r) :
    arrayMin n (fun x => scaleC r (t x)) = scaleC r (arrayMin n t) := by
  apply le_antisymm
  · rcases arrayMin_attained n t with h | ⟨x, hx, h⟩
    · rw [h, scaleC_top]; exact le_top
    · rw [h]; exact arrayMin_le n _ x hx
  · apply le_arrayMin
    intro x hx
    exact scaleC_le hr (arrayMin_le n t x hx)

theorem joint_path {a : Nat → Nat} {ws : List View} {paths : List (List PackedEdge)}
    (hf : List.Forall₂ (fun (w : View) p => Complete w.dag p ∧
      ∀ v k x, w.index v = some k → (k, x) ∈ assignments p → x = a v) ws paths)
    (hz : (List.zipWith (fun (w : View) p => pathCost w.pen p) ws paths).sum < ⊤)
    {w : View} (hw : w ∈ ws) :
    ∃ p, Complete w.dag p ∧ (∀ v k x, w.index v = some k → (k, x) ∈ assignments p → x = a v)
      ∧ pathCost w.pen p < ⊤ := by
  induction hf with
  | nil => simp at hw
  | @cons w' p ws' ps hp _ ih =>
    simp only [List.zipWith_cons_cons, List.sum_cons, WithTop.add_lt_top] at hz
    rcases List.mem_cons.1 hw with rfl | hw
    · exact ⟨p, hp.1, hp.2, hz.1⟩
    · exact ih hz.2 hw

/-! ### averaging -/

section
variable {N V : Nat} {extra : Nat → Nat → Cost} {ws : List View}

/-- The total weight of the subproblems using a variable. -/
def totalWeight (ws : List View) (v : Nat) : ℚ := (ws.map fun w => w.share v).sum

/-- The penalties after averaging. -/
def averagePen (extra : Nat → Nat → Cost) (ws : List View) (v : Nat) (w : View) (_ : Nat) (x : Nat) :
    Cost :=
  newPenalty (totalAt extra ws v x) (w.weight / totalWeight ws v) (w.openMarg v x)

theorem totalWeight_pos (h : VInv N V extra ws) {v : Nat} (hv : v < N) : 0 < totalWeight ws v := by
  obtain ⟨w, hw, k, hk⟩ := h.part v hv
  refine sum_nonneg_pos ws _ ?_ hw ?_
  · intro w' hw'
    unfold View.share
    cases w'.index v with
    | none => simp
    | some k => exact (h.ok w' hw').pos.le
  · simp only [View.share, hk]
    exact (h.ok w hw).pos

theorem openMarg_lt {v x : Nat} (ht : totalAt extra ws v x < ⊤) :
    (ws.map fun w => w.openMarg v x).sum < ⊤ ∧ extra v x < ⊤ := by
  unfold totalAt at ht
  exact WithTop.add_lt_top.1 ht

/-- New penalties sum to the extra costs. -/
theorem average_sum (h : VInv N V extra ws) {v : Nat} (hv : v < N) {x : Nat}
    (ht : totalAt extra ws v x < ⊤) :
    (ws.map fun w => (w.update v (averagePen extra ws v)).charge v x).sum = extra v x := by
  obtain ⟨h1, h2⟩ := openMarg_lt ht
  have hW := totalWeight_pos h hv
  have hcharge : ∀ w : View, (w.update v (averagePen extra ws v)).charge v x
      = (((totalAt extra ws v x).untopD 0 * (w.share v / totalWeight ws v)
          - (w.openMarg v x).untopD 0 : ℚ) : Cost) := by
    intro w
    unfold View.charge
    rw [update_index]
    cases hk : w.index v with
    | none =>
      simp [View.share, View.openMarg, hk]
    | some k =>
      simp only [update_pen_same v _ hk, averagePen, newPenalty, if_neg ht.ne, View.share, hk]
  simp only [hcharge]
  rw [sum_coe, sum_linear, sum_div]
  change (((totalAt extra ws v x).untopD 0 * (totalWeight ws v / totalWeight ws v) - _ : ℚ) : Cost) = _
  rw [div_self hW.ne', mul_one]
  have h3 := lift_finite ws (fun w => w.openMarg v x) h1
  unfold totalAt
  rw [h3]
  generalize (ws.map fun w => (w.openMarg v x).untopD 0).sum = s
  generalize extra v x = c at h2
  induction c using WithTop.recTopCoe with
  | top => simp at h2
  | coe c =>
    rw [← WithTop.coe_add, WithTop.untopD_coe]
    congr 1
    ring

theorem average_inv (h : VInv N V extra ws) {v : Nat} (hv : v < N) :
    VInv N V extra (ws.map fun w => w.update v (averagePen extra ws v)) := by
  have htop : ∀ x < V, ∀ w ∈ ws, ∀ k, w.index v = some k → w.pen k x = ⊤ →
      totalAt extra ws v x = ⊤ := by
    intro x hx w hw k hk hp
    rcases h.bal v hv x hx with h' | h'
    · have : (ws.map fun w => w.charge v x).sum = ⊤ := by
        rw [sum_eq_top]
        refine ⟨_, List.mem_map.2 ⟨w, hw, rfl⟩, ?_⟩
        simp [View.charge, hk, hp]
      rw [this] at h'
      unfold totalAt
      rw [← h']
      exact add_top _
    · exact h'.total
  refine h.step v hv _ (fun _ _ => rfl) (fun _ _ h => h) ?_ ?_
  · intro w hw k hk x hx hp
    simp only [averagePen, newPenalty, htop x hx w hw k hk hp, ↓reduceIte]
  · intro x hx
    by_cases ht : totalAt extra ws v x < ⊤
    · exact .inl (average_sum h hv ht)
    · right
      have ht := not_lt_top_iff.1 ht
      constructor
      · intro w hw k hk
        obtain ⟨w0, hw0, rfl⟩ := List.mem_map.1 hw
        rw [update_index] at hk
        rw [update_pen_same v _ hk]
        simp [averagePen, newPenalty, ht]
      · unfold totalAt at ht ⊢
        rw [List.map_map]
        rw [← ht]
        congr 2
        apply List.map_congr_left
        intro w _
        exact update_openMarg_same v _ x
      · rintro ⟨a, paths, hj, hlt, rfl⟩
        rw [vjoint_update] at hj
        obtain ⟨h1, h2⟩ := h.charges hj hlt
        have hfin : ∀ v < N, extra v (a v) < ⊤ := by
          have := hlt
          unfold vCost at this
          rw [WithTop.add_lt_top, sum_lt_top, sum_lt_top, List.forall_mem_map,
            List.forall_mem_map] at this
          intro u hu
          exact this.2 u (by simpa using hu)
        unfold totalAt at ht
        rw [WithTop.add_eq_top, sum_eq_top] at ht
        rcases ht with ⟨c, hc, hct⟩ | ht
        · obtain ⟨w, hw, rfl⟩ := List.mem_map.1 hc
          have hz : (List.zipWith (fun (w : View) p => pathCost w.pen p) ws paths).sum < ⊤ := by
            rw [h2]; exact hlt
          -- the path of this subproblem has finite cost
          have hpath : ∃ p, Complete w.dag p ∧ (∀ v k x, w.index v = some k →
              (k, x) ∈ assignments p → x = a v) ∧ pathCost w.pen p < ⊤ := by
            exact joint_path hj.paths hz hw
          obtain ⟨p, hp1, hp2, hp3⟩ := hpath
          unfold View.openMarg at hct
          cases hk : w.index v with
          | none => simp [hk] at hct
          | some k =>
            simp only [hk] at hct
            have hok := h.ok w hw
            have hkl := (hok.lt v k hk).2
            obtain ⟨x, hx', hm⟩ := complete_value hok.wf hp1 hkl
            have := hp2 v k x hk hm
            subst this
            have hle := (margOf_min hok.wf (setPen w.pen k fun _ => 0) hkl (a v)).le p ⟨hp1, hm⟩
            rw [hct] at hle
            have hlt2 : pathCost (setPen w.pen k fun _ => 0) p < ⊤ := by
              rw [pathCost_lt_top] at hp3 ⊢
              refine ⟨hp3.1, ?_⟩
              intro kx hkx
              unfold setPen
              split
              · simp
              · exact hp3.2 kx hkx
            exact absurd hlt2 (not_lt.2 hle)
        · exact absurd (hfin v hv) (by rw [ht]; simp)

theorem update_marg {w : View} (hw : ViewOK N V w) (v : Nat) (q : View → Nat → Nat → Cost) {k : Nat}
    (hk : w.index v = some k) (x : Nat) :
    margOf (w.update v q).dag (w.update v q).pen k x = w.openMarg v x + q w k x := by
  simp only [View.update, hk, View.openMarg]
  exact margOf_setPen hw.wf w.pen (hw.lt v k hk).2 _ x

theorem sum_part (ws : List View) (v : Nat) (f : View → Cost) :
    (ws.map f).sum = (ws.map fun w => if (w.index v).isSome then f w else 0).sum
      + (ws.map fun w => if (w.index v).isSome then 0 else f w).sum := by
  rw [← List.sum_map_add]
  congr 1
  apply List.map_congr_left
  intro w _
  by_cases h : (w.index v).isSome <;> simp [h]

/-- The value returned by averaging is the new dual value. -/
theorem average_value (h : VInv N V extra ws) {v : Nat} (hv : v < N) :
    ((ws.map fun w => w.update v (averagePen extra ws v)).map View.cost).sum
      = arrayMin V (totalAt extra ws v) + (ws.map fun w => w.skipped v).sum := by
  have hW := totalWeight_pos h hv
  rw [List.map_map, sum_part ws v]
  congr 1
  · have hcost : ∀ w ∈ ws, (if (w.index v).isSome = true then
        (View.cost ∘ fun w => w.update v (averagePen extra ws v)) w else 0)
        = if (w.index v).isSome = true then
          scaleC (w.share v / totalWeight ws v) (arrayMin V (totalAt extra ws v)) else 0 := by
      intro w hw
      cases hk : w.index v with
      | none => simp
      | some k =>
        simp only [Option.isSome_some, ↓reduceIte, Function.comp]
        have hok := h.ok w hw
        have hpos : 0 < w.share v / totalWeight ws v := by
          simp only [View.share, hk]
          exact div_pos hok.pos hW
        rw [← arrayMin_scale hpos, View.cost, costOf_eq_arrayMin (k := k)]
        · rw [update_dag, hok.values]
          apply arrayMin_congr
          intro x hx
          have := update_marg hok v (averagePen extra ws v) hk x
          rw [update_dag] at this
          rw [this]
          simp only [averagePen, newPenalty]
          by_cases ht : totalAt extra ws v x = ⊤
          · rw [if_pos ht, ht, scaleC_top]; exact add_top _
          · rw [if_neg ht]
            have hlt : w.openMarg v x < ⊤ :=
              (sum_lt_top.1 (openMarg_lt (lt_top_iff_ne_top.2 ht)).1) _
                (List.mem_map.2 ⟨w, hw, rfl⟩)
            generalize totalAt extra ws v x = t at *
            generalize w.openMarg v x = m at *
            induction t using WithTop.recTopCoe with
            | top => simp at ht
            | coe t =>
              induction m using WithTop.recTopCoe with
              | top => simp at hlt
              | coe m =>
                simp only [WithTop.untopD_coe, scaleC_coe, View.share, hk]
                rw [← WithTop.coe_add]
                congr 1
                ring
        · exact (update_ok v _ hok).wf
        · rw [update_dag]
          exact (hok.lt v k hk).2
    rw [List.map_congr_left hcost]
    generalize arrayMin V (totalAt extra ws v) = c
    induction c using WithTop.recTopCoe with
    | top =>
      rw [sum_eq_top]
      obtain ⟨w, hw, k, hk⟩ := h.part v hv
      refine ⟨_, List.mem_map.2 ⟨w, hw, rfl⟩, ?_⟩
      simp [hk, scaleC_top]
    | coe c =>
      have : ∀ w : View, (if (w.index v).isSome = true then
          scaleC (w.share v / totalWeight ws v) (c : Cost) else 0)
          = ((c * (w.share v / totalWeight ws v) - 0 : ℚ) : Cost) := by
        intro w
        cases hk : w.index v with
        | none => simp [View.share, hk]
        | some k => simp [scaleC_coe]
      simp only [this]
      rw [sum_coe, sum_linear, sum_div]
      congr 1
      change c * (totalWeight ws v / totalWeight ws v) - _ = c
      rw [div_self hW.ne']
      simp
  · congr 1
    apply List.map_congr_left
    intro w _
    cases hk : w.index v with
    | none => simp [View.skipped, hk, View.update]
    | some k => simp [View.skipped, hk]

/-- Averaging does not decrease the dual value. -/
theorem average_le (h : VInv N V extra ws) {v : Nat} (hv : v < N) :
    (ws.map View.cost).sum
      ≤ arrayMin V (totalAt extra ws v) + (ws.map fun w => w.skipped v).sum := by
  rw [sum_part ws v]
  apply add_le_add
  · apply le_arrayMin
    intro x hx
    rcases h.bal v hv x hx with h' | h'
    · unfold totalAt
      rw [← h', ← List.sum_map_add]
      apply List.sum_le_sum
      intro w hw
      cases hk : w.index v with
      | none => simp [View.openMarg, View.charge, hk]
      | some k =>
        simp only [Option.isSome_some, ↓reduceIte, View.openMarg, View.charge, hk]
        have hok := h.ok w hw
        rw [← margOf_split hok.wf w.pen (hok.lt v k hk).2 x]
        exact costOf_le_margOf hok.wf w.pen (hok.lt v k hk).2 x
    · rw [h'.total]; exact le_top
  · apply le_of_eq
    congr 1
    apply List.map_congr_left
    intro w _
    cases hk : w.index v with
    | none => simp [View.skipped, hk]
    | some k => simp [View.skipped, hk]

/-! ### forbidding values -/

/-- The penalties after forbidding. -/
def forbidPen (bad : Nat → Bool) (w : View) (k x : Nat) : Cost := if bad x then ⊤ else w.pen k x

theorem forbid_inv (h : VInv N V extra ws) {v : Nat} (hv : v < N) (bad : Nat → Bool) :
    VInv N V (fun u x => if u = v ∧ bad x = true then ⊤ else extra u x)
      (ws.map fun w => w.update v (forbidPen bad)) := by
  refine h.step v hv _ ?_ ?_ ?_ ?_
  · intro u hu; funext x; simp [hu]
  · intro x hx hc; simp [hc]
  · intro w hw k hk x hx hp
    simp [forbidPen, hp]
  · intro x hx
    have hch : ∀ w : View, (w.update v (forbidPen bad)).charge v x
        = match w.index v with | none => 0 | some k => forbidPen bad w k x := by
      intro w
      unfold View.charge
      rw [update_index]
      cases hk : w.index v with
      | none => rfl
      | some k => simp only; rw [update_pen_same v _ hk]
    by_cases hb : bad x = true
    · left
      simp only [hb, and_self, ↓reduceIte]
      rw [sum_eq_top]
      obtain ⟨w, hw, k, hk⟩ := h.part v hv
      refine ⟨_, List.mem_map.2 ⟨w, hw, rfl⟩, ?_⟩
      rw [hch, hk]
      simp [forbidPen, hb]
    · have hb' : bad x = false := by simpa using hb
      rcases h.bal v hv x hx with h' | h'
      · left
        simp only [hb]
        rw [if_neg (by simp), ← h']
        congr 1
        apply List.map_congr_left
        intro w _
        rw [hch]
        unfold View.charge
        cases w.index v <;> simp [forbidPen, hb']
      · right
        constructor
        · intro w hw k hk
          obtain ⟨w0, hw0, rfl⟩ := List.mem_map.1 hw
          rw [update_index] at hk
          rw [update_pen_same v _ hk]
          simp [forbidPen, h'.pens w0 hw0 k hk]
        · have ht := h'.total
          unfold totalAt at ht ⊢
          simp only [hb', and_false, Bool.false_eq_true, ↓reduceIte]
          rw [← ht, List.map_map]
          congr 2
          apply List.map_congr_left
          intro w _
          exact update_openMarg_same v _ x
        · rintro ⟨a, paths, hj, hlt, rfl⟩
          rw [vjoint_update] at hj
          refine h'.infeasible ⟨a, paths, hj, lt_of_le_of_lt ?_ hlt, rfl⟩
          unfold vCost
          refine add_le_add (le_refl _) (List.sum_le_sum ?_)
          intro u _
          dsimp only
          split
          · exact le_top
          · exact le_refl _

/-! ### unary costs -/

/-- The number of subproblems using a variable. -/
def relevant (ws : List View) (v : Nat) : Nat := (ws.filter fun w => (w.index v).isSome).length

/-- The penalties after adding unary costs. -/
def unaryPen (n : Nat) (p : Nat → Cost) (w : View) (k x : Nat) : Cost :=
  w.pen k x + (p x).map (· / (n : ℚ))

theorem relevant_sum (ws : List View) (v : Nat) (c : ℚ) :
    (ws.map fun w => if (w.index v).isSome then c else 0).sum = relevant ws v * c := by
  unfold relevant
  induction ws with
  | nil => simp
  | cons w ws ih =>
    simp only [List.map_cons, List.sum_cons, ih, List.filter_cons]
    split
    · simp only [List.length_cons, Nat.cast_add, Nat.cast_one]; ring
    · simp

theorem unary_inv (h : VInv N V extra ws) {v : Nat} (hv : v < N) (p : Nat → Cost) :
    VInv N V (fun u x => if u = v then extra u x + p x else extra u x)
      (ws.map fun w => w.update v (unaryPen (relevant ws v) p)) := by
  have hrel : 0 < relevant ws v := by
    obtain ⟨w, hw, k, hk⟩ := h.part v hv
    unfold relevant
    apply List.length_pos_of_mem (a := w)
    simp [hw, hk]
  refine h.step v hv _ ?_ ?_ ?_ ?_
  · intro u hu; funext x; simp [hu]
  · intro x hx hc; simp [hc]
  · intro w hw k hk x hx hp
    simp [unaryPen, hp]
  · intro x hx
    have hch : ∀ w : View, (w.update v (unaryPen (relevant ws v) p)).charge v x
        = w.charge v x + if (w.index v).isSome then (p x).map (· / (relevant ws v : ℚ)) else 0 := by
      intro w
      unfold View.charge
      rw [update_index]
      cases hk : w.index v with
      | none => simp
      | some k => simp only; rw [update_pen_same v _ hk]; simp [unaryPen]
    rcases h.bal v hv x hx with h' | h'
    · left
      simp only [hch, ↓reduceIte]
      rw [List.sum_map_add, h']
      congr 1
      generalize p x = c
      induction c using WithTop.recTopCoe with
      | top =>
        rw [sum_eq_top]
        obtain ⟨w, hw, k, hk⟩ := h.part v hv
        exact ⟨_, List.mem_map.2 ⟨w, hw, rfl⟩, by simp [hk]⟩
      | coe c =>
        have : ∀ w : View, (if (w.index v).isSome = true then
            (c : Cost).map (· / (relevant ws v : ℚ)) else 0)
            = (((if (w.index v).isSome then c / (relevant ws v : ℚ) else 0) : ℚ) : Cost) := by
          intro w
          cases (w.index v).isSome <;> simp
        simp only [this]
        rw [sum_coe, relevant_sum]
        congr 1
        have : (relevant ws v : ℚ) ≠ 0 := by exact_mod_cast hrel.ne'
        field_simp
    · right
      constructor
      · intro w hw k hk
        obtain ⟨w0, hw0, rfl⟩ := List.mem_map.1 hw
        rw [update_index] at hk
        rw [update_pen_same v _ hk]
        simp [unaryPen, h'.pens w0 hw0 k hk]
      · have ht := h'.total
        unfold totalAt at ht ⊢
        simp only [↓reduceIte]
        rw [← add_assoc, List.map_map]
        have : (ws.map ((fun w => w.openMarg v x) ∘
            fun w => w.update v (unaryPen (relevant ws v) p))) = ws.map fun w => w.openMarg v x := by
          apply List.map_congr_left
          intro w _
          exact update_openMarg_same v _ x
        rw [this, ht]
        exact top_add _
      · rintro ⟨a, paths, hj, hlt, rfl⟩
        rw [vjoint_update] at hj
        refine h'.infeasible ⟨a, paths, hj, ?_, rfl⟩
        unfold vCost at hlt ⊢
        rw [WithTop.add_lt_top, sum_lt_top, sum_lt_top, List.forall_mem_map,
          List.forall_mem_map] at hlt ⊢
        refine ⟨hlt.1, ?_⟩
        intro u hu
        have := hlt.2 u hu
        dsimp only at this
        split at this
        · exact (WithTop.add_lt_top.1 this).1
        · exact this

end

end RUSure.Lemmas
