import Verif.Lemmas.RoundedPaths
import Verif.Lemmas.PackedMore
import Mathlib.Algebra.Order.Group.Abs
import Mathlib.Algebra.Order.BigOperators.Group.List
import Mathlib.Data.List.Induction
import Mathlib.Tactic.Linarith
import Mathlib.Tactic.Ring

/-! # Rounding errors of sums along paths -/

namespace RUSure.Lemmas.Rnd
open RUSure RUSure.Spec RUSure.Lemmas RUSure.Rounded

/-- A sum in machine arithmetic from the left. -/
def machineSum (A : Machine) (l : List Cost) : Cost := l.foldl A.add 0

def coes (l : List ℚ) : List Cost := l.map (fun x : ℚ => (x : Cost))

theorem coes_sum (l : List ℚ) : (coes l).sum = ((l.sum : ℚ) : Cost) := by
  induction l with
  | nil => rfl
  | cons a l ih =>
    have : coes (a :: l) = (a : Cost) :: coes l := rfl
    rw [this, List.sum_cons, ih, List.sum_cons, WithTop.coe_add]

theorem abs_sum_nonneg (l : List ℚ) : 0 ≤ (l.map abs).sum := by
  apply List.sum_nonneg
  intro x hx
  obtain ⟨y, -, rfl⟩ := List.mem_map.1 hx
  exact abs_nonneg y

variable {A : Machine} {F : ℚ → Prop} {u limit : ℚ}

theorem one_le_pow_u (hu : 0 ≤ u) (n : Nat) : (1 : ℚ) ≤ (1 + u) ^ n :=
  one_le_pow₀ (by linarith)

/-- The error of a sum of `n` numbers. -/
theorem sum_error (hA : Accurate A F u limit) (hu : 0 ≤ u) (l : List ℚ)
    (hF : ∀ x ∈ l, F x) (hl : (1 + u) ^ l.length * (l.map abs).sum ≤ limit) :
    ∃ r : ℚ, F r ∧ machineSum A (coes l) = r ∧ |r - l.sum| ≤ ((1 + u) ^ l.length - 1) * (l.map abs).sum
      ∧ |r| ≤ (1 + u) ^ l.length * (l.map abs).sum := by
  induction l using List.reverseRecOn with
  | nil => exact ⟨0, hA.zero, rfl, by simp, by simp⟩
  | append_singleton l x ih =>
    have h1 : ((l ++ [x]).map abs).sum = (l.map abs).sum + |x| := by simp
    have h2 : (l ++ [x]).sum = l.sum + x := by simp
    have h3 : (l ++ [x]).length = l.length + 1 := by simp
    rw [h1, h3] at hl
    rw [h1, h2, h3]
    have hp := one_le_pow_u hu l.length
    have hT := abs_sum_nonneg l
    have hx := abs_nonneg x
    generalize (l.map abs).sum = T at *
    generalize hP : (1 + u) ^ l.length = P at *
    have hP1 : (1 + u) ^ (l.length + 1) = P * (1 + u) := by rw [pow_succ, hP]
    rw [hP1] at hl ⊢
    have hPT : 0 ≤ P * (T + |x|) := mul_nonneg (by linarith) (by linarith)
    have hle : P * (T + |x|) ≤ limit := by nlinarith
    have hPx : 0 ≤ P * |x| := mul_nonneg (by linarith) hx
    obtain ⟨r, g0, g1, g2, g3⟩ := ih (fun y hy => hF y (by simp [hy])) (by nlinarith)
    have hsum : |r + x| ≤ P * (T + |x|) := by
      have := abs_add_le r x
      nlinarith
    obtain ⟨r', k0, k1, k2⟩ := hA.add r x g0 (hF x (by simp)) (hsum.trans hle)
    refine ⟨r', k0, ?_, ?_, ?_⟩
    · unfold machineSum coes at *
      rw [List.map_append, List.foldl_append, g1]
      exact k1
    · have e : r' - (l.sum + x) = (r' - (r + x)) + (r - l.sum) := by ring
      rw [e]
      refine (abs_add_le _ _).trans ?_
      have := mul_le_mul_of_nonneg_left hsum hu
      nlinarith
    · have e : r' = (r' - (r + x)) + (r + x) := by ring
      rw [e]
      refine (abs_add_le _ _).trans ?_
      have := mul_le_mul_of_nonneg_left hsum hu
      nlinarith

theorem forward_summands (pen : Penalties) (p : List PackedEdge) :
    forwardCost A pen p = machineSum A (summands pen p) := by
  unfold forwardCost machineSum summands
  generalize (0 : Cost) = c
  induction p generalizing c with
  | nil => rfl
  | cons e p ih => simpa using ih _

theorem backward_summands (pen : Penalties) (p : List PackedEdge) :
    backwardCost A pen p = machineSum A (summands pen p.reverse) := by
  rw [← forward_summands, forwardCost, List.foldl_reverse]
  rfl

theorem pathCost_summands (pen : Penalties) (p : List PackedEdge) :
    pathCost pen p = (summands pen p).sum := by
  induction p with
  | nil => rfl
  | cons e p ih =>
    rw [pathCost_cons, ih]
    simp [summands, pw, add_assoc]

theorem summands_length (pen : Penalties) (p : List PackedEdge) :
    (summands pen p).length = 2 * p.length := by
  induction p with
  | nil => rfl
  | cons e p ih => simp [summands] at *; omega

theorem summands_append (pen : Penalties) (p q : List PackedEdge) :
    summands pen (p ++ q) = summands pen p ++ summands pen q := by
  simp [summands]

theorem coes_append {l : List ℚ} {a b : List Cost} (h : a ++ b = coes l) :
    ∃ l1 l2, l = l1 ++ l2 ∧ a = coes l1 ∧ b = coes l2 := by
  unfold coes at *
  obtain ⟨l1, l2, h1, h2, h3⟩ := List.map_eq_append_iff.1 h.symm
  exact ⟨l1, l2, h1, h2.symm, h3.symm⟩

/-- The size of the reversed path. -/
theorem size_reverse {pen : Penalties} {p : List PackedEdge} {t : ℚ} (h : TotalSize F pen p t) :
    ∃ l l' : List ℚ, summands pen p = coes l ∧ summands pen p.reverse = coes l'
      ∧ (∀ x ∈ l, F x) ∧ (∀ x ∈ l', F x) ∧ (l.map abs).sum = t ∧ (l'.map abs).sum = t ∧ l'.sum = l.sum ∧ l.length = 2 * p.length
      ∧ l'.length = 2 * p.length := by
  obtain ⟨l, h1, hF, h2⟩ := h
  change summands pen p = coes l at h1
  have hlen : l.length = 2 * p.length := by
    rw [← summands_length pen p, h1]; simp [coes]
  suffices H : ∀ (p : List PackedEdge) (l : List ℚ), summands pen p = coes l →
      ∃ l', summands pen p.reverse = coes l' ∧ (∀ x ∈ l', x ∈ l)
        ∧ (l'.map abs).sum = (l.map abs).sum ∧ l'.sum = l.sum by
    obtain ⟨l', g1, g0, g2, g3⟩ := H p l h1
    refine ⟨l, l', h1, g1, hF, fun x hx => hF x (g0 x hx), h2, g2.trans h2, g3, hlen, ?_⟩
    have : (summands pen p.reverse).length = 2 * p.length := by
      rw [summands_length, List.length_reverse]
    rw [g1] at this
    simpa [coes] using this
  intro p
  induction p with
  | nil =>
    intro l hl
    exact ⟨l, hl, fun _ h => h, rfl, rfl⟩
  | cons e p ih =>
    intro l hl
    have hl' : summands pen [e] ++ summands pen p = coes l := by
      rw [← summands_append]; exact hl
    obtain ⟨l1, l2, rfl, g1, g2⟩ := coes_append hl'
    obtain ⟨l2', k1, k0, k2, k3⟩ := ih l2 g2
    refine ⟨l2' ++ l1, ?_, ?_, ?_, ?_⟩
    · rw [List.reverse_cons, summands_append, k1, g1]; simp [coes]
    · intro x hx
      rcases List.mem_append.1 hx with h | h
      · exact List.mem_append.2 (.inr (k0 x h))
      · exact List.mem_append.2 (.inl h)
    · simp [k2, add_comm]
    · simp [k3, add_comm]

theorem path_error (hA : Accurate A F u limit) (hu : 0 ≤ u) {pen : Penalties} {p : List PackedEdge}
    {t : ℚ} (ht : TotalSize F pen p t) (hl : (1 + u) ^ (2 * p.length) * t ≤ limit) :
    ∃ x f b : ℚ, pathCost pen p = x ∧ forwardCost A pen p = f ∧ backwardCost A pen p = b
      ∧ |f - x| ≤ ((1 + u) ^ (2 * p.length) - 1) * t
      ∧ |b - x| ≤ ((1 + u) ^ (2 * p.length) - 1) * t
      ∧ F f ∧ F b ∧ |f| ≤ (1 + u) ^ (2 * p.length) * t ∧ |b| ≤ (1 + u) ^ (2 * p.length) * t := by
  obtain ⟨l, l', h1, h2, hF, hF', h3, h4, h5, h6, h7⟩ := size_reverse ht
  obtain ⟨f, f0, f1, f2, f3⟩ := sum_error hA hu l hF (by rw [h6, h3]; exact hl)
  obtain ⟨b, b0, b1, b2, b3⟩ := sum_error hA hu l' hF' (by rw [h7, h4]; exact hl)
  rw [h6, h3] at f2 f3
  rw [h7, h4] at b2 b3
  rw [h5] at b2
  refine ⟨l.sum, f, b, ?_, ?_, ?_, f2, b2, f0, b0, f3, b3⟩
  · rw [pathCost_summands, h1, coes_sum]
  · rw [forward_summands, h1, f1]
  · rw [backward_summands, h2, b1]

/-- Finite machine sums have finite summands. -/
theorem machineSum_finite {l : List Cost} (h : machineSum A l < ⊤) :
    ∃ l' : List ℚ, l = coes l' := by
  induction l using List.reverseRecOn with
  | nil => exact ⟨[], rfl⟩
  | append_singleton l x ih =>
    have he : machineSum A (l ++ [x]) = A.add (machineSum A l) x := by
      simp [machineSum, List.foldl_append]
    rw [he] at h
    have h1 : machineSum A l < ⊤ := by
      rw [lt_top_iff_ne_top] at h ⊢
      intro hc
      rw [hc, A.top_left] at h
      exact h rfl
    have h2 : x ≠ ⊤ := by
      rintro rfl
      rw [A.top_right] at h
      exact absurd h (lt_irrefl _)
    obtain ⟨l', rfl⟩ := ih h1
    lift x to ℚ using h2
    exact ⟨l' ++ [x], by simp [coes]⟩

/-- All finite summands of the path are in `F`. -/
def Members (F : ℚ → Prop) (pen : Penalties) (p : List PackedEdge) : Prop :=
  ∀ e ∈ p, ∀ x : ℚ, e.cost = x ∨ e.penalty pen = x → F x

theorem members_of_coes {pen : Penalties} {p : List PackedEdge} {l : List ℚ}
    (hp : Members F pen p) (h : summands pen p = coes l) : ∀ x ∈ l, F x := by
  intro x hx
  have : (x : Cost) ∈ summands pen p := by rw [h]; exact List.mem_map.2 ⟨x, hx, rfl⟩
  obtain ⟨e, he, hc⟩ := List.mem_flatMap.1 this
  simp only [List.mem_cons, List.not_mem_nil, or_false] at hc
  exact hp e he x (hc.imp Eq.symm Eq.symm)

theorem size_of_backward {pen : Penalties} {p : List PackedEdge} (hp : Members F pen p)
    (h : backwardCost A pen p < ⊤) : ∃ t, TotalSize F pen p t := by
  rw [backward_summands] at h
  obtain ⟨l, hl⟩ := machineSum_finite h
  have hp' : Members F pen p.reverse := fun e he => hp e (List.mem_reverse.1 he)
  obtain ⟨l1, l2, -, h2, h3, h4, -⟩ := size_reverse (F := F) (pen := pen) (p := p.reverse)
    ⟨l, hl, members_of_coes hp' hl, rfl⟩
  rw [List.reverse_reverse] at h2
  exact ⟨_, l2, h2, h4, rfl⟩

theorem complete_mem {d : PackedDag} {p : List PackedEdge} (h : Complete d p) :
    ∀ e ∈ p, e ∈ d.edges := Walk.mem h

/-- One more addition. -/
theorem add_error (hA : Accurate A F u limit) (hu : 0 ≤ u) {P S T x y f b : ℚ} (hP : 1 ≤ P) (hS : 0 ≤ S)
    (hT : 0 ≤ T) (hl : P * (1 + u) * (S + T) ≤ limit) (h1 : |f - x| ≤ (P - 1) * S)
    (h2 : |b - y| ≤ (P - 1) * T) (hf : F f) (hb : F b) (h3 : |f| ≤ P * S) (h4 : |b| ≤ P * T) :
    ∃ r : ℚ, A.add f b = r ∧ |r - (x + y)| ≤ (P * (1 + u) - 1) * (S + T) := by
  have hsum : |f + b| ≤ P * (S + T) := by
    have := abs_add_le f b
    nlinarith
  have hPT : 0 ≤ P * (S + T) := mul_nonneg (by linarith) (by linarith)
  obtain ⟨r, -, k1, k2⟩ := hA.add f b hf hb (hsum.trans (by nlinarith))
  refine ⟨r, k1, ?_⟩
  have e : r - (x + y) = (r - (f + b)) + ((f - x) + (b - y)) := by ring
  rw [e]
  refine (abs_add_le _ _).trans ?_
  have h5 := abs_add_le (f - x) (b - y)
  have := mul_le_mul_of_nonneg_left hsum hu
  nlinarith

theorem size_append {pen : Penalties} {p q : List PackedEdge} {t : ℚ}
    (h : TotalSize F pen (p ++ q) t) :
    ∃ s s', TotalSize F pen p s ∧ TotalSize F pen q s' ∧ t = s + s' := by
  obtain ⟨l, h1, hF, h2⟩ := h
  rw [summands_append] at h1
  obtain ⟨l1, l2, rfl, g1, g2⟩ := coes_append h1
  exact ⟨_, _, ⟨l1, g1, fun x hx => hF x (by simp [hx]), rfl⟩,
    ⟨l2, g2, fun x hx => hF x (by simp [hx]), rfl⟩, by rw [← h2]; simp⟩

theorem size_nonneg {pen : Penalties} {p : List PackedEdge} {t : ℚ} (h : TotalSize F pen p t) :
    0 ≤ t := by
  obtain ⟨l, -, -, rfl⟩ := h
  exact abs_sum_nonneg l

theorem pow_mono (hu : 0 ≤ u) {m n : Nat} (h : m ≤ n) : (1 + u) ^ m ≤ (1 + u) ^ n :=
  pow_le_pow_right₀ (by linarith) h

theorem path_error_le (hA : Accurate A F u limit) (hu : 0 ≤ u) {pen : Penalties}
    {p : List PackedEdge} {t : ℚ} (ht : TotalSize F pen p t) {n : Nat} (hn : p.length ≤ n)
    (hl : (1 + u) ^ (2 * n) * t ≤ limit) :
    ∃ x f b : ℚ, pathCost pen p = x ∧ forwardCost A pen p = f ∧ backwardCost A pen p = b
      ∧ |f - x| ≤ ((1 + u) ^ (2 * n) - 1) * t
      ∧ |b - x| ≤ ((1 + u) ^ (2 * n) - 1) * t
      ∧ F f ∧ F b ∧ |f| ≤ (1 + u) ^ (2 * n) * t ∧ |b| ≤ (1 + u) ^ (2 * n) * t := by
  have h0 := size_nonneg ht
  have hm := pow_mono hu (show 2 * p.length ≤ 2 * n by omega)
  have hm' := mul_le_mul_of_nonneg_right hm h0
  obtain ⟨x, f, b, h1, h2, h3, h4, h5, hf, hb, h6, h7⟩ := path_error hA hu ht (hm'.trans hl)
  exact ⟨x, f, b, h1, h2, h3, by linarith, by linarith, hf, hb, by linarith, by linarith⟩

theorem middle_forward (pen : Penalties) (p : List PackedEdge) (e : PackedEdge)
    (q : List PackedEdge) :
    middleCost A pen p e q = A.add (forwardCost A pen (p ++ [e])) (backwardCost A pen q) := by
  simp [middleCost, forwardCost, List.foldl_append]

theorem pathCost_append' (pen : Penalties) (p q : List PackedEdge) :
    pathCost pen (p ++ q) = pathCost pen p + pathCost pen q := by
  simp [pathCost_summands, summands_append]

theorem middle_error (hA : Accurate A F u limit) (hu : 0 ≤ u) {pen : Penalties}
    {p q : List PackedEdge} {e : PackedEdge} {t : ℚ} (ht : TotalSize F pen (p ++ e :: q) t) {n : Nat}
    (hn : (p ++ e :: q).length ≤ n) (hl : (1 + u) ^ (2 * n + 1) * t ≤ limit) :
    ∃ x r : ℚ, pathCost pen (p ++ e :: q) = x ∧ middleCost A pen p e q = r
      ∧ |r - x| ≤ ((1 + u) ^ (2 * n + 1) - 1) * t := by
  have hs : p ++ e :: q = (p ++ [e]) ++ q := by simp
  rw [hs] at ht hn ⊢
  obtain ⟨s, s', h1, h2, rfl⟩ := size_append ht
  have k1 := size_nonneg h1
  have k2 := size_nonneg h2
  have hP := one_le_pow_u hu (2 * n)
  rw [pow_succ] at hl ⊢
  have hPs : 0 ≤ (1 + u) ^ (2 * n) * s := mul_nonneg (by linarith) k1
  have hPs' : 0 ≤ (1 + u) ^ (2 * n) * s' := mul_nonneg (by linarith) k2
  rw [List.length_append] at hn
  obtain ⟨x, f, b, a1, a2, a3, a4, a5, af, ab, a6, a7⟩ := path_error_le hA hu h1 (n := n) (by omega)
    (by nlinarith)
  obtain ⟨x', f', b', b1, b2, b3, b4, b5, bf, bb, b6, b7⟩ := path_error_le hA hu h2 (n := n) (by omega)
    (by nlinarith)
  obtain ⟨r, c1, c2⟩ := add_error hA hu hP k1 k2 hl a4 b5 af bb a6 b7
  refine ⟨x + x', r, ?_, ?_, c2⟩
  · rw [pathCost_append', a1, b1]; rfl
  · rw [middle_forward, a2, b3, c1]

/-- Minima of two costs that are close to each other are close. -/
theorem min_close {α β : Type} {P : α → Prop} {Q : β → Prop} {f : α → Cost} {g : β → Cost}
    {c c' : Cost} (hc : IsMinimum P f c) (hc' : IsMinimum Q g c') {ε : ℚ}
    (h1 : ∀ a, P a → f a < ⊤ → ∃ b, Q b ∧ ∃ x y : ℚ, f a = x ∧ g b = y ∧ |y - x| ≤ ε)
    (h2 : ∀ b, Q b → g b < ⊤ → ∃ a, P a ∧ ∃ x y : ℚ, f a = x ∧ g b = y ∧ |y - x| ≤ ε) :
    (c = ⊤ ∧ c' = ⊤) ∨ ∃ x y : ℚ, c = x ∧ c' = y ∧ |y - x| ≤ ε := by
  rcases hc.attained with rfl | ⟨a, ha, rfl⟩
  · left
    refine ⟨rfl, ?_⟩
    rcases hc'.attained with rfl | ⟨b, hb, rfl⟩
    · rfl
    · by_contra hn
      obtain ⟨a, ha, x, y, e1, -⟩ := h2 b hb (lt_top_iff_ne_top.2 hn)
      have := hc.le a ha
      rw [e1] at this
      exact absurd this (by simp)
  · by_cases ht : f a = ⊤
    · left
      refine ⟨ht, ?_⟩
      rcases hc'.attained with rfl | ⟨b, hb, rfl⟩
      · rfl
      · by_contra hn
        obtain ⟨a', ha', x, y, e1, -⟩ := h2 b hb (lt_top_iff_ne_top.2 hn)
        have := hc.le a' ha'
        rw [e1, ht] at this
        exact absurd this (by simp)
    · right
      obtain ⟨b, hb, x, y, e1, e2, e3⟩ := h1 a ha (lt_top_iff_ne_top.2 ht)
      have l1 := hc'.le b hb
      rw [e2] at l1
      have hfin : c' < ⊤ := lt_of_le_of_lt l1 (WithTop.coe_lt_top y)
      rcases hc'.attained with rfl | ⟨b', hb', rfl⟩
      · exact absurd hfin (lt_irrefl _)
      · obtain ⟨a', ha', x', y', e1', e2', e3'⟩ := h2 b' hb' hfin
        have l2 := hc.le a' ha'
        rw [e1', e1] at l2
        rw [e2'] at l1
        have l1' : y' ≤ y := WithTop.coe_le_coe.1 l1
        have l2' : x ≤ x' := WithTop.coe_le_coe.1 l2
        refine ⟨x, y', e1, e2', ?_⟩
        rw [abs_le] at *
        constructor <;> linarith [e3.1, e3.2, e3'.1, e3'.2]

theorem size_of_pathCost {pen : Penalties} {p : List PackedEdge} (hp : Members F pen p)
    (h : pathCost pen p < ⊤) :
    ∃ t, TotalSize F pen p t := by
  have h' : machineSum exact (summands pen p) < ⊤ := by
    rw [pathCost_summands, List.sum_eq_foldl] at h
    exact h
  obtain ⟨l, hl⟩ := machineSum_finite h'
  exact ⟨_, l, hl, members_of_coes hp hl, rfl⟩

theorem size_of_forward {pen : Penalties} {p : List PackedEdge} (hp : Members F pen p)
   
    (h : forwardCost A pen p < ⊤) : ∃ t, TotalSize F pen p t := by
  rw [forward_summands] at h
  obtain ⟨l, hl⟩ := machineSum_finite h
  exact ⟨_, l, hl, members_of_coes hp hl, rfl⟩

theorem size_of_middle {pen : Penalties} {p q : List PackedEdge} {e : PackedEdge}
    (hp : Members F pen (p ++ e :: q)) (h : middleCost A pen p e q < ⊤) : ∃ t, TotalSize F pen (p ++ e :: q) t := by
  rw [middle_forward] at h
  have h1 : forwardCost A pen (p ++ [e]) < ⊤ := by
    rw [lt_top_iff_ne_top] at h ⊢
    intro hc; rw [hc, A.top_left] at h; exact h rfl
  have h2 : backwardCost A pen q < ⊤ := by
    rw [lt_top_iff_ne_top] at h ⊢
    intro hc; rw [hc, A.top_right] at h; exact h rfl
  obtain ⟨-, l1, g1, -⟩ := size_of_forward (F := fun _ => True) (fun _ _ _ _ => trivial) h1
  obtain ⟨-, l2, g2, -⟩ := size_of_backward (F := fun _ => True) (fun _ _ _ _ => trivial) h2
  have hl : summands pen (p ++ e :: q) = coes (l1 ++ l2) := by
    unfold coes
    rw [show p ++ e :: q = (p ++ [e]) ++ q by simp, summands_append, g1, g2, List.map_append]
  exact ⟨_, l1 ++ l2, hl, members_of_coes hp hl, rfl⟩

/-- An infinite summand makes the machine cost infinite. -/
theorem backward_top (A : Machine) (pen : Penalties) (p : List PackedEdge) (e : PackedEdge)
    (he : e ∈ p) (h : e.penalty pen = ⊤) : backwardCost A pen p = ⊤ := by
  by_contra hc
  obtain ⟨t, l, hl, -⟩ := size_of_backward (A := A) (F := fun _ => True) (fun _ _ _ _ => trivial)
    (lt_top_iff_ne_top.2 hc)
  have : (⊤ : Cost) ∈ summands pen p := List.mem_flatMap.2 ⟨e, he, by simp [h]⟩
  rw [hl] at this
  obtain ⟨x, -, hx⟩ := List.mem_map.1 this
  exact absurd hx (WithTop.coe_ne_top)

theorem constraint_cost (A : Machine) {d : PackedDag} (wf : PackedWF d) (cs : List (Nat × Nat))
    (hnd : (cs.map Prod.fst).Nodup) (hk : ∀ kv ∈ cs, kv.1 < d.numKeys) (p : List PackedEdge)
    (hp : Complete d p) :
    ((∀ kv ∈ cs, kv ∈ assignments p) → backwardCost A (constraintPen cs) p
      = backwardCost A (fun _ _ => 0) p)
    ∧ (¬ (∀ kv ∈ cs, kv ∈ assignments p) → backwardCost A (constraintPen cs) p = ⊤) := by
  have hkeys := complete_keys wf hp
  have hnodup : ((assignments p).map Prod.fst).Nodup := by rw [hkeys]; exact List.nodup_range
  have huniq : ∀ k x y, (k, x) ∈ assignments p → (k, y) ∈ assignments p → x = y := by
    intro k x y h1 h2
    have := pairwise_fst_inj hnodup h1 h2
    simpa using this
  constructor
  · intro hob
    have hpen : ∀ e ∈ p, e.penalty (constraintPen cs) = e.penalty (fun _ _ => 0) := by
      intro e he
      unfold PackedEdge.penalty
      cases hreq : e.req with
      | none => rfl
      | some kv =>
        obtain ⟨k, x⟩ := kv
        have hmem : (k, x) ∈ assignments p := List.mem_filterMap.2 ⟨e, he, hreq⟩
        obtain ⟨c1, c2⟩ := constraintPen_spec cs hnd k x
        simp only
        by_cases hc : k ∈ cs.map Prod.fst
        · obtain ⟨⟨k', y⟩, hy, rfl⟩ := List.mem_map.1 hc
          rw [c2 y hy, if_pos (huniq _ _ _ hmem (hob _ hy))]
        · exact c1 hc
    rw [backward_summands, backward_summands]
    congr 1
    unfold summands
    apply List.flatMap_congr
    intro e he
    rw [hpen e (List.mem_reverse.1 he)]
  · intro hob
    push Not at hob
    obtain ⟨⟨k, y⟩, hy, hny⟩ := hob
    have : k ∈ (assignments p).map Prod.fst := by
      rw [hkeys]; simpa using hk _ hy
    obtain ⟨⟨k', x⟩, hx, rfl⟩ := List.mem_map.1 this
    obtain ⟨e, he, hreq⟩ := List.mem_filterMap.1 hx
    refine backward_top A _ p e he ?_
    have hne : x ≠ y := by rintro rfl; exact hny hx
    simp [PackedEdge.penalty, hreq, (constraintPen_spec cs hnd k' x).2 y hy, hne]

theorem constraint_memo (A : Machine) {d : PackedDag} (wf : PackedWF d) (invalid : Cost) (cs : List (Nat × Nat))
    (hk : ∀ kv ∈ cs, kv.1 < d.numKeys) :
    let m := cs.foldl (fun (m : Memo) kv => m.setPenalties kv.1 (setEntry (fun _ => ⊤) kv.2 0))
      (emptyUnpenalizedTable invalid d)
    MemoInv A d m ∧ m.pen = constraintPen cs := by
  unfold constraintPen
  suffices H : ∀ (cs : List (Nat × Nat)) (m : Memo), (∀ kv ∈ cs, kv.1 < d.numKeys) → MemoInv A d m →
      let m' := cs.foldl (fun (m : Memo) kv => m.setPenalties kv.1 (setEntry (fun _ => ⊤) kv.2 0)) m
      MemoInv A d m' ∧ m'.pen = cs.foldl
        (fun pen kv => fun k => if k = kv.1 then setEntry (fun _ => ⊤) kv.2 0 else pen k) m.pen from
    H cs _ hk (emptyTable_inv A wf invalid _)
  intro cs
  induction cs with
  | nil => intro m _ hm; exact ⟨hm, rfl⟩
  | cons kv cs ih =>
    intro m hk hm
    have := ih (m.setPenalties kv.1 (setEntry (fun _ => ⊤) kv.2 0))
      (fun x hx => hk x (by simp [hx]))
      (setPenalties_inv A wf hm (hk kv (by simp)) _)
    exact this

end RUSure.Lemmas.Rnd
