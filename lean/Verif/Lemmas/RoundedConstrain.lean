import Verif.Spec.RoundedConstrain
import Verif.Lemmas.RoundedDrop
import Verif.Props.RoundedDual

/-! # Adding extra costs in machine arithmetic -/

namespace RUSure.Lemmas.Rnd
open RUSure RUSure.Spec RUSure.Lemmas RUSure.Rounded

variable {A : Arith} {F : ℚ → Prop} {u τ η limit : ℚ} {n N : Nat} {M X : ℚ}

/-- What adding extra costs does to a subproblem. -/
structure Charged (A : Arith) (N V v : Nat) (p : Nat → Cost) (r : Nat) (s s' : Sub) : Prop where
  ok : RSubOK A.toMachine N V s'
  dag : s'.memo.dag = s.memo.dag
  index : s'.index = s.index
  weight : s'.weight = s.weight
  other : ∀ w, w ≠ v → ∀ x, s'.view.charge w x = s.view.charge w x
  same : ∀ x, s'.view.charge v x
    = if (s.index v).isSome then A.add (s.view.charge v x) (divide A (p x) r) else 0
  bare : ∀ k x, s'.memo.pen k x = s.memo.pen k x ∨ s.index v = some k

theorem addUnary_subs {S : System} (hok : ∀ s ∈ S.subs, RSubOK A.toMachine S.numKeys S.numValues s)
    (v : Nat) (p : Nat → Cost) :
    List.Forall₂ (Charged A S.numKeys S.numValues v p (S.numRelevant v)) S.subs
      (Rounded.addUnary A S v p).subs := by
  unfold Rounded.addUnary
  rw [List.forall₂_map_right_iff]
  apply List.forall₂_same.2
  intro s hs
  have hs' := hok s hs
  cases hk : s.index v with
  | none =>
    refine ⟨hs', rfl, rfl, rfl, fun _ _ _ => rfl, ?_, fun _ _ => .inl rfl⟩
    intro x
    have hk' : s.view.index v = none := hk
    simp [View.charge, hk', hk]
  | some k =>
    have hk' : s.view.index v = some k := hk
    obtain ⟨g1, g2⟩ := rsub_set hs' hk
      (fun x => A.add (s.memo.pen k x) (divide A (p x) (S.numRelevant v)))
    refine ⟨g1, rfl, rfl, rfl, ?_, ?_, ?_⟩
    · intro w hwv x
      rw [g2, update_charge_other v _ hs'.view hwv]
    · intro x
      rw [g2, View.charge, update_index, hk']
      dsimp only
      rw [update_pen_same v _ hk', hk, View.charge, hk']
      rfl
    · intro k' x
      by_cases hkk : k' = k
      · exact .inr (by rw [hk, hkk])
      · left
        simp only [setPenalties_pen, setPen]
        rw [if_neg hkk]

/-- A system made from a new one by adding the extra costs `p` to the variables `us`. -/
structure UStart (A : Arith) (S0 : System) (p : Nat → Nat → Cost) (us : List Nat) (S : System) :
    Prop where
  keys : S.numKeys = S0.numKeys
  values : S.numValues = S0.numValues
  subs : List.Forall₂ (fun s s' : Sub => s'.memo.dag = s.memo.dag ∧ s'.index = s.index
    ∧ s'.weight = s.weight ∧ RSubOK A.toMachine S0.numKeys S0.numValues s') S0.subs S.subs
  rest : ∀ w, w ∉ us → (∀ x, S.extra w x = 0) ∧ ∀ s ∈ S.subs, ∀ x, s.view.charge w x = 0
  extra : ∀ w ∈ us, ∀ x, S.extra w x = A.add 0 (p w x)
  charge : ∀ w ∈ us, ∀ s ∈ S.subs, ∀ x, s.view.charge w x
    = if (s.index w).isSome then A.add 0 (divide A (p w x) (S0.numRelevant w)) else 0
  bare : ∀ s ∈ S.subs, ∀ k x, s.memo.pen k x = 0 ∨ ∃ w ∈ us, s.index w = some k

theorem UStart.ok {S0 S : System} {p : Nat → Nat → Cost} {us : List Nat} (h : UStart A S0 p us S) :
    ∀ s ∈ S.subs, RSubOK A.toMachine S.numKeys S.numValues s := by
  intro s hs
  obtain ⟨s0, -, -, -, -, g⟩ := forall₂_mem_right h.subs s hs
  rw [h.keys, h.values]
  exact g

theorem UStart.relevant {S0 S : System} {p : Nat → Nat → Cost} {us : List Nat} (h : UStart A S0 p us S)
    (v : Nat) : S.numRelevant v = S0.numRelevant v := by
  unfold System.numRelevant
  have := h.subs
  generalize S0.subs = l0 at this
  generalize S.subs = l at this
  induction this with
  | nil => rfl
  | cons g _ ih =>
    rw [List.filter_cons, List.filter_cons, g.2.1]
    split
    · rw [List.length_cons, List.length_cons, ih]
    · exact ih

theorem UStart.add {S0 S : System} {p : Nat → Nat → Cost} {us : List Nat} (h : UStart A S0 p us S)
    {v : Nat} (hv : v ∉ us) (q : Nat → Cost) :
    UStart A S0 (fun w => if w = v then q else p w) (us ++ [v]) (Rounded.addUnary A S v q) := by
  have hsub := addUnary_subs h.ok v q
  rw [h.keys, h.values, h.relevant] at hsub
  refine ⟨h.keys, h.values, ?_, ?_, ?_, ?_, ?_⟩
  · refine forall₂_trans ?_ h.subs hsub
    intro a b c g g'
    exact ⟨g'.dag.trans g.1, g'.index.trans g.2.1, g'.weight.trans g.2.2.1, g'.ok⟩
  · intro w hw
    have hw1 : w ∉ us := fun hc => hw (List.mem_append_left _ hc)
    have hw2 : w ≠ v := fun hc => hw (by simp [hc])
    refine ⟨?_, ?_⟩
    · intro x
      change (if w = v then _ else S.extra w x) = 0
      rw [if_neg hw2]
      exact (h.rest w hw1).1 x
    · intro s hs x
      obtain ⟨s0, hs0, g⟩ := forall₂_mem_right hsub s hs
      rw [g.other w hw2]
      exact (h.rest w hw1).2 s0 hs0 x
  · intro w hw x
    change (if w = v then A.add (S.extra w x) (q x) else S.extra w x) = _
    rcases List.mem_append.1 hw with hw | hw
    · have hwv : w ≠ v := fun hc => hv (hc ▸ hw)
      rw [if_neg hwv, if_neg hwv]
      exact h.extra w hw x
    · have hwv := List.mem_singleton.1 hw
      rw [if_pos hwv, if_pos hwv, hwv, (h.rest v hv).1]
  · intro w hw s hs x
    obtain ⟨s0, hs0, g⟩ := forall₂_mem_right hsub s hs
    rcases List.mem_append.1 hw with hw | hw
    · have hwv : w ≠ v := fun hc => hv (hc ▸ hw)
      rw [g.other w hwv, if_neg hwv, g.index]
      exact h.charge w hw s0 hs0 x
    · have hwv := List.mem_singleton.1 hw
      subst hwv
      rw [g.same, if_pos rfl, g.index, (h.rest w hv).2 s0 hs0]
  · intro s hs k x
    obtain ⟨s0, hs0, g⟩ := forall₂_mem_right hsub s hs
    rcases g.bare k x with e | e
    · rcases h.bare s0 hs0 k x with e' | ⟨w, hw, e'⟩
      · exact .inl (e.trans e')
      · exact .inr ⟨w, List.mem_append_left _ hw, by rw [g.index]; exact e'⟩
    · exact .inr ⟨v, by simp, by rw [g.index]; exact e⟩

theorem cost_zero : (0 : Cost) = ((0 : ℚ) : Cost) := rfl


theorem sum_where {l : List Sub} (w : Nat) (f : Sub → Cost) (d : ℚ)
    (h : ∀ s ∈ l, f s = if (s.index w).isSome then ((d : ℚ) : Cost) else 0) :
    (l.map f).sum = (((l.filter fun s => (s.index w).isSome).length * d : ℚ) : Cost) := by
  induction l with
  | nil => simp
  | cons s l ih =>
    rw [List.map_cons, List.sum_cons, ih (fun s' hs => h s' (List.mem_cons_of_mem _ hs)),
      h s (by simp), List.filter_cons]
    split
    · rw [List.length_cons, ← WithTop.coe_add]
      congr 1
      push_cast
      ring
    · rw [zero_add]

theorem imbalance_room (hu : 0 ≤ u) (hη : 0 ≤ η) (hτ : 0 ≤ τ) (hM : 0 ≤ M) (hX : 0 ≤ X) {r : Nat}
    (hr : r ≤ N) : u * X + r * τ ≤ imbalance u η τ N n M X := by
  have p1 := one_le_pow_u hu (2 * n + 1)
  have p2 := one_le_pow_u hu (N + 3)
  have h1 : 1 + u ≤ (1 + η) * (1 + u) ^ (N + 4) := by
    rw [pow_succ]
    have h0 : 1 + u ≤ (1 + u) ^ (N + 3) * (1 + u) := le_mul_of_one_le_left (by linarith) p2
    exact h0.trans (le_mul_of_one_le_left (by linarith) (by linarith))
  have h2 : X ≤ (1 + u) ^ (2 * n + 1) * (N * M) + X := by
    have := mul_nonneg (zero_le_one.trans p1) (mul_nonneg (Nat.cast_nonneg (α := ℚ) N) hM)
    linarith
  have h3 : u * X ≤ ((1 + η) * (1 + u) ^ (N + 4) - 1) * ((1 + u) ^ (2 * n + 1) * (N * M) + X) :=
    mul_le_mul (by linarith) h2 hX (by linarith)
  have h4 : (r : ℚ) * τ ≤ N * (τ * (1 + u)) := by
    refine mul_le_mul (by exact_mod_cast hr) ?_ hτ (Nat.cast_nonneg _)
    nlinarith
  unfold imbalance
  linarith

theorem range_room (hu : 0 ≤ u) (hη : 0 ≤ η) (hM : 0 ≤ M) (hX : 0 ≤ X) :
    (1 + u) * X + τ ≤ rangeNeeded u η τ N n M X := by
  unfold rangeNeeded
  have p1 := one_le_pow_u hu (2 * n + N + 3)
  have h0 : 0 ≤ (N : ℚ) * M := mul_nonneg (Nat.cast_nonneg _) hM
  have h1 : 1 + u ≤ 2 * (1 + η) * (1 + u) ^ (2 * n + N + 4) := by
    rw [pow_succ]
    have : 1 ≤ 2 * (1 + η) * (1 + u) ^ (2 * n + N + 3) := by nlinarith
    calc 1 + u = 1 * (1 + u) := by ring
      _ ≤ 2 * (1 + η) * (1 + u) ^ (2 * n + N + 3) * (1 + u) :=
        mul_le_mul_of_nonneg_right this (by linarith)
      _ = _ := by ring
  have h2 : (1 + u) * X ≤ 2 * (1 + η) * (1 + u) ^ (2 * n + N + 4) * (N * M + X) :=
    mul_le_mul h1 (by linarith) hX (by linarith)
  linarith

/-- Every value is in balance, or its extra cost is infinite. -/
theorem UStart.balance (hS : AccurateShares A F u τ limit) (hu : 0 ≤ u) (hη : 0 ≤ η) (hτ : 0 ≤ τ)
    (hM : 0 ≤ M) (hX : 0 ≤ X) {S0 S : System} {p : Nat → Nat → Cost} {us : List Nat}
    (h : UStart A S0 p us S) (hl : rangeNeeded u η τ S0.subs.length n M X ≤ limit)
    (hp : ∀ w ∈ us, ∀ x, ∀ q : ℚ, p w x = q → F q ∧ |q| ≤ X) {w : Nat}
    (hr : 0 < S0.numRelevant w) (x : Nat) :
    S.extra w x = ⊤ ∨ Bal S (fun _ => x) w (imbalance u η τ S0.subs.length n M X) := by
  have hlen : S0.numRelevant w ≤ S0.subs.length := List.length_filter_le _ _
  have hi := imbalance_room (n := n) hu hη hτ hM hX hlen
  by_cases hw : w ∈ us
  · cases hq : p w x using WithTop.recTopCoe with
    | top =>
      left
      rw [h.extra w hw, hq]
      exact A.top_right _
    | coe q =>
      right
      obtain ⟨q1, q2⟩ := hp w hw x q hq
      have hrm := range_room (n := n) (N := S0.subs.length) (τ := τ) hu hη hM hX
      have hql : |q| ≤ limit := by nlinarith
      obtain ⟨d1, d2⟩ := hS.div q (S0.numRelevant w) q1 hql hr
      have hrq : (1 : ℚ) ≤ S0.numRelevant w := by exact_mod_cast hr
      have hdiv : |q / (S0.numRelevant w : ℚ)| = |q| / S0.numRelevant w := by
        rw [abs_div, Nat.abs_cast]
      rw [hdiv] at d2
      have hle : |q| / (S0.numRelevant w : ℚ) ≤ |q| := div_le_self (abs_nonneg _) hrq
      have hd : |A.div q (S0.numRelevant w)| ≤ limit := by
        have e : A.div q (S0.numRelevant w)
            = (A.div q (S0.numRelevant w) - q / S0.numRelevant w) + q / S0.numRelevant w := by ring
        rw [e]
        refine (abs_add_le _ _).trans ?_
        rw [hdiv]
        nlinarith
      refine ⟨S0.numRelevant w * A.div q (S0.numRelevant w), q, ?_, ?_, ?_⟩
      · rw [← h.relevant w]
        apply sum_where
        intro s hs
        rw [h.charge w hw s hs, hq, h.relevant w]
        split
        · exact hS.zero_add _ d1 hd
        · rfl
      · rw [h.extra w hw, hq]
        exact hS.zero_add q q1 hql
      · have e : (S0.numRelevant w : ℚ) * A.div q (S0.numRelevant w) - q
            = S0.numRelevant w * (A.div q (S0.numRelevant w) - q / S0.numRelevant w) := by
          rw [mul_sub, mul_div_cancel₀ _ (by linarith)]
        rw [e, abs_mul, Nat.abs_cast]
        have h1 := mul_le_mul_of_nonneg_left d2 (zero_le_one.trans hrq)
        have e2 : (S0.numRelevant w : ℚ) * (u * (|q| / S0.numRelevant w) + τ)
            = u * |q| + S0.numRelevant w * τ := by
          field_simp
        rw [e2] at h1
        have h2 := mul_le_mul_of_nonneg_left q2 hu
        linarith
  · right
    obtain ⟨h1, h2⟩ := h.rest w hw
    refine ⟨0, 0, ?_, h1 x, ?_⟩
    · apply List.sum_eq_zero
      intro c hc
      obtain ⟨s, hs, rfl⟩ := List.mem_map.1 hc
      exact h2 s hs x
    · rw [sub_self, abs_zero]
      exact (add_nonneg (mul_nonneg hu hX) (mul_nonneg (Nat.cast_nonneg _) hτ)).trans hi

theorem unary_cost {S : System} {v : Nat} (hv : v < S.numKeys) {p : Nat → Cost}
    (hx : ∀ x, S.extra v x = 0) (hp : ∀ x, A.add 0 (p x) = p x) (a : Nat → Nat)
    (paths : List (List PackedEdge)) :
    jointCost (Rounded.addUnary A S v p) a paths = jointCost S a paths + p (a v) := by
  rw [← addUnary_cost hv p a paths]
  unfold jointCost
  congr 3
  funext w
  change (if w = v then A.add (S.extra w (a w)) (p (a w)) else S.extra w (a w))
    = if w = v then S.extra w (a w) + p (a w) else S.extra w (a w)
  split
  · rename_i h
    rw [h, hx, hp, zero_add]
  · rfl

section
variable {K V : Type} [DecidableEq K] [DecidableEq V]

theorem constrain_start {S0 : System} {penalty : Cost} :
    ∀ (cs : List (K × V)) (D D' : DualSystem K V) (p : Nat → Nat → Cost) (us : List Nat),
    UStart A S0 p us D.data → (cs.map Prod.fst).Nodup →
    (∀ c ∈ cs, ∀ v, dictIndex D.keys c.1 = some v → v ∉ us) →
    Rounded.constrain A penalty cs D = some D' →
    (∀ w ∈ us, ∀ x, p w x = 0 ∨ p w x = penalty) →
    ∃ p' us', UStart A S0 p' us' D'.data ∧ D'.keys = D.keys ∧ D'.values = D.values
      ∧ ∀ w ∈ us', ∀ x, p' w x = 0 ∨ p' w x = penalty := by
  intro cs
  induction cs with
  | nil =>
    intro D D' p us h _ _ he hp
    simp only [Rounded.constrain, Option.some.injEq] at he
    subst he
    exact ⟨p, us, h, rfl, rfl, hp⟩
  | cons c cs ih =>
    intro D D' p us h hn hu he hp
    unfold Rounded.constrain at he
    rw [List.map_cons, List.nodup_cons] at hn
    split at he
    · rename_i v i hv hi
      have hvu := hu c (by simp) v hv
      refine ih { D with data := Rounded.addUnary A D.data v (setEntry (fun _ => penalty) i 0) } D' _ _
        (h.add hvu _) hn.2 ?_ he ?_
      · intro c' hc' v' hv' hmem
        rcases List.mem_append.1 hmem with hm | hm
        · exact hu c' (List.mem_cons_of_mem _ hc') v' hv' hm
        · have hvv := List.mem_singleton.1 hm
          subst hvv
          have e1 := dictIndex_get hv
          have e2 := dictIndex_get hv'
          rw [e1, Option.some.injEq] at e2
          exact hn.1 (List.mem_map.2 ⟨c', hc', e2.symm⟩)
      · intro w hw x
        by_cases hwv : w = v
        · simp only [hwv, if_true, setEntry]
          split
          · exact Or.inl rfl
          · exact Or.inr rfl
        · simp only [hwv, if_false]
          rcases List.mem_append.1 hw with hw | hw
          · exact hp w hw x
          · exact absurd (List.mem_singleton.1 hw) hwv
    · cases he

theorem noise_start {S0 : System} {noise : Nat → Nat → ℚ} :
    ∀ (vs : List Nat) (S : System) (us : List Nat),
    UStart A S0 (fun v x => (noise v x : Cost)) us S → (us ++ vs).Nodup →
    UStart A S0 (fun v x => (noise v x : Cost)) (us ++ vs)
      (vs.foldl (fun S v => Rounded.addUnary A S v (fun x => (noise v x : Cost))) S) := by
  intro vs
  induction vs with
  | nil => intro S us h _; simpa using h
  | cons v vs ih =>
    intro S us h hn
    have hv : v ∉ us := by
      intro hc
      exact (List.nodup_append.1 hn).2.2 v hc v (by simp) rfl
    have h' := h.add hv (fun x => (noise v x : Cost))
    have e : (fun w => if w = v then (fun x => ((noise v x : ℚ) : Cost)) else fun x => ((noise w x : ℚ) : Cost))
        = fun w x => ((noise w x : ℚ) : Cost) := by
      funext w
      split
      · rename_i hw; rw [hw]
      · rfl
    rw [e] at h'
    rw [List.foldl_cons]
    have := ih _ (us ++ [v]) h' (by simpa using hn)
    simpa using this

end

end RUSure.Lemmas.Rnd
