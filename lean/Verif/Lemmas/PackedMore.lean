import Verif.Lemmas.PackedPaths

/-! # Constraints and scaling -/

namespace RUSure.Lemmas
open RUSure RUSure.Spec

/-! ## Constraints -/

/-- The penalties set up by `constrained_best_path`. -/
def constraintPen (cs : List (Nat × Nat)) : Penalties :=
  cs.foldl (fun pen kv => fun k => if k = kv.1 then setEntry (fun _ => ⊤) kv.2 0 else pen k)
    (fun _ _ => 0)

theorem constraintPen_spec (cs : List (Nat × Nat)) (hnd : (cs.map Prod.fst).Nodup) (k x : Nat) :
    (k ∉ cs.map Prod.fst → constraintPen cs k x = 0)
    ∧ (∀ y, (k, y) ∈ cs → constraintPen cs k x = if x = y then 0 else ⊤) := by
  unfold constraintPen
  suffices H : ∀ (cs : List (Nat × Nat)) (pen : Penalties), (cs.map Prod.fst).Nodup →
      let r := cs.foldl
        (fun (pen : Penalties) (kv : Nat × Nat) => fun k =>
          if k = kv.1 then setEntry (fun _ => ⊤) kv.2 0 else pen k) pen
      (k ∉ cs.map Prod.fst → r k x = pen k x)
      ∧ (∀ y, (k, y) ∈ cs → r k x = if x = y then 0 else ⊤) from H cs _ hnd
  intro cs
  induction cs with
  | nil => simp
  | cons kv cs ih =>
    intro pen hnd
    rw [List.map_cons, List.nodup_cons] at hnd
    obtain ⟨h1, h2⟩ := ih (fun k => if k = kv.1 then setEntry (fun _ => ⊤) kv.2 0 else pen k) hnd.2
    simp only [List.foldl_cons]
    constructor
    · intro hk
      rw [List.map_cons, List.mem_cons, not_or] at hk
      rw [h1 hk.2]
      simp [hk.1]
    · intro y hy
      rcases List.mem_cons.1 hy with h | h
      · subst h
        rw [h1 hnd.1]
        simp [setEntry]
      · exact h2 y h

theorem weight_ne_top {ε : Type} (w : ε → Cost) (p : List ε) (e : ε) (he : e ∈ p) (h : w e = ⊤) :
    weight w p = ⊤ := by
  obtain ⟨p1, p2, rfl⟩ := List.append_of_mem he
  rw [weight_append, weight_cons, h]
  simp

theorem pairwise_fst_inj {l : List (Nat × Nat)} (h : (l.map Prod.fst).Nodup) {k x y : Nat}
    (h1 : (k, x) ∈ l) (h2 : (k, y) ∈ l) : x = y := by
  induction l with
  | nil => simp at h1
  | cons a l ih =>
    rw [List.map_cons, List.nodup_cons] at h
    rcases List.mem_cons.1 h1 with e1 | e1 <;> rcases List.mem_cons.1 h2 with e2 | e2
    · rw [← e1] at e2; simpa using e2.symm
    · exact absurd (List.mem_map.2 ⟨_, e2, by rw [← e1]⟩) h.1
    · exact absurd (List.mem_map.2 ⟨_, e1, by rw [← e2]⟩) h.1
    · exact ih h.2 e1 e2

theorem constraint_cost {d : PackedDag} (wf : PackedWF d) (cs : List (Nat × Nat))
    (hnd : (cs.map Prod.fst).Nodup) (hk : ∀ kv ∈ cs, kv.1 < d.numKeys) (p : List PackedEdge)
    (hp : Complete d p) :
    ((∀ kv ∈ cs, kv ∈ assignments p) → pathCost (constraintPen cs) p
      = pathCost (fun _ _ => 0) p)
    ∧ (¬ (∀ kv ∈ cs, kv ∈ assignments p) → pathCost (constraintPen cs) p = ⊤) := by
  have hkeys := complete_keys wf hp
  have hnodup : ((assignments p).map Prod.fst).Nodup := by rw [hkeys]; exact List.nodup_range
  have huniq : ∀ k x y, (k, x) ∈ assignments p → (k, y) ∈ assignments p → x = y := by
    intro k x y h1 h2
    have := pairwise_fst_inj hnodup h1 h2
    simpa using this
  constructor
  · intro hob
    unfold pathCost weight
    congr 1
    apply List.map_congr_left
    intro e he
    unfold PackedEdge.penalty
    cases hreq : e.req with
    | none => rfl
    | some kv =>
      obtain ⟨k, x⟩ := kv
      have hmem : (k, x) ∈ assignments p := List.mem_filterMap.2 ⟨e, he, hreq⟩
      obtain ⟨c1, c2⟩ := constraintPen_spec cs hnd k x
      simp only
      congr 1
      by_cases hc : k ∈ cs.map Prod.fst
      · obtain ⟨⟨k', y⟩, hy, rfl⟩ := List.mem_map.1 hc
        rw [c2 y hy, if_pos (huniq _ _ _ hmem (hob _ hy))]
      · exact c1 hc
  · intro hob
    push Not at hob
    obtain ⟨⟨k, y⟩, hy, hny⟩ := hob
    have : k ∈ (assignments p).map Prod.fst := by
      rw [hkeys]; simpa using hk _ hy
    obtain ⟨⟨k', x⟩, hx, rfl⟩ := List.mem_map.1 this
    obtain ⟨e, he, hreq⟩ := List.mem_filterMap.1 hx
    refine weight_ne_top _ p e he ?_
    have hne : x ≠ y := by rintro rfl; exact hny hx
    rw [show e.penalty (constraintPen cs) = ⊤ by
      simp [PackedEdge.penalty, hreq, (constraintPen_spec cs hnd k' x).2 y hy, hne]]
    simp

theorem constraint_memo {d : PackedDag} (wf : PackedWF d) (invalid : Cost) (cs : List (Nat × Nat))
    (hk : ∀ kv ∈ cs, kv.1 < d.numKeys) :
    let m := cs.foldl (fun (m : Memo) kv => m.setPenalties kv.1 (setEntry (fun _ => ⊤) kv.2 0))
      (emptyUnpenalizedTable invalid d)
    MemoInv d m ∧ m.pen = constraintPen cs := by
  unfold constraintPen
  suffices H : ∀ (cs : List (Nat × Nat)) (m : Memo), (∀ kv ∈ cs, kv.1 < d.numKeys) → MemoInv d m →
      let m' := cs.foldl (fun (m : Memo) kv => m.setPenalties kv.1 (setEntry (fun _ => ⊤) kv.2 0)) m
      MemoInv d m' ∧ m'.pen = cs.foldl
        (fun pen kv => fun k => if k = kv.1 then setEntry (fun _ => ⊤) kv.2 0 else pen k) m.pen from
    H cs _ hk (emptyTable_inv wf invalid _)
  intro cs
  induction cs with
  | nil => intro m _ hm; exact ⟨hm, rfl⟩
  | cons kv cs ih =>
    intro m hk hm
    have := ih (m.setPenalties kv.1 (setEntry (fun _ => ⊤) kv.2 0))
      (fun x hx => hk x (by simp [hx]))
      (setPenalties_inv wf hm (hk kv (by simp)) _)
    exact this

/-! ## Scaling -/

/-- Multiplication of a cost by a positive number. -/
def scaleCost (c : ℚ) (x : Cost) : Cost := x.map (· * c)

theorem scaleCost_add (c : ℚ) (x y : Cost) : scaleCost c (x + y) = scaleCost c x + scaleCost c y := by
  unfold scaleCost
  induction x using WithTop.recTopCoe <;> induction y using WithTop.recTopCoe
  · rfl
  · rfl
  · rfl
  · rename_i a b
    rw [← WithTop.coe_add, WithTop.map_coe, WithTop.map_coe, WithTop.map_coe, ← WithTop.coe_add,
      add_mul]

theorem scaleCost_zero (c : ℚ) : scaleCost c 0 = 0 := by
  unfold scaleCost
  rw [show (0 : Cost) = ((0 : ℚ) : Cost) from rfl, WithTop.map_coe, zero_mul]

theorem scaleCost_le (c : ℚ) (hc : 0 < c) (x y : Cost) : scaleCost c x ≤ scaleCost c y ↔ x ≤ y := by
  unfold scaleCost
  induction x using WithTop.recTopCoe <;> induction y using WithTop.recTopCoe
  · simp
  · simp
  · simp
  · rename_i a b
    rw [WithTop.map_coe, WithTop.map_coe, WithTop.coe_le_coe, WithTop.coe_le_coe,
      mul_le_mul_iff_left₀ hc]

def scaleEdge (c : ℚ) (e : PackedEdge) : PackedEdge := { e with cost := scaleCost c e.cost }

theorem scaleEdge_inj (c : ℚ) (hc : 0 < c) {e e' : PackedEdge} (h : scaleEdge c e = scaleEdge c e') :
    e = e' := by
  cases e; cases e'
  simp only [scaleEdge, PackedEdge.mk.injEq] at h ⊢
  obtain ⟨h1, h2, h3, h4⟩ := h
  refine ⟨h1, h2, ?_, h4⟩
  apply le_antisymm
  · rw [← scaleCost_le c hc, h3]
  · rw [← scaleCost_le c hc, h3]

theorem walk_map {ε ε' : Type} {src dst : ε → Nat} {src' dst' : ε' → Nat} (f : ε → ε')
    (hs : ∀ e, src' (f e) = src e) (hd : ∀ e, dst' (f e) = dst e) {E : List ε} {a b : Nat}
    {p : List ε} (h : Walk src dst E a b p) : Walk src' dst' (E.map f) a b (p.map f) := by
  induction h with
  | nil a => exact .nil a
  | @cons e b p he hw ih =>
    rw [List.map_cons, Walk.cons_iff, hs, hd]
    exact ⟨List.mem_map.2 ⟨e, he, rfl⟩, rfl, ih⟩

theorem walk_unmap {ε ε' : Type} {src dst : ε → Nat} {src' dst' : ε' → Nat} (f : ε → ε')
    (hs : ∀ e, src' (f e) = src e) (hd : ∀ e, dst' (f e) = dst e) {E : List ε} {a b : Nat}
    {q : List ε'} (h : Walk src' dst' (E.map f) a b q) :
    ∃ p, q = p.map f ∧ Walk src dst E a b p := by
  induction h with
  | nil a => exact ⟨[], rfl, .nil a⟩
  | @cons e b q he hw ih =>
    obtain ⟨e0, he0, rfl⟩ := List.mem_map.1 he
    obtain ⟨p, rfl, hp⟩ := ih
    refine ⟨e0 :: p, rfl, ?_⟩
    rw [Walk.cons_iff, hs]
    rw [hd] at hp
    exact ⟨he0, rfl, hp⟩

theorem scale_edges (d : PackedDag) (c : ℚ) : (d.scale c).edges = d.edges.map (scaleEdge c) := rfl

theorem scale_wf {d : PackedDag} (wf : PackedWF d) (c : ℚ) : PackedWF (d.scale c) := by
  have hget : ∀ (k : Nat) (e : PackedEdge), (d.scale c).edges[k]? = some e →
      ∃ e0, d.edges[k]? = some e0 ∧ e = scaleEdge c e0 := by
    intro k e he
    rw [scale_edges, List.getElem?_map] at he
    cases h : d.edges[k]? with
    | none => rw [h] at he; simp at he
    | some e0 =>
      rw [h] at he
      simp only [Option.map_some, Option.some.injEq] at he
      exact ⟨e0, rfl, he.symm⟩
  exact {
    sb_zero := wf.sb_zero
    sb_last := wf.sb_last
    sb_mono := wf.sb_mono
    eb_zero := wf.eb_zero
    eb_last := by
      rw [scale_edges, List.length_map]
      exact wf.eb_last
    eb_mono := wf.eb_mono
    between := by
      intro τ hτ k e h1 h2 h3
      obtain ⟨e0, he0, rfl⟩ := hget k e h3
      exact wf.between τ hτ k e0 h1 h2 he0
    assigning := by
      intro τ hτ k e h1 h2 h3
      obtain ⟨e0, he0, rfl⟩ := hget k e h3
      exact wf.assigning τ hτ k e0 h1 h2 he0
    topo := by
      rw [scale_edges]
      obtain ⟨t1, t2⟩ := wf.topo
      constructor
      · exact List.pairwise_map.2 t1
      · intro e he
        obtain ⟨e0, he0, rfl⟩ := List.mem_map.1 he
        exact t2 e0 he0
    start := wf.start
    final := wf.final }

theorem scale_pathCost (c : ℚ) (p : List PackedEdge) :
    pathCost (fun _ _ => 0) (p.map (scaleEdge c)) = scaleCost c (pathCost (fun _ _ => 0) p) := by
  induction p with
  | nil => exact (scaleCost_zero c).symm
  | cons e p ih =>
    rw [List.map_cons, pathCost_cons, pathCost_cons, ih, scaleCost_add]
    congr 1
    unfold pw
    rw [scaleCost_add]
    congr 1
    simp only [PackedEdge.penalty, scaleEdge]
    cases e.req <;> exact (scaleCost_zero c).symm

end RUSure.Lemmas
