import Verif.Lemmas.PackedDag

/-! # Min-marginals, minimal costs and extraction -/

namespace RUSure.Lemmas
open RUSure RUSure.Spec

theorem pathCost_nil (pen : Penalties) : pathCost pen [] = 0 := rfl
theorem pathCost_cons (pen : Penalties) (e : PackedEdge) (p : List PackedEdge) :
    pathCost pen (e :: p) = pw pen e + pathCost pen p := weight_cons _ _ _
theorem pathCost_append (pen : Penalties) (p q : List PackedEdge) :
    pathCost pen (p ++ q) = pathCost pen p + pathCost pen q := weight_append _ _ _

section
variable {d : PackedDag} (wf : PackedWF d)
include wf

theorem tag_unique {τ τ' s : Nat} (h1 : τ ≤ d.numKeys) (h2 : τ' ≤ d.numKeys) (h : HasTag d τ s)
    (h' : HasTag d τ' s) : τ = τ' := by
  unfold HasTag at h h'
  rcases Nat.lt_trichotomy τ τ' with hc | hc | hc
  · have := sb_le wf (i := τ + 1) (j := τ') (by omega) (by omega)
    omega
  · exact hc
  · have := sb_le wf (i := τ' + 1) (j := τ) (by omega) (by omega)
    omega

theorem walk_keys {a b : Nat} {p : List PackedEdge} (hw : PackedWalk d a b p) {τ τ' : Nat}
    (h1 : τ ≤ d.numKeys) (h2 : τ' ≤ d.numKeys) (ha : HasTag d τ a) (hb : HasTag d τ' b) :
    τ ≤ τ' ∧ (assignments p).map Prod.fst = List.range' τ (τ' - τ) := by
  induction hw generalizing τ with
  | nil a =>
    have := tag_unique wf h1 h2 ha hb
    subst this
    simp [assignments]
  | @cons e b p he hw ih =>
    obtain ⟨k, hk⟩ := List.getElem?_of_mem he
    rcases edge_cases wf k e hk with ⟨σ, g1, g2, g3, g4, g5, g6⟩ | ⟨v, g1, g2, g3, ⟨x, hx, g4⟩, g5, g6⟩
    · have := tag_unique wf h1 g1 ha g5
      subst this
      obtain ⟨i1, i2⟩ := ih h1 g6 hb
      refine ⟨i1, ?_⟩
      simpa [assignments, g4] using i2
    · have := tag_unique wf h1 (by omega) ha g5
      subst this
      obtain ⟨i1, i2⟩ := ih (τ := τ + 1) (by omega) g6 hb
      refine ⟨by omega, ?_⟩
      obtain ⟨n, hn⟩ : ∃ n, τ' - τ = n + 1 := ⟨τ' - (τ + 1), by omega⟩
      rw [hn, List.range'_succ]
      have : τ' - (τ + 1) = n := by omega
      rw [this] at i2
      simp only [assignments, List.filterMap_cons, g4, List.map_cons]
      rw [← i2]
      rfl

theorem complete_keys {p : List PackedEdge} (hp : Complete d p) :
    (assignments p).map Prod.fst = List.range d.numKeys := by
  have := (walk_keys wf hp (by omega) (le_refl _) wf.start wf.final).2
  rw [this, List.range_eq_range']
  simp

theorem assign_edge {p : List PackedEdge} {a b : Nat} (hp : PackedWalk d a b p) {v x : Nat}
    (h : (v, x) ∈ assignments p) :
    v < d.numKeys ∧ x < d.numValues ∧ ∃ e p1 p2, p = p1 ++ e :: p2 ∧ e.req = some (v, x)
      ∧ PackedWalk d a e.source p1 ∧ PackedWalk d e.dest b p2
      ∧ e ∈ d.edgeRange (d.eb (2 * v + 1)) (d.eb (2 * v + 2)) := by
  obtain ⟨e, he, hreq⟩ := List.mem_filterMap.1 h
  have hmem := Walk.mem hp e he
  obtain ⟨p1, p2, rfl⟩ := List.append_of_mem he
  obtain ⟨c, w1, w2⟩ := Walk.append_iff.1 hp
  obtain ⟨g1, rfl, g2⟩ := Walk.cons_iff.1 w2
  obtain ⟨k, hk⟩ := List.getElem?_of_mem hmem
  rcases edge_cases wf k e hk with ⟨σ, f1, f2, f3, f4, f5, f6⟩ | ⟨v', f1, f2, f3, ⟨y, hy, f4⟩, f5, f6⟩
  · rw [hreq] at f4; simp at f4
  · rw [hreq] at f4
    simp only [Option.some.injEq, Prod.mk.injEq] at f4
    obtain ⟨rfl, rfl⟩ := f4
    exact ⟨f1, hy, e, p1, p2, rfl, hreq, w1, g2, mem_edgeRange.2 ⟨k, f2, f3, hk⟩⟩

end

theorem marginal_fold (m : Memo) (v : Nat) (L : List PackedEdge) (t : Nat → Cost) (x : Nat) :
    let c := fun e : PackedEdge =>
      m.prefixTable e.source + e.cost + m.pen v x + m.suffixTable e.dest
    let r := L.foldl (marginalStep m v) t x
    r ≤ t x ∧ (∀ e ∈ L, ∀ k, e.req = some (k, x) → r ≤ c e)
      ∧ (r = t x ∨ ∃ e ∈ L, (∃ k, e.req = some (k, x)) ∧ r = c e) := by
  induction L generalizing t with
  | nil => simp
  | cons e L ih =>
    obtain ⟨h1, h2, h3⟩ := ih (marginalStep m v t e)
    simp only [List.foldl_cons]
    have hstep : marginalStep m v t e x ≤ t x := by
      unfold marginalStep
      cases e.req with
      | none => exact le_refl _
      | some kv =>
        simp only [setEntry]
        split
        · rename_i h; subst h; exact min_le_left _ _
        · exact le_refl _
    have hstep2 : ∀ k, e.req = some (k, x) → marginalStep m v t e x
        = min (t x) (m.prefixTable e.source + e.cost + m.pen v x + m.suffixTable e.dest) := by
      intro k hk
      simp [marginalStep, hk, setEntry]
    refine ⟨h1.trans hstep, ?_, ?_⟩
    · intro e' he' k hk
      rcases List.mem_cons.1 he' with rfl | he'
      · refine h1.trans ?_
        rw [hstep2 k hk]
        exact min_le_right _ _
      · exact h2 e' he' k hk
    · rcases h3 with h3 | ⟨e', he', hk, h3⟩
      · rw [h3]
        by_cases hk : ∃ k, e.req = some (k, x)
        · obtain ⟨k, hk⟩ := hk
          rw [hstep2 k hk]
          rcases min_choice (t x)
            (m.prefixTable e.source + e.cost + m.pen v x + m.suffixTable e.dest) with hc | hc
          · exact .inl hc
          · exact .inr ⟨e, by simp, ⟨k, hk⟩, hc⟩
        · left
          unfold marginalStep
          cases hreq : e.req with
          | none => rfl
          | some kv =>
            simp only [setEntry]
            rw [if_neg]
            rintro rfl
            exact hk ⟨kv.1, hreq⟩
      · exact .inr ⟨e', by simp [he'], hk, h3⟩

theorem minMarginals_spec {d : PackedDag} (wf : PackedWF d) {m : Memo} (hm : MemoInv d m) {v : Nat}
    (hv : v < d.numKeys) :
    ∃ m' mm, m.minMarginals v = some (m', mm) ∧ MemoInv d m' ∧ m'.pen = m.pen ∧
      ∀ x, IsMinimum (fun p => Complete d p ∧ (v, x) ∈ assignments p) (pathCost m.pen) (mm x) := by
  obtain ⟨i1, i2, i3, i4, i5⟩ := updatePrefixes_inv wf hm (τ := v) (by omega)
  obtain ⟨j1, j2, j3, j4, j5⟩ := updateSuffixes_inv wf i1 (τ := v + 1) (by omega)
  unfold Memo.minMarginals
  rw [hm.dag, if_pos hv]
  dsimp only
  generalize (m.updatePrefixes v).updateSuffixes (v + 1) = m' at *
  refine ⟨_, _, rfl, j1, j3.trans i3, ?_⟩
  have hpv : v + 1 ≤ m'.pv := by rw [j4]; exact i2
  have hpen : m'.pen = m.pen := j3.trans i3
  rw [j1.dag]
  intro x
  obtain ⟨-, h2, h3⟩ := marginal_fold m' v (d.edgeRange (d.eb (2 * v + 1)) (d.eb (2 * v + 2)))
    (fun _ => ⊤) x
  dsimp only at h2 h3
  have hends : ∀ e ∈ d.edgeRange (d.eb (2 * v + 1)) (d.eb (2 * v + 2)),
      m'.prefixTable e.source = fullPrefix d m.pen e.source
      ∧ m'.suffixTable e.dest = fullSuffix d m.pen e.dest ∧ e ∈ d.edges
      ∧ (∃ y, e.req = some (v, y)) := by
    intro e he
    obtain ⟨k, g1, g2, g3⟩ := mem_edgeRange.1 he
    obtain ⟨⟨y, hy, hreq⟩, f2, f3⟩ := wf.assigning v hv k e g1 g2 g3
    have hmem := List.mem_of_getElem? g3
    refine ⟨?_, ?_, hmem, ⟨y, hreq⟩⟩
    · rw [j1.pre, hpen]
      exact lt_of_lt_of_le f2.2 (sb_le wf hpv j1.pv_le)
    · rw [j1.suf, hpen]
      · exact (sb_le wf (i := m'.sv) (j := v + 1) j2 (by omega)).trans f3.1
      · exact (edge_tag_mono wf hmem).2.2.2
  constructor
  · rintro p ⟨hp, hasg⟩
    obtain ⟨-, -, e, p1, p2, rfl, hreq, w1, w2, hgrp⟩ := assign_edge wf hp hasg
    refine (h2 e hgrp v hreq).trans ?_
    obtain ⟨f1, f2, f3, f4⟩ := hends e hgrp
    rw [f1, f2, pathCost_append, pathCost_cons, hpen]
    have hP := (fullPrefix_min wf m.pen e.source).le p1 w1
    have hS := (fullSuffix_min wf m.pen e.dest).le p2 w2
    have : pw m.pen e = e.cost + m.pen v x := by simp [pw, PackedEdge.penalty, hreq]
    rw [this, ← add_assoc, ← add_assoc]
    exact add_le_add (add_le_add (add_le_add hP (le_refl _)) (le_refl _)) hS
  · rcases h3 with h3 | ⟨e, he, ⟨k, hk⟩, h3⟩
    · exact .inl h3
    · obtain ⟨f1, f2, f3, ⟨y, f4⟩⟩ := hends e he
      rw [hk] at f4
      simp only [Option.some.injEq, Prod.mk.injEq] at f4
      obtain ⟨rfl, rfl⟩ := f4
      rcases (fullPrefix_min wf m.pen e.source).attained with hP | ⟨p1, w1, hP⟩
      · left; rw [h3, f1, hP]; simp
      · rcases (fullSuffix_min wf m.pen e.dest).attained with hS | ⟨p2, w2, hS⟩
        · left; rw [h3, f2, hS]; simp
        · right
          refine ⟨p1 ++ e :: p2, ⟨Walk.append w1 (.cons f3 w2), ?_⟩, ?_⟩
          · simp [assignments, List.filterMap_append, hk]
          · rw [h3, f1, f2, ← hP, ← hS, pathCost_append, pathCost_cons, hpen]
            have : pw m.pen e = e.cost + m.pen k x := by simp [pw, PackedEdge.penalty, hk]
            rw [this]
            simp only [add_assoc]

theorem makeFullyValid_inv {d : PackedDag} (wf : PackedWF d) {m : Memo} (hm : MemoInv d m) :
    MemoInv d m.makeFullyValid ∧ m.makeFullyValid.pen = m.pen ∧ d.numKeys + 1 ≤ m.makeFullyValid.pv
      ∧ m.makeFullyValid.sv = 0 := by
  unfold Memo.makeFullyValid
  rw [hm.dag]
  obtain ⟨i1, i2, i3, i4, i5⟩ := updatePrefixes_inv wf hm (le_refl d.numKeys)
  obtain ⟨j1, j2, j3, j4, j5⟩ := updateSuffixes_inv wf i1 (τ := 0) (by omega)
  exact ⟨j1, j3.trans i3, by rw [j4]; exact i2, by omega⟩

theorem allMinMarginals_spec {d : PackedDag} (wf : PackedWF d) {m : Memo} (hm : MemoInv d m) :
    MemoInv d m.allMinMarginals.1 ∧ m.allMinMarginals.1.pen = m.pen
    ∧ ∀ v < d.numKeys, ∀ x, ∃ c, m.allMinMarginals.2 v x = some c
      ∧ IsMinimum (fun p => Complete d p ∧ (v, x) ∈ assignments p) (pathCost m.pen) c := by
  unfold Memo.allMinMarginals
  rw [hm.dag]
  obtain ⟨i1, i2, -, -⟩ := makeFullyValid_inv wf hm
  suffices H : ∀ n, n ≤ d.numKeys →
      let r := (List.range n).foldl
        (fun (acc : Memo × (Nat → Nat → Option Cost)) v =>
          match acc.1.minMarginals v with
          | none => acc
          | some (m', mm) => (m', fun k x => if k = v then some (mm x) else acc.2 k x))
        (m.makeFullyValid, fun _ _ => none)
      MemoInv d r.1 ∧ r.1.pen = m.pen ∧ ∀ v < n, ∀ x, ∃ c, r.2 v x = some c
        ∧ IsMinimum (fun p => Complete d p ∧ (v, x) ∈ assignments p) (pathCost m.pen) c from
    H _ (le_refl _)
  intro n
  induction n with
  | zero => intro _; exact ⟨i1, i2, by omega⟩
  | succ n ih =>
    intro hn
    obtain ⟨h1, h2, h3⟩ := ih (by omega)
    simp only [List.range_succ, List.foldl_append, List.foldl_cons, List.foldl_nil]
    generalize (List.range n).foldl (fun (acc : Memo × (Nat → Nat → Option Cost)) v =>
          match acc.1.minMarginals v with
          | none => acc
          | some (m', mm) => (m', fun k x => if k = v then some (mm x) else acc.2 k x))
        (m.makeFullyValid, fun _ _ => none) = r at *
    obtain ⟨m', mm, g1, g2, g3, g4⟩ := minMarginals_spec wf h1 (v := n) (by omega)
    rw [g1]
    refine ⟨g2, g3.trans h2, ?_⟩
    intro v hv x
    by_cases hvn : v = n
    · subst hvn
      exact ⟨mm x, by simp, by rw [← h2]; exact g4 x⟩
    · obtain ⟨c, c1, c2⟩ := h3 v (by omega) x
      exact ⟨c, by simp [hvn, c1], c2⟩

theorem arrayMin_le (n : Nat) (t : Nat → Cost) (x : Nat) (hx : x < n) : arrayMin n t ≤ t x := by
  unfold arrayMin
  have key : ∀ (l : List Cost) (a : Cost), l.foldl min a ≤ a ∧ ∀ c ∈ l, l.foldl min a ≤ c := by
    intro l
    induction l with
    | nil => intro a; simp
    | cons b l ih =>
      intro a
      obtain ⟨h1, h2⟩ := ih (min a b)
      simp only [List.foldl_cons]
      refine ⟨h1.trans (min_le_left _ _), ?_⟩
      intro c hc
      rcases List.mem_cons.1 hc with rfl | hc
      · exact h1.trans (min_le_right _ _)
      · exact h2 c hc
  exact (key _ _).2 _ (List.mem_map.2 ⟨x, List.mem_range.2 hx, rfl⟩)

theorem arrayMin_attained (n : Nat) (t : Nat → Cost) :
    arrayMin n t = ⊤ ∨ ∃ x < n, arrayMin n t = t x := by
  unfold arrayMin
  have key : ∀ (l : List Cost) (a : Cost), l.foldl min a = a ∨ l.foldl min a ∈ l := by
    intro l
    induction l with
    | nil => intro a; simp
    | cons b l ih =>
      intro a
      simp only [List.foldl_cons]
      rcases ih (min a b) with h | h
      · rw [h]
        rcases min_choice a b with hc | hc
        · exact .inl hc
        · right; rw [hc]; simp
      · right; exact List.mem_cons_of_mem _ h
  rcases key ((List.range n).map t) ⊤ with h | h
  · exact .inl h
  · obtain ⟨x, hx, he⟩ := List.mem_map.1 h
    exact .inr ⟨x, List.mem_range.1 hx, he.symm⟩

theorem minimalCost_spec {d : PackedDag} (wf : PackedWF d) {m : Memo} (hm : MemoInv d m)
    (st : Strategy) (hst : st = .fromMiddle → 0 < d.numKeys) :
    ∃ m' c, m.minimalCost st = some (m', c) ∧ MemoInv d m' ∧ m'.pen = m.pen ∧
      IsMinimum (Complete d) (pathCost m.pen) c := by
  cases st with
  | atStart =>
    obtain ⟨j1, j2, j3, j4, j5⟩ := updateSuffixes_inv wf hm (τ := 0) (by omega)
    refine ⟨_, _, rfl, j1, j3, ?_⟩
    rw [j1.suf, j3]
    · exact fullSuffix_min wf m.pen 0
    · rw [show (m.updateSuffixes 0).sv = 0 by omega, wf.sb_zero]
    · have := wf.start.2
      have h2 := sb_le wf (i := 0 + 1) (j := d.numKeys + 1) (by omega) (by omega)
      rw [wf.sb_last] at h2
      omega
  | atEnd =>
    obtain ⟨j1, j2, j3, j4, j5⟩ := updatePrefixes_inv wf hm (le_refl d.numKeys)
    refine ⟨m.updatePrefixes d.numKeys,
      (m.updatePrefixes d.numKeys).prefixTable (d.numStates - 1), ?_, j1, j3, ?_⟩
    · simp only [Memo.minimalCost, hm.dag]
    · rw [j1.pre, j3]
      · exact fullPrefix_min wf m.pen _
      · have hpv : (m.updatePrefixes d.numKeys).pv = d.numKeys + 1 := by
          have := j1.pv_le; omega
        rw [hpv]
        exact wf.final.2
  | fromMiddle =>
    have hn := hst rfl
    have hlt : min (m.sv - 1) (d.numKeys - 1) < d.numKeys := by omega
    obtain ⟨m', mm, g1, g2, g3, g4⟩ := minMarginals_spec wf hm hlt
    refine ⟨m', arrayMin d.numValues mm, ?_, g2, g3, ?_⟩
    · simp only [Memo.minimalCost, hm.dag, g1]
      rw [if_neg (by omega)]
    · generalize min (m.sv - 1) (d.numKeys - 1) = v at *
      constructor
      · intro p hp
        have hk := complete_keys wf hp
        have : v ∈ (assignments p).map Prod.fst := by rw [hk]; simpa using hlt
        obtain ⟨⟨v', x⟩, hmem, rfl⟩ := List.mem_map.1 this
        obtain ⟨-, hx, -⟩ := assign_edge wf hp hmem
        exact (arrayMin_le _ _ x hx).trans ((g4 x).le p ⟨hp, hmem⟩)
      · rcases arrayMin_attained d.numValues mm with h | ⟨x, hx, h⟩
        · exact .inl h
        · rcases (g4 x).attained with h' | ⟨p, ⟨hp, -⟩, h'⟩
          · left; rw [h, h']
          · right; exact ⟨p, hp, by rw [h, h']⟩

/-! ## Extraction -/

theorem walk_sublist {ε : Type} {src dst : ε → Nat} {E : List ε} (ht : Topo src dst E) {a b : Nat}
    {p : List ε} (h : Walk src dst E a b p) : p.Sublist E := by
  induction E generalizing a p with
  | nil =>
    cases h with
    | nil => simp
    | cons he => simp at he
  | cons e E ih =>
    rcases walk_cons_split h with h' | ⟨p1, p2, rfl, h1, h2⟩
    · exact (ih (Topo.tail ht) h').cons _
    · have ha := walk_to_first ht.1 h1
      subst ha
      have hp1 := closed_walk_nil ht h1
      subst hp1
      exact (ih (Topo.tail ht) h2).cons_cons _

theorem bestStep_fold (m : Memo) (L : List (Nat × PackedEdge))
    (b0 : (Nat × PackedEdge) × Cost × Nat) :
    let c := fun o : Nat × PackedEdge => m.suffixTable o.2.dest + o.2.cost + o.2.penalty m.pen
    let r := L.foldl (bestStep m) b0
    r.2.1 ≤ b0.2.1 ∧ (∀ o ∈ L, r.2.1 ≤ c o)
      ∧ (r = b0 ∨ (r.1 ∈ L ∧ r.2.1 = c r.1 ∧ r.2.2 = r.1.2.dest ∧ r.2.1 < b0.2.1)) := by
  induction L generalizing b0 with
  | nil => simp
  | cons o L ih =>
    simp only [List.foldl_cons]
    obtain ⟨h1, h2, h3⟩ := ih (bestStep m b0 o)
    have hs : (bestStep m b0 o).2.1 ≤ b0.2.1
        ∧ (bestStep m b0 o).2.1 ≤ m.suffixTable o.2.dest + o.2.cost + o.2.penalty m.pen
        ∧ (bestStep m b0 o = b0 ∨ ((bestStep m b0 o).1 = o
          ∧ (bestStep m b0 o).2.1 = m.suffixTable o.2.dest + o.2.cost + o.2.penalty m.pen
          ∧ (bestStep m b0 o).2.2 = o.2.dest ∧ (bestStep m b0 o).2.1 < b0.2.1)) := by
      unfold bestStep
      dsimp only
      split
      · rename_i h
        exact ⟨le_of_lt h, le_refl _, .inr ⟨rfl, rfl, rfl, h⟩⟩
      · rename_i h
        exact ⟨le_refl _, not_lt.1 h, .inl rfl⟩
    obtain ⟨s1, s2, s3⟩ := hs
    refine ⟨h1.trans s1, ?_, ?_⟩
    · intro o' ho'
      rcases List.mem_cons.1 ho' with rfl | ho'
      · exact h1.trans s2
      · exact h2 o' ho'
    · rcases h3 with h3 | ⟨g1, g2, g3, g4⟩
      · rw [h3]
        rcases s3 with s3 | ⟨t1, t2, t3, t4⟩
        · exact .inl s3
        · right
          refine ⟨by rw [t1]; simp, by rw [t2, t1], by rw [t3, t1], t4⟩
      · right
        exact ⟨List.mem_cons_of_mem _ g1, g2, g3, lt_of_lt_of_le g4 s1⟩

theorem mem_outgoing {d : PackedDag} {s k : Nat} {e : PackedEdge} :
    (k, e) ∈ d.outgoing s ↔ d.edges[k]? = some e ∧ e.source = s := by
  unfold PackedDag.outgoing
  simp only [List.mem_filter, List.mem_map, Prod.mk.injEq, Prod.exists, decide_eq_true_eq]
  constructor
  · rintro ⟨⟨a, b, hab, rfl, rfl⟩, hs⟩
    exact ⟨List.mem_zipIdx_iff_getElem?.1 hab, hs⟩
  · rintro ⟨hk, hs⟩
    exact ⟨⟨e, k, List.mem_zipIdx_iff_getElem?.2 hk, rfl, rfl⟩, hs⟩

/-- A packed path with indices is consistent with the edge list. -/
def Indexed (d : PackedDag) (p : List (Nat × PackedEdge)) : Prop :=
  ∀ o ∈ p, d.edges[o.1]? = some o.2

theorem extractLoop_spec {d : PackedDag} (wf : PackedWF d) {m : Memo} (hm : MemoInv d m)
    (hsv : m.sv = 0) (fuel s : Nat) (hs : s < d.numStates)
    (hfuel : ∀ b p, PackedWalk d s b p → p.length < fuel) (hfin : fullSuffix d m.pen s < ⊤) :
    ∃ p, extractLoop m fuel s = some p ∧ Indexed d p
      ∧ PackedWalk d s (d.numStates - 1) (p.map Prod.snd)
      ∧ pathCost m.pen (p.map Prod.snd) = fullSuffix d m.pen s := by
  induction fuel generalizing s with
  | zero => exact absurd (hfuel s [] (.nil s)) (by simp)
  | succ fuel ih =>
    have hsuf : ∀ s, s < d.numStates → m.suffixTable s = fullSuffix d m.pen s := by
      intro s hs
      exact hm.suf s (by rw [hsv, wf.sb_zero]; omega) hs
    unfold extractLoop
    rw [hm.dag]
    by_cases hlast : s < d.numStates - 1
    · rw [if_pos hlast]
      -- an optimal walk from `s`
      rcases (fullSuffix_min wf m.pen s).attained with h | ⟨q, hq, hqc⟩
      · rw [h] at hfin; exact absurd hfin (lt_irrefl _)
      · cases q with
        | nil =>
          have := Walk.nil_iff.1 hq
          omega
        | cons e q =>
          obtain ⟨he, hse, hq'⟩ := Walk.cons_iff.1 hq
          obtain ⟨k, hk⟩ := List.getElem?_of_mem he
          have hout : (k, e) ∈ d.outgoing s := mem_outgoing.2 ⟨hk, hse.symm⟩
          have hdest : ∀ o ∈ d.outgoing s, o.2.dest < d.numStates ∧ o.2 ∈ d.edges
              ∧ o.2.source = s ∧ d.edges[o.1]? = some o.2 := by
            rintro ⟨k', e'⟩ ho
            obtain ⟨g1, g2⟩ := mem_outgoing.1 ho
            have hm' := List.mem_of_getElem? g1
            exact ⟨(edge_tag_mono wf hm').2.2.2, hm', g2, g1⟩
          generalize hol : d.outgoing s = ol at *
          cases ol with
          | nil => simp at hout
          | cons o os =>
            simp only
            obtain ⟨b1, b2, b3⟩ := bestStep_fold m (o :: os) (o, ⊤, d.numStates)
            dsimp only at b1 b2 b3
            generalize (o :: os).foldl (bestStep m) (o, ⊤, d.numStates) = best at *
            have hle : best.2.1 ≤ fullSuffix d m.pen s := by
              refine (b2 _ hout).trans ?_
              rw [hsuf _ (hdest _ hout).1, ← hqc, pathCost_cons]
              have := (fullSuffix_min wf m.pen e.dest).le q hq'
              calc fullSuffix d m.pen e.dest + e.cost + e.penalty m.pen
                  = pw m.pen e + fullSuffix d m.pen e.dest := by
                    rw [pw, add_assoc, add_comm]
                _ ≤ pw m.pen e + pathCost m.pen q := add_le_add (le_refl _) this
            rcases b3 with rfl | ⟨g1, g2, g3, g4⟩
            · exact absurd (lt_of_le_of_lt hle hfin) (lt_irrefl _)
            · obtain ⟨d1, d2, d3, d4⟩ := hdest _ g1
              have hge : fullSuffix d m.pen s ≤ best.2.1 := by
                rw [g2, hsuf _ d1]
                rcases (fullSuffix_min wf m.pen best.1.2.dest).attained with h | ⟨r, hr, hrc⟩
                · rw [h]; simp
                · have := (fullSuffix_min wf m.pen s).le (best.1.2 :: r)
                    (Walk.cons_iff.2 ⟨d2, d3.symm, hr⟩)
                  rw [pathCost_cons, hrc] at this
                  refine this.trans (le_of_eq ?_)
                  rw [pw, add_comm, add_assoc]
              have heq : best.2.1 = fullSuffix d m.pen s := le_antisymm hle hge
              have hfin' : fullSuffix d m.pen best.2.2 < ⊤ := by
                rw [lt_top_iff_ne_top] at hfin ⊢
                intro hc
                rw [g3] at hc
                rw [← heq, g2, hsuf _ d1, hc] at hfin
                simp at hfin
              obtain ⟨p, p1, p2, p3, p4⟩ := ih best.2.2 (by rw [g3]; exact d1) (by
                intro b p hp
                rw [g3] at hp
                have := hfuel b (best.1.2 :: p) (Walk.cons_iff.2 ⟨d2, d3.symm, hp⟩)
                simpa using this) hfin'
              refine ⟨best.1 :: p, by rw [p1]; rfl, ?_, ?_, ?_⟩
              · intro o' ho'
                rcases List.mem_cons.1 ho' with rfl | ho'
                · exact d4
                · exact p2 o' ho'
              · rw [List.map_cons, PackedWalk, Walk.cons_iff, ← g3]
                exact ⟨d2, d3.symm, p3⟩
              · rw [List.map_cons, pathCost_cons, p4, ← heq, g2, hsuf _ d1, g3]
                rw [pw, add_comm, add_assoc]
    · rw [if_neg hlast]
      have hsN : s = d.numStates - 1 := by omega
      subst hsN
      refine ⟨[], rfl, by simp [Indexed], .nil _, ?_⟩
      refine IsMinimum.unique ?_ (fullSuffix_min wf m.pen _)
      constructor
      · intro p hp
        have := closed_walk_nil wf.topo hp
        subst this
        exact le_refl _
      · exact .inr ⟨[], .nil _, rfl⟩

theorem start_lt {d : PackedDag} (wf : PackedWF d) : 0 < d.numStates := by
  have := wf.start.2
  have h2 := sb_le wf (i := 0 + 1) (j := d.numKeys + 1) (by omega) (by omega)
  rw [wf.sb_last] at h2
  omega

theorem extractPath_spec {d : PackedDag} (wf : PackedWF d) {m : Memo} (hm : MemoInv d m)
    (hfin : ∃ p, Complete d p ∧ pathCost m.pen p < ⊤) :
    ∃ m' p, m.extractPath = some (m', p, assignments (p.map Prod.snd)) ∧ MemoInv d m'
      ∧ m'.pen = m.pen ∧ Indexed d p ∧ Complete d (p.map Prod.snd)
      ∧ IsMinimum (Complete d) (pathCost m.pen) (pathCost m.pen (p.map Prod.snd)) := by
  obtain ⟨j1, j2, j3, j4, j5⟩ := updateSuffixes_inv wf hm (τ := 0) (by omega)
  have hmin := fullSuffix_min wf m.pen 0
  obtain ⟨p0, hp0, hp0c⟩ := hfin
  have hfin' : fullSuffix d (m.updateSuffixes 0).pen 0 < ⊤ := by
    rw [j3]; exact lt_of_le_of_lt (hmin.le p0 hp0) hp0c
  obtain ⟨p, h1, h2, h3, h4⟩ := extractLoop_spec wf j1 (by omega) (d.edges.length + 1) 0
    (start_lt wf) (by
      intro b p hp
      have := (walk_sublist wf.topo hp).length_le
      omega) hfin'
  refine ⟨m.updateSuffixes 0, p, ?_, j1, j3, h2, h3, ?_⟩
  · simp only [Memo.extractPath, j1.dag, h1, Option.map_some]
    simp [assignments, List.filterMap_map, Function.comp_def]
  · rw [j3] at h4
    rw [h4]
    exact hmin

theorem extractPath_inv {d : PackedDag} (wf : PackedWF d) {m m' : Memo} (hm : MemoInv d m) {r}
    (h : m.extractPath = some (m', r)) : MemoInv d m' ∧ m'.pen = m.pen := by
  obtain ⟨j1, j2, j3, j4, j5⟩ := updateSuffixes_inv wf hm (τ := 0) (by omega)
  simp only [Memo.extractPath] at h
  cases hl : extractLoop (m.updateSuffixes 0) ((m.updateSuffixes 0).dag.edges.length + 1) 0 with
  | none => rw [hl] at h; simp at h
  | some p =>
    rw [hl] at h
    simp only [Option.map_some, Option.some.injEq, Prod.mk.injEq] at h
    rw [← h.1]
    exact ⟨j1, j3⟩

/-- If no complete path has finite cost, the loop stops after one (arbitrary) edge. -/
theorem extractPath_infinite {d : PackedDag} (wf : PackedWF d) {m : Memo} (hm : MemoInv d m)
    (hinf : ∀ p, Complete d p → pathCost m.pen p = ⊤) :
    m.extractPath = none ∨ ∃ m' o, m.extractPath = some (m', [o], assignments [o.2])
      ∧ o.2.source = 0 := by
  obtain ⟨j1, j2, j3, j4, j5⟩ := updateSuffixes_inv wf hm (τ := 0) (by omega)
  have hmin := fullSuffix_min wf m.pen 0
  have hN := start_lt wf
  have hne : 0 < d.numStates - 1 := by
    by_contra hc
    have h0 : d.numStates - 1 = 0 := by omega
    have := hinf [] (by rw [Complete, h0]; exact .nil _)
    rw [pathCost_nil] at this
    simp at this
  have hcost : ∀ o ∈ d.outgoing 0, fullSuffix d m.pen o.2.dest + o.2.cost + o.2.penalty m.pen
      = ⊤ := by
    rintro ⟨k, e⟩ ho
    obtain ⟨g1, g2⟩ := mem_outgoing.1 ho
    rcases (fullSuffix_min wf m.pen e.dest).attained with h | ⟨r, hr, hrc⟩
    · simp [h]
    · have := hinf (e :: r) (Walk.cons_iff.2 ⟨List.mem_of_getElem? g1, g2.symm, hr⟩)
      rw [pathCost_cons, hrc, pw] at this
      rw [← this, add_assoc, add_comm]
  simp only [Memo.extractPath, j1.dag]
  rw [show d.edges.length + 1 = Nat.succ d.edges.length from rfl]
  unfold extractLoop
  rw [j1.dag, if_pos hne]
  cases hol : d.outgoing 0 with
  | nil => simp
  | cons o os =>
    right
    simp only
    obtain ⟨-, -, b3⟩ := bestStep_fold (m.updateSuffixes 0) (o :: os) (o, ⊤, d.numStates)
    dsimp only at b3
    generalize (o :: os).foldl (bestStep (m.updateSuffixes 0)) (o, ⊤, d.numStates) = best at *
    rcases b3 with rfl | ⟨g1, g2, g3, g4⟩
    · have hedge : 0 < d.edges.length := by
        have ho : o ∈ d.outgoing 0 := by rw [hol]; simp
        have := (mem_outgoing (k := o.1) (e := o.2)).1 ho
        have := (List.getElem?_eq_some_iff.1 this.1).1
        omega
      obtain ⟨n, hn⟩ : ∃ n, d.edges.length = n + 1 := ⟨d.edges.length - 1, by omega⟩
      refine ⟨m.updateSuffixes 0, o, ?_, ?_⟩
      · rw [hn]
        unfold extractLoop
        rw [j1.dag, if_neg (by simp only; omega)]
        simp [assignments, List.filterMap_cons]
      · have ho : o ∈ d.outgoing 0 := by rw [hol]; simp
        exact ((mem_outgoing (k := o.1) (e := o.2)).1 ho).2
    · exfalso
      have hg : best.1 ∈ d.outgoing 0 := by rw [hol]; exact g1
      have hc := hcost _ hg
      have hd : best.1.2.dest < d.numStates := by
        have := (mem_outgoing (k := best.1.1) (e := best.1.2)).1 hg
        exact (edge_tag_mono wf (List.mem_of_getElem? this.1)).2.2.2
      rw [g2, j1.suf _ (by rw [show (m.updateSuffixes 0).sv = 0 by omega, wf.sb_zero]; omega) hd, j3,
        hc] at g4
      exact absurd g4 (lt_irrefl _)

/-! ## Histories -/

theorem op_inv {d : PackedDag} (wf : PackedWF d) {m : Memo} (hm : MemoInv d m) (op : MemoOp) :
    MemoInv d (op.run m) := by
  cases op with
  | setPenalties v p =>
    simp only [MemoOp.run, hm.dag]
    split
    · exact setPenalties_inv wf hm (by assumption) p
    · exact hm
  | updatePrefixes τ =>
    simp only [MemoOp.run, hm.dag]
    split
    · exact (updatePrefixes_inv wf hm (by assumption)).1
    · exact hm
  | updateSuffixes τ =>
    simp only [MemoOp.run, hm.dag]
    split
    · exact (updateSuffixes_inv wf hm (by assumption)).1
    · exact hm
  | makeFullyValid => exact (makeFullyValid_inv wf hm).1
  | minMarginals v =>
    simp only [MemoOp.run]
    by_cases hv : v < d.numKeys
    · obtain ⟨m', mm, h1, h2, -⟩ := minMarginals_spec wf hm hv
      rw [h1]; exact h2
    · simp [Memo.minMarginals, hm.dag, hv]; exact hm
  | allMinMarginals => exact (allMinMarginals_spec wf hm).1
  | minimalCost s =>
    simp only [MemoOp.run]
    by_cases hs : s = .fromMiddle → 0 < d.numKeys
    · obtain ⟨m', c, h1, h2, -⟩ := minimalCost_spec wf hm s hs
      rw [h1]; exact h2
    · push Not at hs
      obtain ⟨rfl, h0⟩ := hs
      have h0 : d.numKeys = 0 := by omega
      simp [Memo.minimalCost, hm.dag, h0]; exact hm
  | extractPath =>
    simp only [MemoOp.run]
    cases h : m.extractPath with
    | none => exact hm
    | some r => exact (extractPath_inv wf hm (m' := r.1) (r := r.2) h).1

theorem op_pen {d : PackedDag} (wf : PackedWF d) {m : Memo} (hm : MemoInv d m) (op : MemoOp) :
    (op.run m).pen = match op with
      | .setPenalties v p =>
        if v < d.numKeys then fun k => if k = v then p else m.pen k else m.pen
      | _ => m.pen := by
  cases op with
  | setPenalties v p =>
    simp only [MemoOp.run, hm.dag]
    split <;> rfl
  | updatePrefixes τ =>
    simp only [MemoOp.run, hm.dag]
    split
    · exact (updatePrefixes_inv wf hm (by assumption)).2.2.1
    · rfl
  | updateSuffixes τ =>
    simp only [MemoOp.run, hm.dag]
    split
    · exact (updateSuffixes_inv wf hm (by assumption)).2.2.1
    · rfl
  | makeFullyValid => exact (makeFullyValid_inv wf hm).2.1
  | minMarginals v =>
    simp only [MemoOp.run]
    by_cases hv : v < d.numKeys
    · obtain ⟨m', mm, h1, h2, h3, -⟩ := minMarginals_spec wf hm hv
      rw [h1]; exact h3
    · simp [Memo.minMarginals, hm.dag, hv]
  | allMinMarginals => exact (allMinMarginals_spec wf hm).2.1
  | minimalCost s =>
    simp only [MemoOp.run]
    by_cases hs : s = .fromMiddle → 0 < d.numKeys
    · obtain ⟨m', c, h1, h2, h3, -⟩ := minimalCost_spec wf hm s hs
      rw [h1]; exact h3
    · push Not at hs
      obtain ⟨rfl, h0⟩ := hs
      have h0 : d.numKeys = 0 := by omega
      simp [Memo.minimalCost, hm.dag, h0]
  | extractPath =>
    simp only [MemoOp.run]
    cases h : m.extractPath with
    | none => rfl
    | some r => exact (extractPath_inv wf hm (m' := r.1) (r := r.2) h).2

theorem memoAfter_inv {d : PackedDag} (wf : PackedWF d) (invalid : Cost) (pen : Penalties)
    (hist : List MemoOp) :
    MemoInv d (memoAfter invalid d pen hist)
      ∧ (memoAfter invalid d pen hist).pen = penaltiesAfter d pen hist := by
  unfold memoAfter penaltiesAfter
  suffices H : ∀ (hist : List MemoOp) (m : Memo), MemoInv d m →
      MemoInv d (hist.foldl MemoOp.run m) ∧ (hist.foldl MemoOp.run m).pen = hist.foldl
        (fun pen op => match op with
          | .setPenalties v p => if v < d.numKeys then fun k => if k = v then p else pen k else pen
          | _ => pen) m.pen from
    H hist _ (emptyTable_inv wf invalid pen)
  intro hist
  induction hist with
  | nil => intro m hm; exact ⟨hm, rfl⟩
  | cons op hist ih =>
    intro m hm
    obtain ⟨h1, h2⟩ := ih _ (op_inv wf hm op)
    refine ⟨h1, ?_⟩
    simp only [List.foldl_cons]
    rw [h2, op_pen wf hm op]

end RUSure.Lemmas
