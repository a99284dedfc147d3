import Verif.Lemmas.RoundedTables

/-! # Min-marginals, minimal costs and extraction in machine arithmetic -/

namespace RUSure.Lemmas.Rnd
open RUSure RUSure.Spec RUSure.Lemmas RUSure.Rounded

variable (A : Machine)

theorem backwardCost_cons (pen : Penalties) (e : PackedEdge) (p : List PackedEdge) :
    backwardCost A pen (e :: p) = px A pen e (backwardCost A pen p) := rfl

theorem marginal_fold (m : Memo) (v : Nat) (L : List PackedEdge) (t : Nat → Cost) (x : Nat) :
    let c := fun e : PackedEdge =>
      A.add (A.add (A.add (m.prefixTable e.source) e.cost) (m.pen v x)) (m.suffixTable e.dest)
    let r := L.foldl (Rounded.marginalStep A m v) t x
    r ≤ t x ∧ (∀ e ∈ L, ∀ k, e.req = some (k, x) → r ≤ c e)
      ∧ (r = t x ∨ ∃ e ∈ L, (∃ k, e.req = some (k, x)) ∧ r = c e) := by
  induction L generalizing t with
  | nil => simp
  | cons e L ih =>
    obtain ⟨h1, h2, h3⟩ := ih (Rounded.marginalStep A m v t e)
    simp only [List.foldl_cons]
    have hstep : Rounded.marginalStep A m v t e x ≤ t x := by
      unfold Rounded.marginalStep
      cases e.req with
      | none => exact le_refl _
      | some kv =>
        simp only [setEntry]
        split
        · rename_i h; subst h; exact min_le_left _ _
        · exact le_refl _
    have hstep2 : ∀ k, e.req = some (k, x) → Rounded.marginalStep A m v t e x
        = min (t x) (A.add (A.add (A.add (m.prefixTable e.source) e.cost) (m.pen v x)) (m.suffixTable e.dest)) := by
      intro k hk
      simp [Rounded.marginalStep, hk, setEntry]
    refine ⟨h1.trans hstep, ?_, ?_⟩
    · intro e' he' k hk
      rcases List.mem_cons.1 he' with rfl | he'
      · refine h1.trans ?_
        rw [hstep2 k hk]
        exact min_le_right _ _
      · exact h2 e' he' k hk
    · rcases h3 with h3 | ⟨e', he', hk, h3⟩
      · rw [h3]
        by_cases hk : ∃ k, e.req = some (k, x)
        · obtain ⟨k, hk⟩ := hk
          rw [hstep2 k hk]
          rcases min_choice (t x)
            (A.add (A.add (A.add (m.prefixTable e.source) e.cost) (m.pen v x)) (m.suffixTable e.dest)) with hc | hc
          · exact .inl hc
          · exact .inr ⟨e, by simp, ⟨k, hk⟩, hc⟩
        · left
          unfold Rounded.marginalStep
          cases hreq : e.req with
          | none => rfl
          | some kv =>
            simp only [setEntry]
            rw [if_neg]
            rintro rfl
            exact hk ⟨kv.1, hreq⟩
      · exact .inr ⟨e', by simp [he'], hk, h3⟩


theorem minMarginals_spec {d : PackedDag} (wf : PackedWF d) {m : Memo} (hm : MemoInv A d m) {v : Nat}
    (hv : v < d.numKeys) :
    ∃ m' mm, minMarginals A m v = some (m', mm) ∧ MemoInv A d m' ∧ m'.pen = m.pen ∧
      ∀ x, IsMinimum (fun y : List PackedEdge × PackedEdge × List PackedEdge =>
          Complete d (y.1 ++ y.2.1 :: y.2.2) ∧ y.2.1.req = some (v, x))
        (fun y => middleCost A m.pen y.1 y.2.1 y.2.2) (mm x) := by
  obtain ⟨i1, i2, i3, i4, i5⟩ := updatePrefixes_inv A wf hm (τ := v) (by omega)
  obtain ⟨j1, j2, j3, j4, j5⟩ := updateSuffixes_inv A wf i1 (τ := v + 1) (by omega)
  unfold Rounded.minMarginals
  rw [hm.dag, if_pos hv]
  dsimp only
  generalize updateSuffixes A (updatePrefixes A m v) (v + 1) = m' at *
  refine ⟨_, _, rfl, j1, j3.trans i3, ?_⟩
  have hpv : v + 1 ≤ m'.pv := by rw [j4]; exact i2
  have hpen : m'.pen = m.pen := j3.trans i3
  rw [j1.dag]
  intro x
  obtain ⟨-, h2, h3⟩ := marginal_fold A m' v (d.edgeRange (d.eb (2 * v + 1)) (d.eb (2 * v + 2)))
    (fun _ => ⊤) x
  dsimp only at h2 h3
  have hends : ∀ e ∈ d.edgeRange (d.eb (2 * v + 1)) (d.eb (2 * v + 2)),
      m'.prefixTable e.source = fullPrefix A d m.pen e.source
      ∧ m'.suffixTable e.dest = fullSuffix A d m.pen e.dest ∧ e ∈ d.edges
      ∧ (∃ y, e.req = some (v, y)) := by
    intro e he
    obtain ⟨k, g1, g2, g3⟩ := mem_edgeRange.1 he
    obtain ⟨⟨y, hy, hreq⟩, f2, f3⟩ := wf.assigning v hv k e g1 g2 g3
    have hmem := List.mem_of_getElem? g3
    refine ⟨?_, ?_, hmem, ⟨y, hreq⟩⟩
    · rw [j1.pre, hpen]
      exact lt_of_lt_of_le f2.2 (sb_le wf hpv j1.pv_le)
    · rw [j1.suf, hpen]
      · exact (sb_le wf (i := m'.sv) (j := v + 1) j2 (by omega)).trans f3.1
      · exact (edge_tag_mono wf hmem).2.2.2
  have hmid : ∀ p1 (e : PackedEdge) p2 k, e.req = some (k, x) → k = v →
      middleCost A m.pen p1 e p2 = A.add (A.add (A.add (forwardCost A m.pen p1) e.cost)
        (m.pen v x)) (backwardCost A m.pen p2) := by
    intro p1 e p2 k hk hkv
    simp [middleCost, PackedEdge.penalty, hk, hkv]
  constructor
  · rintro ⟨p1, e, p2⟩ ⟨hp, hreq⟩
    obtain ⟨c, w1, w2⟩ := Walk.append_iff.1 hp
    obtain ⟨g1, rfl, g2⟩ := Walk.cons_iff.1 w2
    have hgrp : e ∈ d.edgeRange (d.eb (2 * v + 1)) (d.eb (2 * v + 2)) := by
      obtain ⟨k, hk⟩ := List.getElem?_of_mem g1
      rcases edge_cases wf k e hk with ⟨σ, f1, f2, f3, f4, f5, f6⟩ | ⟨v', f1, f2, f3, ⟨y, hy, f4⟩, f5, f6⟩
      · rw [hreq] at f4; simp at f4
      · rw [hreq] at f4
        simp only [Option.some.injEq, Prod.mk.injEq] at f4
        obtain ⟨rfl, rfl⟩ := f4
        exact mem_edgeRange.2 ⟨k, f2, f3, hk⟩
    refine (h2 e hgrp v hreq).trans ?_
    obtain ⟨f1, f2, f3, f4⟩ := hends e hgrp
    rw [f1, f2, hpen, hmid p1 e p2 v hreq rfl]
    exact A.mono (A.mono (A.mono ((fullPrefix_min A wf m.pen e.source).le p1 w1) (le_refl _))
      (le_refl _)) ((fullSuffix_min A wf m.pen e.dest).le p2 g2)
  · rcases h3 with h3 | ⟨e, he, ⟨k, hk⟩, h3⟩
    · exact .inl h3
    · obtain ⟨f1, f2, f3, ⟨y, f4⟩⟩ := hends e he
      rw [hk] at f4
      simp only [Option.some.injEq, Prod.mk.injEq] at f4
      obtain ⟨rfl, rfl⟩ := f4
      rcases (fullPrefix_min A wf m.pen e.source).attained with hP | ⟨p1, w1, hP⟩
      · left; rw [h3, f1, hP]; simp [A.top_left]
      · rcases (fullSuffix_min A wf m.pen e.dest).attained with hS | ⟨p2, w2, hS⟩
        · left; rw [h3, f2, hS]; simp [A.top_right]
        · right
          refine ⟨(p1, e, p2), ⟨Walk.append w1 (.cons f3 w2), hk⟩, ?_⟩
          rw [h3, f1, f2, ← hP, ← hS, hpen]
          exact hmid p1 e p2 k hk rfl

theorem makeFullyValid_inv {d : PackedDag} (wf : PackedWF d) {m : Memo} (hm : MemoInv A d m) :
    MemoInv A d (makeFullyValid A m) ∧ (makeFullyValid A m).pen = m.pen ∧ d.numKeys + 1 ≤ (makeFullyValid A m).pv
      ∧ (makeFullyValid A m).sv = 0 := by
  unfold Rounded.makeFullyValid
  rw [hm.dag]
  obtain ⟨i1, i2, i3, i4, i5⟩ := updatePrefixes_inv A wf hm (le_refl d.numKeys)
  obtain ⟨j1, j2, j3, j4, j5⟩ := updateSuffixes_inv A wf i1 (τ := 0) (by omega)
  exact ⟨j1, j3.trans i3, by rw [j4]; exact i2, by omega⟩


theorem allMinMarginals_spec {d : PackedDag} (wf : PackedWF d) {m : Memo} (hm : MemoInv A d m) :
    MemoInv A d (allMinMarginals A m).1 ∧ (allMinMarginals A m).1.pen = m.pen
    ∧ ∀ v < d.numKeys, ∀ x, ∃ c, (allMinMarginals A m).2 v x = some c
      ∧ IsMinimum (fun y : List PackedEdge × PackedEdge × List PackedEdge =>
          Complete d (y.1 ++ y.2.1 :: y.2.2) ∧ y.2.1.req = some (v, x))
        (fun y => middleCost A m.pen y.1 y.2.1 y.2.2) c := by
  unfold Rounded.allMinMarginals
  rw [hm.dag]
  obtain ⟨i1, i2, -, -⟩ := makeFullyValid_inv A wf hm
  suffices H : ∀ n, n ≤ d.numKeys →
      let r := (List.range n).foldl
        (fun (acc : Memo × (Nat → Nat → Option Cost)) v =>
          match minMarginals A acc.1 v with
          | none => acc
          | some (m', mm) => (m', fun k x => if k = v then some (mm x) else acc.2 k x))
        (makeFullyValid A m, fun _ _ => none)
      MemoInv A d r.1 ∧ r.1.pen = m.pen ∧ ∀ v < n, ∀ x, ∃ c, r.2 v x = some c
        ∧ IsMinimum (fun y : List PackedEdge × PackedEdge × List PackedEdge =>
          Complete d (y.1 ++ y.2.1 :: y.2.2) ∧ y.2.1.req = some (v, x))
        (fun y => middleCost A m.pen y.1 y.2.1 y.2.2) c from
    H _ (le_refl _)
  intro n
  induction n with
  | zero => intro _; exact ⟨i1, i2, by omega⟩
  | succ n ih =>
    intro hn
    obtain ⟨h1, h2, h3⟩ := ih (by omega)
    simp only [List.range_succ, List.foldl_append, List.foldl_cons, List.foldl_nil]
    generalize (List.range n).foldl (fun (acc : Memo × (Nat → Nat → Option Cost)) v =>
          match minMarginals A acc.1 v with
          | none => acc
          | some (m', mm) => (m', fun k x => if k = v then some (mm x) else acc.2 k x))
        (makeFullyValid A m, fun _ _ => none) = r at *
    obtain ⟨m', mm, g1, g2, g3, g4⟩ := minMarginals_spec A wf h1 (v := n) (by omega)
    rw [g1]
    refine ⟨g2, g3.trans h2, ?_⟩
    intro v hv x
    by_cases hvn : v = n
    · subst hvn
      exact ⟨mm x, by simp, by rw [← h2]; exact g4 x⟩
    · obtain ⟨c, c1, c2⟩ := h3 v (by omega) x
      exact ⟨c, by simp [hvn, c1], c2⟩

theorem minimalCost_spec {d : PackedDag} (wf : PackedWF d) {m : Memo} (hm : MemoInv A d m)
    (st : Strategy) (hst : st = .fromMiddle → 0 < d.numKeys) :
    ∃ m' c, minimalCost A m st = some (m', c) ∧ MemoInv A d m' ∧ m'.pen = m.pen ∧
      StrategyCost A d m.pen c st := by
  cases st with
  | atStart =>
    obtain ⟨j1, j2, j3, j4, j5⟩ := updateSuffixes_inv A wf hm (τ := 0) (by omega)
    refine ⟨_, _, rfl, j1, j3, ?_⟩
    unfold StrategyCost
    rw [j1.suf, j3]
    · exact fullSuffix_min A wf m.pen 0
    · rw [show (updateSuffixes A m 0).sv = 0 by omega, wf.sb_zero]
    · have := wf.start.2
      have h2 := sb_le wf (i := 0 + 1) (j := d.numKeys + 1) (by omega) (by omega)
      rw [wf.sb_last] at h2
      omega
  | atEnd =>
    obtain ⟨j1, j2, j3, j4, j5⟩ := updatePrefixes_inv A wf hm (le_refl d.numKeys)
    refine ⟨updatePrefixes A m d.numKeys,
      (updatePrefixes A m d.numKeys).prefixTable (d.numStates - 1), ?_, j1, j3, ?_⟩
    · simp only [Rounded.minimalCost, hm.dag]
    · unfold StrategyCost
      rw [j1.pre, j3]
      · exact fullPrefix_min A wf m.pen _
      · have hpv : (updatePrefixes A m d.numKeys).pv = d.numKeys + 1 := by
          have := j1.pv_le; omega
        rw [hpv]
        exact wf.final.2
  | fromMiddle =>
    have hn := hst rfl
    have hlt : min (m.sv - 1) (d.numKeys - 1) < d.numKeys := by omega
    obtain ⟨m', mm, g1, g2, g3, g4⟩ := minMarginals_spec A wf hm hlt
    refine ⟨m', arrayMin d.numValues mm, ?_, g2, g3, ?_⟩
    · simp only [Rounded.minimalCost, hm.dag, g1]
      rw [if_neg (by omega)]
    · refine ⟨_, hlt, ?_⟩
      generalize min (m.sv - 1) (d.numKeys - 1) = v at *
      constructor
      · rintro ⟨p1, e, p2⟩ ⟨hp, x, hreq⟩
        have hmem : (v, x) ∈ assignments (p1 ++ e :: p2) :=
          List.mem_filterMap.2 ⟨e, by simp, hreq⟩
        obtain ⟨-, hx, -⟩ := assign_edge wf hp hmem
        exact (arrayMin_le _ _ x hx).trans ((g4 x).le (p1, e, p2) ⟨hp, hreq⟩)
      · rcases arrayMin_attained d.numValues mm with h | ⟨x, hx, h⟩
        · exact .inl h
        · rcases (g4 x).attained with h' | ⟨y, ⟨hp, hr⟩, h'⟩
          · left; rw [h, h']
          · right; exact ⟨y, ⟨hp, x, hr⟩, by rw [h, h']⟩

/-! ## Extraction -/

theorem bestStep_fold (m : Memo) (L : List (Nat × PackedEdge))
    (b0 : (Nat × PackedEdge) × Cost × Nat) :
    let c := fun o : Nat × PackedEdge => A.add (A.add (m.suffixTable o.2.dest) o.2.cost) (o.2.penalty m.pen)
    let r := L.foldl (Rounded.bestStep A m) b0
    r.2.1 ≤ b0.2.1 ∧ (∀ o ∈ L, r.2.1 ≤ c o)
      ∧ (r = b0 ∨ (r.1 ∈ L ∧ r.2.1 = c r.1 ∧ r.2.2 = r.1.2.dest ∧ r.2.1 < b0.2.1)) := by
  induction L generalizing b0 with
  | nil => simp
  | cons o L ih =>
    simp only [List.foldl_cons]
    obtain ⟨h1, h2, h3⟩ := ih (Rounded.bestStep A m b0 o)
    have hs : (Rounded.bestStep A m b0 o).2.1 ≤ b0.2.1
        ∧ (Rounded.bestStep A m b0 o).2.1 ≤ A.add (A.add (m.suffixTable o.2.dest) o.2.cost) (o.2.penalty m.pen)
        ∧ (Rounded.bestStep A m b0 o = b0 ∨ ((Rounded.bestStep A m b0 o).1 = o
          ∧ (Rounded.bestStep A m b0 o).2.1 = A.add (A.add (m.suffixTable o.2.dest) o.2.cost) (o.2.penalty m.pen)
          ∧ (Rounded.bestStep A m b0 o).2.2 = o.2.dest ∧ (Rounded.bestStep A m b0 o).2.1 < b0.2.1)) := by
      unfold Rounded.bestStep
      dsimp only
      split
      · rename_i h
        exact ⟨le_of_lt h, le_refl _, .inr ⟨rfl, rfl, rfl, h⟩⟩
      · rename_i h
        exact ⟨le_refl _, not_lt.1 h, .inl rfl⟩
    obtain ⟨s1, s2, s3⟩ := hs
    refine ⟨h1.trans s1, ?_, ?_⟩
    · intro o' ho'
      rcases List.mem_cons.1 ho' with rfl | ho'
      · exact h1.trans s2
      · exact h2 o' ho'
    · rcases h3 with h3 | ⟨g1, g2, g3, g4⟩
      · rw [h3]
        rcases s3 with s3 | ⟨t1, t2, t3, t4⟩
        · exact .inl s3
        · right
          refine ⟨by rw [t1]; simp, by rw [t2, t1], by rw [t3, t1], t4⟩
      · right
        exact ⟨List.mem_cons_of_mem _ g1, g2, g3, lt_of_lt_of_le g4 s1⟩


theorem extractLoop_spec {d : PackedDag} (wf : PackedWF d) {m : Memo} (hm : MemoInv A d m)
    (hsv : m.sv = 0) (fuel s : Nat) (hs : s < d.numStates)
    (hfuel : ∀ b p, PackedWalk d s b p → p.length < fuel) (hfin : fullSuffix A d m.pen s < ⊤) :
    ∃ p, Rounded.extractLoop A m fuel s = some p ∧ Indexed d p
      ∧ PackedWalk d s (d.numStates - 1) (p.map Prod.snd)
      ∧ backwardCost A m.pen (p.map Prod.snd) = fullSuffix A d m.pen s := by
  induction fuel generalizing s with
  | zero => exact absurd (hfuel s [] (.nil s)) (by simp)
  | succ fuel ih =>
    have hsuf : ∀ s, s < d.numStates → m.suffixTable s = fullSuffix A d m.pen s := by
      intro s hs
      exact hm.suf s (by rw [hsv, wf.sb_zero]; omega) hs
    unfold Rounded.extractLoop
    rw [hm.dag]
    by_cases hlast : s < d.numStates - 1
    · rw [if_pos hlast]
      -- an optimal walk from `s`
      rcases (fullSuffix_min A wf m.pen s).attained with h | ⟨q, hq, hqc⟩
      · rw [h] at hfin; exact absurd hfin (lt_irrefl _)
      · cases q with
        | nil =>
          have := Walk.nil_iff.1 hq
          omega
        | cons e q =>
          obtain ⟨he, hse, hq'⟩ := Walk.cons_iff.1 hq
          obtain ⟨k, hk⟩ := List.getElem?_of_mem he
          have hout : (k, e) ∈ d.outgoing s := mem_outgoing.2 ⟨hk, hse.symm⟩
          have hdest : ∀ o ∈ d.outgoing s, o.2.dest < d.numStates ∧ o.2 ∈ d.edges
              ∧ o.2.source = s ∧ d.edges[o.1]? = some o.2 := by
            rintro ⟨k', e'⟩ ho
            obtain ⟨g1, g2⟩ := mem_outgoing.1 ho
            have hm' := List.mem_of_getElem? g1
            exact ⟨(edge_tag_mono wf hm').2.2.2, hm', g2, g1⟩
          generalize hol : d.outgoing s = ol at *
          cases ol with
          | nil => simp at hout
          | cons o os =>
            simp only
            obtain ⟨b1, b2, b3⟩ := bestStep_fold A m (o :: os) (o, ⊤, d.numStates)
            dsimp only at b1 b2 b3
            generalize (o :: os).foldl (Rounded.bestStep A m) (o, ⊤, d.numStates) = best at *
            have hle : best.2.1 ≤ fullSuffix A d m.pen s := by
              refine (b2 _ hout).trans ?_
              rw [hsuf _ (hdest _ hout).1, ← hqc, backwardCost_cons]
              exact px_mono A m.pen e _ _ ((fullSuffix_min A wf m.pen e.dest).le q hq')
            rcases b3 with rfl | ⟨g1, g2, g3, g4⟩
            · exact absurd (lt_of_le_of_lt hle hfin) (lt_irrefl _)
            · obtain ⟨d1, d2, d3, d4⟩ := hdest _ g1
              have g2' : best.2.1 = px A m.pen best.1.2 (fullSuffix A d m.pen best.1.2.dest) := by
                rw [g2, hsuf _ d1]; rfl
              have hge : fullSuffix A d m.pen s ≤ best.2.1 := by
                rw [g2']
                rcases (fullSuffix_min A wf m.pen best.1.2.dest).attained with h | ⟨r, hr, hrc⟩
                · rw [h, px_top]; exact le_top
                · have := (fullSuffix_min A wf m.pen s).le (best.1.2 :: r)
                    (Walk.cons_iff.2 ⟨d2, d3.symm, hr⟩)
                  rwa [backwardCost_cons, hrc] at this
              have heq : best.2.1 = fullSuffix A d m.pen s := le_antisymm hle hge
              have hfin' : fullSuffix A d m.pen best.2.2 < ⊤ := by
                rw [lt_top_iff_ne_top] at hfin ⊢
                intro hc
                rw [g3] at hc
                rw [← heq, g2', hc, px_top] at hfin
                exact hfin rfl
              obtain ⟨p, p1, p2, p3, p4⟩ := ih best.2.2 (by rw [g3]; exact d1) (by
                intro b p hp
                rw [g3] at hp
                have := hfuel b (best.1.2 :: p) (Walk.cons_iff.2 ⟨d2, d3.symm, hp⟩)
                simpa using this) hfin'
              refine ⟨best.1 :: p, by rw [p1]; rfl, ?_, ?_, ?_⟩
              · intro o' ho'
                rcases List.mem_cons.1 ho' with rfl | ho'
                · exact d4
                · exact p2 o' ho'
              · rw [List.map_cons, PackedWalk, Walk.cons_iff, ← g3]
                exact ⟨d2, d3.symm, p3⟩
              · rw [List.map_cons, backwardCost_cons, p4, ← heq, g2', g3]
    · rw [if_neg hlast]
      have hsN : s = d.numStates - 1 := by omega
      subst hsN
      refine ⟨[], rfl, by simp [Indexed], .nil _, ?_⟩
      refine IsMinimum.unique ?_ (fullSuffix_min A wf m.pen _)
      constructor
      · intro p hp
        have := closed_walk_nil wf.topo hp
        subst this
        exact le_refl _
      · exact .inr ⟨[], .nil _, rfl⟩

theorem extractPath_spec {d : PackedDag} (wf : PackedWF d) {m : Memo} (hm : MemoInv A d m)
    (hfin : ∃ p, Complete d p ∧ backwardCost A m.pen p < ⊤) :
    ∃ m' p, extractPath A m = some (m', p, assignments (p.map Prod.snd)) ∧ MemoInv A d m'
      ∧ m'.pen = m.pen ∧ Indexed d p ∧ Complete d (p.map Prod.snd)
      ∧ IsMinimum (Complete d) (backwardCost A m.pen) (backwardCost A m.pen (p.map Prod.snd)) := by
  obtain ⟨j1, j2, j3, j4, j5⟩ := updateSuffixes_inv A wf hm (τ := 0) (by omega)
  have hmin := fullSuffix_min A wf m.pen 0
  obtain ⟨p0, hp0, hp0c⟩ := hfin
  have hfin' : fullSuffix A d (updateSuffixes A m 0).pen 0 < ⊤ := by
    rw [j3]; exact lt_of_le_of_lt (hmin.le p0 hp0) hp0c
  obtain ⟨p, h1, h2, h3, h4⟩ := extractLoop_spec A wf j1 (by omega) (d.edges.length + 1) 0
    (start_lt wf) (by
      intro b p hp
      have := (walk_sublist wf.topo hp).length_le
      omega) hfin'
  refine ⟨updateSuffixes A m 0, p, ?_, j1, j3, h2, h3, ?_⟩
  · simp only [Rounded.extractPath, j1.dag, h1, Option.map_some]
    simp [assignments, List.filterMap_map, Function.comp_def]
  · rw [j3] at h4
    rw [h4]
    exact hmin

theorem extractPath_inv {d : PackedDag} (wf : PackedWF d) {m m' : Memo} (hm : MemoInv A d m) {r}
    (h : extractPath A m = some (m', r)) : MemoInv A d m' ∧ m'.pen = m.pen := by
  obtain ⟨j1, j2, j3, j4, j5⟩ := updateSuffixes_inv A wf hm (τ := 0) (by omega)
  simp only [Rounded.extractPath] at h
  cases hl : Rounded.extractLoop A (updateSuffixes A m 0)
      ((updateSuffixes A m 0).dag.edges.length + 1) 0 with
  | none => rw [hl] at h; simp at h
  | some p =>
    rw [hl] at h
    simp only [Option.map_some, Option.some.injEq, Prod.mk.injEq] at h
    rw [← h.1]
    exact ⟨j1, j3⟩

/-! ## Histories -/

theorem op_inv {d : PackedDag} (wf : PackedWF d) {m : Memo} (hm : MemoInv A d m) (op : MemoOp) :
    MemoInv A d (runRounded A m op) := by
  cases op with
  | setPenalties v p =>
    simp only [runRounded, hm.dag]
    split
    · exact setPenalties_inv A wf hm (by assumption) p
    · exact hm
  | updatePrefixes τ =>
    simp only [runRounded, hm.dag]
    split
    · exact (updatePrefixes_inv A wf hm (by assumption)).1
    · exact hm
  | updateSuffixes τ =>
    simp only [runRounded, hm.dag]
    split
    · exact (updateSuffixes_inv A wf hm (by assumption)).1
    · exact hm
  | makeFullyValid => exact (makeFullyValid_inv A wf hm).1
  | minMarginals v =>
    simp only [runRounded]
    by_cases hv : v < d.numKeys
    · obtain ⟨m', mm, h1, h2, -⟩ := minMarginals_spec A wf hm hv
      rw [h1]; exact h2
    · simp [Rounded.minMarginals, hm.dag, hv]; exact hm
  | allMinMarginals => exact (allMinMarginals_spec A wf hm).1
  | minimalCost s =>
    simp only [runRounded]
    by_cases hs : s = .fromMiddle → 0 < d.numKeys
    · obtain ⟨m', c, h1, h2, -⟩ := minimalCost_spec A wf hm s hs
      rw [h1]; exact h2
    · push Not at hs
      obtain ⟨rfl, h0⟩ := hs
      have h0 : d.numKeys = 0 := by omega
      simp [Rounded.minimalCost, hm.dag, h0]; exact hm
  | extractPath =>
    simp only [runRounded]
    cases h : extractPath A m with
    | none => exact hm
    | some r => exact (extractPath_inv A wf hm (m' := r.1) (r := r.2) h).1

theorem op_pen {d : PackedDag} (wf : PackedWF d) {m : Memo} (hm : MemoInv A d m) (op : MemoOp) :
    (runRounded A m op).pen = match op with
      | .setPenalties v p =>
        if v < d.numKeys then fun k => if k = v then p else m.pen k else m.pen
      | _ => m.pen := by
  cases op with
  | setPenalties v p =>
    simp only [runRounded, hm.dag]
    split <;> rfl
  | updatePrefixes τ =>
    simp only [runRounded, hm.dag]
    split
    · exact (updatePrefixes_inv A wf hm (by assumption)).2.2.1
    · rfl
  | updateSuffixes τ =>
    simp only [runRounded, hm.dag]
    split
    · exact (updateSuffixes_inv A wf hm (by assumption)).2.2.1
    · rfl
  | makeFullyValid => exact (makeFullyValid_inv A wf hm).2.1
  | minMarginals v =>
    simp only [runRounded]
    by_cases hv : v < d.numKeys
    · obtain ⟨m', mm, h1, h2, h3, -⟩ := minMarginals_spec A wf hm hv
      rw [h1]; exact h3
    · simp [Rounded.minMarginals, hm.dag, hv]
  | allMinMarginals => exact (allMinMarginals_spec A wf hm).2.1
  | minimalCost s =>
    simp only [runRounded]
    by_cases hs : s = .fromMiddle → 0 < d.numKeys
    · obtain ⟨m', c, h1, h2, h3, -⟩ := minimalCost_spec A wf hm s hs
      rw [h1]; exact h3
    · push Not at hs
      obtain ⟨rfl, h0⟩ := hs
      have h0 : d.numKeys = 0 := by omega
      simp [Rounded.minimalCost, hm.dag, h0]
  | extractPath =>
    simp only [runRounded]
    cases h : extractPath A m with
    | none => rfl
    | some r => exact (extractPath_inv A wf hm (m' := r.1) (r := r.2) h).2

theorem roundedAfter_inv {d : PackedDag} (wf : PackedWF d) (invalid : Cost) (pen : Penalties)
    (hist : List MemoOp) :
    MemoInv A d (roundedAfter A invalid d pen hist)
      ∧ (roundedAfter A invalid d pen hist).pen = penaltiesAfter d pen hist := by
  unfold roundedAfter penaltiesAfter
  suffices H : ∀ (hist : List MemoOp) (m : Memo), MemoInv A d m →
      MemoInv A d (hist.foldl (runRounded A) m) ∧ (hist.foldl (runRounded A) m).pen = hist.foldl
        (fun pen op => match op with
          | .setPenalties v p => if v < d.numKeys then fun k => if k = v then p else pen k else pen
          | _ => pen) m.pen from
    H hist _ (emptyTable_inv A wf invalid pen)
  intro hist
  induction hist with
  | nil => intro m hm; exact ⟨hm, rfl⟩
  | cons op hist ih =>
    intro m hm
    obtain ⟨h1, h2⟩ := ih _ (op_inv A wf hm op)
    refine ⟨h1, ?_⟩
    simp only [List.foldl_cons]
    rw [h2, op_pen A wf hm op]


end RUSure.Lemmas.Rnd
