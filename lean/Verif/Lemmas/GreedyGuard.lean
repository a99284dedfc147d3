import Verif.Lemmas.DualSolve
import Verif.Lemmas.DualMake

/-!
# Greedy extraction from systems where one subproblem decides what is feasible
-/

namespace RUSure.Lemmas
open RUSure RUSure.Spec

/-- A subproblem with all variables, every path of which can be completed to a joint solution. -/
structure Guards (S0 : System) (w : View) : Prop where
  total : ∀ u < S0.numKeys, ∃ k, w.index u = some k
  extends_ : ∀ (b : Nat → Nat) (p : List PackedEdge), (∀ u < S0.numKeys, b u < S0.numValues) →
    Complete w.dag p → weight PackedEdge.cost p < ⊤ →
    (∀ u k x, w.index u = some k → (k, x) ∈ assignments p → x = b u) →
    ∃ paths, Joint S0 b paths ∧ jointCost S0 b paths < ⊤

/-- The choices made so far belong to a joint solution of finite cost. -/
def Extendable (S0 : System) (done : Nat → Prop) (a : Nat → Nat) : Prop :=
  ∃ b paths, (∀ u, done u → b u = a u) ∧ Joint S0 b paths ∧ jointCost S0 b paths < ⊤

theorem pathCost_weight {pen : Penalties} {p : List PackedEdge} (h : pathCost pen p < ⊤) :
    weight PackedEdge.cost p < ⊤ := by
  rw [pathCost_split] at h
  exact (WithTop.add_lt_top.1 h).1

theorem guard_step {S0 S S' : System} {done : Nat → Prop} {a : Nat → Nat} {v : Nat}
    {mm : Nat → Cost} (h : GreedyInv S0 S done a) (hv : v < S0.numKeys)
    (hm : S.minMarginals v = some (S', mm)) (hV : S.numValues ≠ 0) (hd : ¬ done v)
    {w0 : View} (hw0 : w0 ∈ views S0) (hg : Guards S0 w0)
    (he : Extendable S0 done a) :
    Extendable S0 (fun u => u = v ∨ done u) (fun u => if u = v then argMin S.numValues mm else a u) := by
  obtain ⟨b, paths, hb, hj, hfin⟩ := he
  obtain ⟨-, -, -, -, -, i6⟩ := h.inv.minMarginals hm
  obtain ⟨c1, c2, -⟩ := argMin_spec (Nat.pos_of_ne_zero hV) mm
  generalize argMin S.numValues mm = c at *
  have hjs : VJoint S.numKeys S.numValues (views S) b paths := by
    rw [h.keys, h.values]
    exact vjoint_same h.dags ((joint_iff _ _ _).1 hj)
  have hcs : vCost S.numKeys S.extra b paths = jointCost S0 b paths := by
    unfold vCost jointCost
    rw [h.keys]
    congr 2
    apply List.map_congr_left
    intro u _
    by_cases hdu : done u
    · rw [hb u hdu]; exact h.chosen u hdu
    · rw [h.other u hdu]
  have hbv : b v < S.numValues := by rw [h.values]; exact hj.values v hv
  have hmb : mm (b v) < ⊤ := by
    rw [i6]
    refine lt_of_le_of_lt (h.inv.inv.marg_le hjs v) ?_
    rw [hcs]; exact hfin
  have hmc : mm c < ⊤ := lt_of_le_of_lt (c2 _ hbv) hmb
  -- the guard in the current system
  have hmem : (w0.dag, w0.index) ∈ (views S).map fun w => (w.dag, w.index) := by
    rw [h.dags]; exact List.mem_map.2 ⟨w0, hw0, rfl⟩
  obtain ⟨w, hw, hwe⟩ := List.mem_map.1 hmem
  simp only [Prod.mk.injEq] at hwe
  obtain ⟨hwd, hwi⟩ := hwe
  have hok := h.inv.inv.ok w hw
  rw [i6, sum_lt_top, List.forall_mem_map] at hmc
  have hwm := hmc w hw
  obtain ⟨k, hk⟩ := hg.total v hv
  rw [← hwi] at hk
  unfold View.marg at hwm
  rw [hk] at hwm
  dsimp only at hwm
  rcases (margOf_min hok.wf w.pen (hok.lt v k hk).2 c).attained with h' | ⟨p, hp, hpc⟩
  · rw [h'] at hwm; simp at hwm
  rw [← hpc] at hwm
  -- the values of the path
  have hval : ∀ u, ∃ x, u < S0.numKeys → (x < S0.numValues ∧
      ∀ k, w.index u = some k → (k, x) ∈ assignments p) := by
    intro u
    by_cases hu : u < S0.numKeys
    · obtain ⟨ku, hku⟩ := hg.total u hu
      rw [← hwi] at hku
      obtain ⟨x, hx, hmx⟩ := complete_value hok.wf hp.1 (hok.lt u ku hku).2
      refine ⟨x, fun _ => ⟨?_, ?_⟩⟩
      · rw [← h.values, ← hok.values]; exact hx
      · intro k' hk'
        rw [hku] at hk'
        obtain rfl := Option.some.inj hk'
        exact hmx
    · exact ⟨0, fun hc => absurd hc hu⟩
  choose b' hb' using hval
  have hcons : ∀ u k x, w.index u = some k → (k, x) ∈ assignments p → x = b' u := by
    intro u k x hk hx
    have hu : u < S0.numKeys := by rw [← h.keys]; exact (hok.lt u k hk).1
    exact complete_unique hok.wf hp.1 hx ((hb' u hu).2 k hk)
  obtain ⟨paths', hj', hf'⟩ := hg.extends_ b' p (fun u hu => (hb' u hu).1) (by rw [← hwd]; exact hp.1)
    (pathCost_weight hwm) (by rw [← hwi]; exact hcons)
  refine ⟨fun u => if u < S0.numKeys then b' u else if u = v then c else a u, paths', ?_, ?_, ?_⟩
  · intro u hu
    dsimp only
    split
    · rename_i hlt
      obtain ⟨ku, hku⟩ := hg.total u hlt
      rw [← hwi] at hku
      have hmx := (hb' u hlt).2 ku hku
      by_cases huv : u = v
      · subst huv
        rw [if_pos rfl]
        rw [hk] at hku
        obtain rfl := Option.some.inj hku
        exact complete_unique hok.wf hp.1 hmx hp.2
      · rw [if_neg huv]
        by_contra hne
        have := h.pens u (hu.resolve_left huv) w hw ku hku (b' u) hne
        rw [pathCost_lt_top] at hwm
        have h1 := hwm.2 _ hmx
        rw [this] at h1
        simp at h1
    · rfl
  · refine ⟨?_, ?_⟩
    · intro u hu
      rw [if_pos hu]
      exact (hb' u hu).1
    · have hp2 := hj'.paths
      have hlt : ∀ s ∈ S0.subs, ∀ u k, s.index u = some k → u < S0.numKeys := by
        intro s hs u k hsk
        have : (s.view.dag, s.view.index) ∈ (views S).map fun w => (w.dag, w.index) := by
          rw [h.dags]; exact List.mem_map.2 ⟨s.view, List.mem_map.2 ⟨s, hs, rfl⟩, rfl⟩
        obtain ⟨w', hw', he'⟩ := List.mem_map.1 this
        simp only [Prod.mk.injEq] at he'
        have hi : w'.index u = some k := by rw [he'.2]; exact hsk
        rw [← h.keys]
        exact ((h.inv.inv.ok w' hw').lt u k hi).1
      clear hj' hf' hj
      generalize S0.subs = ss at hp2 hlt
      induction hp2 with
      | nil => exact .nil
      | @cons s q ss qs h1 _ ih =>
        refine .cons ⟨h1.1, ?_⟩ (ih fun s' hs' => hlt s' (List.mem_cons_of_mem _ hs'))
        intro u k x hk hx
        rw [if_pos (hlt s (by simp) u k hk)]
        exact h1.2 u k x hk hx
  · refine lt_of_eq_of_lt ?_ hf'
    unfold jointCost
    congr 2
    apply List.map_congr_left
    intro u hu
    have hu : u < S0.numKeys := by simpa using hu
    simp only [hu, ↓reduceIte]

theorem guard_loop {S0 : System} {w0 : View} (hw0 : w0 ∈ views S0) (hg : Guards S0 w0) :
    ∀ (vs : List Nat) (S : System) (done : Nat → Prop)
    (a : Nat → Nat) (c : Option Cost) (S' : System) (a' : Nat → Nat) (c' : Option Cost),
    GreedyInv S0 S done a → vs.Nodup → (∀ v ∈ vs, v < S0.numKeys ∧ ¬ done v) →
    Extendable S0 done a → greedyLoop vs S a c = some (S', a', c') →
    Extendable S0 (fun u => u ∈ vs ∨ done u) a' := by
  intro vs
  induction vs with
  | nil =>
    intro S done a c S' a' c' h _ _ hext he
    simp only [greedyLoop, Option.some.injEq, Prod.mk.injEq] at he
    obtain ⟨rfl, rfl, rfl⟩ := he
    simpa using hext
  | cons v vs ih =>
    intro S done a c S' a' c' h hnd hvs hext he
    obtain ⟨hv, hdv⟩ := hvs v (by simp)
    rw [List.nodup_cons] at hnd
    unfold greedyLoop at he
    cases hm : S.minMarginals v with
    | none => rw [hm] at he; cases he
    | some r =>
      obtain ⟨S1, mm⟩ := r
      rw [hm] at he
      dsimp only at he
      by_cases hV : S.numValues = 0
      · rw [if_pos hV] at he; cases he
      · rw [if_neg hV] at he
        have h1 := greedy_step h hv hdv hm hV
        have h2 := ih _ _ _ _ _ _ _ h1 hnd.2 (by
          intro u hu
          refine ⟨(hvs u (List.mem_cons_of_mem _ hu)).1, ?_⟩
          rintro (rfl | hd)
          · exact hnd.1 hu
          · exact (hvs u (List.mem_cons_of_mem _ hu)).2 hd)
          (guard_step h hv hm hV hdv hw0 hg hext) he
        obtain ⟨b, paths, g1, g2⟩ := h2
        refine ⟨b, paths, ?_, g2⟩
        rintro u (hu | hu)
        · rcases List.mem_cons.1 hu with rfl | hu
          · exact g1 u (.inr (.inl rfl))
          · exact g1 u (.inl hu)
        · exact g1 u (.inr (.inr hu))

end RUSure.Lemmas
