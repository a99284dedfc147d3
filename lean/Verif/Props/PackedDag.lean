import Verif.Lemmas.PackedMore

/-!
# C27, C29-C34: packed DAGs, shortest path tables, min-marginals and path extraction
-/

namespace RUSure.Props
open RUSure RUSure.Spec RUSure.Lemmas

/-- C27: every complete path of a well-formed packed DAG assigns every variable exactly once, in
order. -/
theorem C27_each_variable_once (d : PackedDag) (wf : PackedWF d) (p : List PackedEdge)
    (hp : Complete d p) : (assignments p).map Prod.fst = List.range d.numKeys :=
  complete_keys wf hp

/-- C29: after any history of operations, whatever is reported as a valid prefix cost of a state is
the minimum penalised cost of the paths from the start to it under the current penalties. -/
theorem C29_prefixes (d : PackedDag) (wf : PackedWF d) (invalid : Cost) (pen : Penalties)
    (history : List MemoOp) (s : Nat) (c : Cost)
    (h : (memoAfter invalid d pen history).maskedPrefixes s = some c) :
    IsMinimum (fun p => PackedWalk d 0 s p) (pathCost (penaltiesAfter d pen history)) c := by
  obtain ⟨hm, hp⟩ := memoAfter_inv wf invalid pen history
  unfold Memo.maskedPrefixes at h
  rw [hm.dag] at h
  split at h
  · split at h
    · simp at h
    · rename_i hs
      rw [hm.pre s (by omega), Option.some.injEq] at h
      rw [← h, ← hp]
      exact fullPrefix_min wf _ s
  · simp at h

/-- C29: the same for suffix costs: the minimum over paths from the state to the final state. -/
theorem C29_suffixes (d : PackedDag) (wf : PackedWF d) (invalid : Cost) (pen : Penalties)
    (history : List MemoOp) (s : Nat) (c : Cost)
    (h : (memoAfter invalid d pen history).maskedSuffixes s = some c) :
    IsMinimum (fun p => PackedWalk d s (d.numStates - 1) p)
      (pathCost (penaltiesAfter d pen history)) c := by
  obtain ⟨hm, hp⟩ := memoAfter_inv wf invalid pen history
  unfold Memo.maskedSuffixes at h
  rw [hm.dag] at h
  split at h
  · split at h
    · simp at h
    · rw [hm.suf s (by omega) (by assumption), Option.some.injEq] at h
      rw [← h, ← hp]
      exact fullSuffix_min wf _ s
  · simp at h

/-- C29: asking for a prefix or suffix tag makes (at least) the states up to (from) that tag valid,
and making the table fully valid makes every state valid. -/
theorem C29_becomes_valid (d : PackedDag) (wf : PackedWF d) (invalid : Cost) (pen : Penalties)
    (history : List MemoOp) :
    (∀ τ ≤ d.numKeys, ∀ s < d.sb (τ + 1),
      ((memoAfter invalid d pen (history ++ [.updatePrefixes τ])).maskedPrefixes s).isSome)
    ∧ (∀ τ ≤ d.numKeys, ∀ s, d.sb τ ≤ s → s < d.numStates →
      ((memoAfter invalid d pen (history ++ [.updateSuffixes τ])).maskedSuffixes s).isSome)
    ∧ (∀ s < d.numStates,
      ((memoAfter invalid d pen (history ++ [.makeFullyValid])).maskedPrefixes s).isSome
      ∧ ((memoAfter invalid d pen (history ++ [.makeFullyValid])).maskedSuffixes s).isSome) := by
  obtain ⟨hm, -⟩ := memoAfter_inv wf invalid pen history
  have happ : ∀ op, memoAfter invalid d pen (history ++ [op])
      = op.run (memoAfter invalid d pen history) := by
    intro op; simp [memoAfter, List.foldl_append]
  simp only [happ]
  generalize memoAfter invalid d pen history = m at *
  refine ⟨?_, ?_, ?_⟩
  · intro τ hτ s hs
    obtain ⟨i1, i2, -⟩ := updatePrefixes_inv wf hm hτ
    have hlt := lt_of_lt_of_le hs (sb_le wf i2 i1.pv_le)
    have hN : s < d.numStates := by
      rw [← wf.sb_last]; exact lt_of_lt_of_le hs (sb_le wf (by omega) (le_refl _))
    simp only [MemoOp.run, hm.dag, hτ, ↓reduceIte, Memo.maskedPrefixes, i1.dag, hN]
    rw [if_neg (by omega)]
    rfl
  · intro τ hτ s hs hN
    obtain ⟨i1, i2, -⟩ := updateSuffixes_inv wf hm hτ
    have hle := (sb_le wf i2 (by omega)).trans hs
    simp only [MemoOp.run, hm.dag, hτ, ↓reduceIte, Memo.maskedSuffixes, i1.dag, hN]
    rw [if_neg (by omega)]
    rfl
  · intro s hN
    obtain ⟨i1, -, i3, i4⟩ := makeFullyValid_inv wf hm
    simp only [MemoOp.run, Memo.maskedPrefixes, Memo.maskedSuffixes, i1.dag, hN, ↓reduceIte, i4,
      wf.sb_zero]
    have hpv : m.makeFullyValid.pv = d.numKeys + 1 := by have := i1.pv_le; omega
    rw [hpv, wf.sb_last, if_neg (by omega), if_neg (by omega)]
    exact ⟨rfl, rfl⟩

/-- C30: whatever happened to the memo before, the min-marginal of a variable and value is the
minimum penalised cost of the complete paths which make this assignment. -/
theorem C30_min_marginals (d : PackedDag) (wf : PackedWF d) (invalid : Cost) (pen : Penalties)
    (history : List MemoOp) (v : Nat) (hv : v < d.numKeys) :
    ∃ m' mm, (memoAfter invalid d pen history).minMarginals v = some (m', mm) ∧
      ∀ x, IsMinimum (fun p => Complete d p ∧ (v, x) ∈ assignments p)
        (pathCost (penaltiesAfter d pen history)) (mm x) := by
  obtain ⟨hm, hp⟩ := memoAfter_inv wf invalid pen history
  obtain ⟨m', mm, h1, -, -, h4⟩ := minMarginals_spec wf hm hv
  exact ⟨m', mm, h1, by rw [← hp]; exact h4⟩

/-- C30: the same for the function computing all of them at once. -/
theorem C30_all_min_marginals (d : PackedDag) (wf : PackedWF d) (invalid : Cost) (pen : Penalties)
    (history : List MemoOp) (v : Nat) (hv : v < d.numKeys) (x : Nat) :
    ∃ c, (memoAfter invalid d pen history).allMinMarginals.2 v x = some c
      ∧ IsMinimum (fun p => Complete d p ∧ (v, x) ∈ assignments p)
        (pathCost (penaltiesAfter d pen history)) c := by
  obtain ⟨hm, hp⟩ := memoAfter_inv wf invalid pen history
  obtain ⟨-, -, h⟩ := allMinMarginals_spec wf hm
  rw [← hp]
  exact h v hv x

/-- C31: each strategy returns the minimum penalised cost of a complete path (the strategy working
from the middle needs at least one variable). -/
theorem C31_minimal_cost (d : PackedDag) (wf : PackedWF d) (invalid : Cost) (pen : Penalties)
    (history : List MemoOp) (s : Strategy) (hs : s = .fromMiddle → 0 < d.numKeys) :
    ∃ m' c, (memoAfter invalid d pen history).minimalCost s = some (m', c)
      ∧ IsMinimum (Complete d) (pathCost (penaltiesAfter d pen history)) c := by
  obtain ⟨hm, hp⟩ := memoAfter_inv wf invalid pen history
  obtain ⟨m', c, h1, -, -, h4⟩ := minimalCost_spec wf hm s hs
  exact ⟨m', c, h1, by rw [← hp]; exact h4⟩

/-- C31: so all strategies agree. -/
theorem C31_strategies_agree (d : PackedDag) (wf : PackedWF d) (invalid : Cost) (pen : Penalties)
    (history : List MemoOp) (hn : 0 < d.numKeys) (s s' : Strategy) :
    ((memoAfter invalid d pen history).minimalCost s).map Prod.snd
      = ((memoAfter invalid d pen history).minimalCost s').map Prod.snd := by
  obtain ⟨m, c, h1, h2⟩ := C31_minimal_cost d wf invalid pen history s (fun _ => hn)
  obtain ⟨m', c', h1', h2'⟩ := C31_minimal_cost d wf invalid pen history s' (fun _ => hn)
  rw [h1, h1']
  simp [IsMinimum.unique h2 h2']

/-- C31: without variables the default strategy (from the middle) fails an assertion. -/
theorem C31_from_middle_needs_variable (d : PackedDag) (m : Memo) (hd : m.dag = d)
    (h0 : d.numKeys = 0) : m.minimalCost .fromMiddle = none := by
  simp [Memo.minimalCost, hd, h0]

/-- C32: if some complete path has finite penalised cost, extraction returns a complete path (given
by indices of edges of the DAG) of minimum penalised cost, together with exactly the assignments
that path makes. -/
theorem C32_extract (d : PackedDag) (wf : PackedWF d) (invalid : Cost) (pen : Penalties)
    (history : List MemoOp)
    (hfin : ∃ p, Complete d p ∧ pathCost (penaltiesAfter d pen history) p < ⊤) :
    ∃ m' p, (memoAfter invalid d pen history).extractPath
        = some (m', p, assignments (p.map Prod.snd))
      ∧ (∀ o ∈ p, d.edges[o.1]? = some o.2)
      ∧ Complete d (p.map Prod.snd)
      ∧ ∀ q, Complete d q → pathCost (penaltiesAfter d pen history) (p.map Prod.snd)
          ≤ pathCost (penaltiesAfter d pen history) q := by
  obtain ⟨hm, hp⟩ := memoAfter_inv wf invalid pen history
  rw [← hp] at hfin ⊢
  obtain ⟨m', p, h1, -, -, h4, h5, h6⟩ := extractPath_spec wf hm hfin
  exact ⟨m', p, h1, h4, h5, h6.le⟩

/-- C32: outside its documented precondition (all complete paths have infinite cost) extraction
either fails an assertion or returns a path consisting of one arbitrary edge. -/
theorem C32_infinite (d : PackedDag) (wf : PackedWF d) (invalid : Cost) (pen : Penalties)
    (history : List MemoOp)
    (hinf : ∀ p, Complete d p → pathCost (penaltiesAfter d pen history) p = ⊤) :
    (memoAfter invalid d pen history).extractPath = none
    ∨ ∃ m' o, (memoAfter invalid d pen history).extractPath = some (m', [o], assignments [o.2]) := by
  obtain ⟨hm, hp⟩ := memoAfter_inv wf invalid pen history
  rw [← hp] at hinf
  rcases extractPath_infinite wf hm hinf with h | ⟨m', o, h, -⟩
  · exact .inl h
  · exact .inr ⟨m', o, h⟩

/-- The cost of a path without penalties. -/
def plainCost (p : List PackedEdge) : Cost := weight PackedEdge.cost p

theorem plainCost_eq (p : List PackedEdge) : plainCost p = pathCost (fun _ _ => 0) p := by
  unfold plainCost pathCost
  congr 1
  funext e
  unfold PackedEdge.penalty
  cases e.req <;> simp

/-- C33: if some complete path of finite cost agrees with the constraints, the constrained best path
is such a path (given by indices of edges of the DAG), its reported assignments include the constraints, and it is cheapest among all
complete paths agreeing with the constraints. -/
theorem C33_constrained (d : PackedDag) (wf : PackedWF d) (invalid : Cost)
    (constraints : List (Nat × Nat)) (hnd : (constraints.map Prod.fst).Nodup)
    (hk : ∀ kv ∈ constraints, kv.1 < d.numKeys)
    (hex : ∃ q, Complete d q ∧ (∀ kv ∈ constraints, kv ∈ assignments q) ∧ plainCost q < ⊤) :
    ∃ p asg, d.constrainedBestPath invalid constraints = some (p, asg)
      ∧ (∀ o ∈ p, d.edges[o.1]? = some o.2)
      ∧ Complete d (p.map Prod.snd) ∧ asg = assignments (p.map Prod.snd)
      ∧ (∀ kv ∈ constraints, kv ∈ asg)
      ∧ ∀ q, Complete d q → (∀ kv ∈ constraints, kv ∈ assignments q) →
          plainCost (p.map Prod.snd) ≤ plainCost q := by
  obtain ⟨hm, hp⟩ := constraint_memo wf invalid constraints hk
  unfold PackedDag.constrainedBestPath
  dsimp only
  generalize constraints.foldl
    (fun (m : Memo) kv => m.setPenalties kv.1 (setEntry (fun _ => ⊤) kv.2 0))
    (emptyUnpenalizedTable invalid d) = m at *
  simp only [plainCost_eq] at *
  obtain ⟨q, hq, hqc, hqf⟩ := hex
  have hcost := constraint_cost wf constraints hnd hk
  obtain ⟨m', p, h1, -, -, h4, h5, h6⟩ := extractPath_spec wf hm
    ⟨q, hq, by rw [hp, (hcost q hq).1 hqc]; exact hqf⟩
  rw [h1, hp] at *
  have hob : ∀ kv ∈ constraints, kv ∈ assignments (p.map Prod.snd) := by
    by_contra hc
    have h7 := (hcost _ h5).2 hc
    have h8 := h6.le q hq
    rw [h7, (hcost q hq).1 hqc] at h8
    exact absurd (lt_of_le_of_lt h8 hqf) (lt_irrefl _)
  refine ⟨p, _, rfl, h4, h5, rfl, hob, ?_⟩
  intro q' hq' hc'
  have := h6.le q' hq'
  rwa [(hcost _ h5).1 hob, (hcost q' hq').1 hc'] at this

/-- C33: if no complete path of finite cost agrees with the constraints, the function does not say
so: it fails an assertion or returns a single edge. (The documentation promises that the returned
assignments always include the constraints.) -/
theorem C33_infeasible (d : PackedDag) (wf : PackedWF d) (invalid : Cost)
    (constraints : List (Nat × Nat)) (hnd : (constraints.map Prod.fst).Nodup)
    (hk : ∀ kv ∈ constraints, kv.1 < d.numKeys)
    (hno : ∀ q, Complete d q → (∀ kv ∈ constraints, kv ∈ assignments q) → plainCost q = ⊤) :
    d.constrainedBestPath invalid constraints = none
    ∨ ∃ o, d.constrainedBestPath invalid constraints = some ([o], assignments [o.2]) := by
  obtain ⟨hm, hp⟩ := constraint_memo wf invalid constraints hk
  unfold PackedDag.constrainedBestPath
  dsimp only
  generalize constraints.foldl
    (fun (m : Memo) kv => m.setPenalties kv.1 (setEntry (fun _ => ⊤) kv.2 0))
    (emptyUnpenalizedTable invalid d) = m at *
  simp only [plainCost_eq] at hno
  have hcost := constraint_cost wf constraints hnd hk
  rcases extractPath_infinite wf hm (by
    intro q hq
    rw [hp]
    by_cases hc : ∀ kv ∈ constraints, kv ∈ assignments q
    · rw [(hcost q hq).1 hc]; exact hno q hq hc
    · exact (hcost q hq).2 hc) with h | ⟨m', o, h, -⟩
  · left; rw [h]; rfl
  · right; exact ⟨o, by rw [h]; rfl⟩

/-- C34: scaling by a positive factor maps complete paths one to one to complete paths, with the same
assignments and states, multiplying the (unpenalised) cost of each by the factor; and the DAG stays
well formed. -/
theorem C34_scale_paths (d : PackedDag) (wf : PackedWF d) (c : ℚ) (hc : 0 < c) :
    PackedWF (d.scale c)
    ∧ (d.scale c).numStates = d.numStates ∧ (d.scale c).numKeys = d.numKeys
    ∧ (d.scale c).numValues = d.numValues
    ∧ ∃ f : PackedEdge → PackedEdge, (∀ e e', f e = f e' → e = e')
      ∧ (∀ e, (f e).source = e.source ∧ (f e).dest = e.dest ∧ (f e).req = e.req)
      ∧ (∀ p, Complete d p → Complete (d.scale c) (p.map f))
      ∧ (∀ q, Complete (d.scale c) q → ∃ p, q = p.map f ∧ Complete d p)
      ∧ ∀ p, plainCost (p.map f) = (plainCost p).map (· * c) := by
  refine ⟨scale_wf wf c, rfl, rfl, rfl, scaleEdge c, ?_, fun e => ⟨rfl, rfl, rfl⟩, ?_, ?_, ?_⟩
  · intro e e' h; exact scaleEdge_inj c hc h
  · intro p hp
    exact walk_map (scaleEdge c) (fun _ => rfl) (fun _ => rfl) hp
  · intro q hq
    exact walk_unmap (scaleEdge c) (fun _ => rfl) (fun _ => rfl) hq
  · intro p
    rw [plainCost_eq, plainCost_eq, scale_pathCost]
    rfl

/-- C34: so the minimal cost is multiplied by the factor. -/
theorem C34_scale_minimum (d : PackedDag) (c : ℚ) (hc : 0 < c) (x : Cost) :
    IsMinimum (Complete d) plainCost x ↔
      IsMinimum (Complete (d.scale c)) plainCost (x.map (· * c)) := by
  have hw : ∀ q, Complete (d.scale c) q ↔ ∃ p, q = p.map (scaleEdge c) ∧ Complete d p := by
    intro q
    constructor
    · intro hq
      exact walk_unmap (scaleEdge c) (fun _ => rfl) (fun _ => rfl) hq
    · rintro ⟨p, rfl, hp⟩
      exact walk_map (scaleEdge c) (fun _ => rfl) (fun _ => rfl) hp
  have hcost : ∀ p, plainCost (p.map (scaleEdge c)) = scaleCost c (plainCost p) := by
    intro p
    rw [plainCost_eq, plainCost_eq, scale_pathCost]
  have hinj : ∀ x y : Cost, scaleCost c x = scaleCost c y → x = y := by
    intro x y h
    apply le_antisymm <;> rw [← scaleCost_le c hc, h]
  change _ ↔ IsMinimum _ _ (scaleCost c x)
  constructor
  · rintro ⟨h1, h2⟩
    constructor
    · intro q hq
      obtain ⟨p, rfl, hp⟩ := (hw q).1 hq
      rw [hcost, scaleCost_le c hc]
      exact h1 p hp
    · rcases h2 with rfl | ⟨p, hp, rfl⟩
      · exact .inl rfl
      · exact .inr ⟨_, (hw _).2 ⟨p, rfl, hp⟩, hcost p⟩
  · rintro ⟨h1, h2⟩
    constructor
    · intro p hp
      have := h1 _ ((hw _).2 ⟨p, rfl, hp⟩)
      rwa [hcost, scaleCost_le c hc] at this
    · rcases h2 with h | ⟨q, hq, h⟩
      · left; exact hinj _ _ h
      · obtain ⟨p, rfl, hp⟩ := (hw q).1 hq
        rw [hcost] at h
        exact .inr ⟨p, hp, hinj _ _ h⟩

/-! ## A concrete well-formed packed DAG -/

/-- Two ways to assign one variable, with edges before and after the assignment. -/
def samplePacked : PackedDag where
  numStates := 4
  numKeys := 1
  numValues := 2
  edges := [⟨0, 1, 1, none⟩, ⟨0, 2, 1, some (0, 0)⟩, ⟨1, 3, 2, some (0, 1)⟩, ⟨2, 3, 0, none⟩]
  edgeBounds := [0, 1, 3, 4]
  stateBounds := [0, 2, 4]

theorem samplePacked_wf : PackedWF samplePacked := by
  have heb : ∀ i, samplePacked.eb i = [0, 1, 3, 4].getD i 0 := fun _ => rfl
  have hsb : ∀ i, samplePacked.sb i = [0, 2, 4].getD i 0 := fun _ => rfl
  have hk : samplePacked.numKeys = 1 := rfl
  refine ⟨rfl, rfl, ?_, rfl, rfl, ?_, ?_, ?_, ?_, ?_, ?_⟩
  · intro i hi
    rw [hk] at hi
    rcases (by omega : i = 0 ∨ i = 1) with rfl | rfl <;> decide
  · intro i hi
    rw [hk] at hi
    rcases (by omega : i = 0 ∨ i = 1 ∨ i = 2) with rfl | rfl | rfl <;> decide
  · intro τ hτ k e h1 h2 h3
    rw [hk] at hτ
    rcases (by omega : τ = 0 ∨ τ = 1) with rfl | rfl
    · have : k = 0 := by simp [heb] at h1 h2; omega
      subst this
      simp only [samplePacked, List.getElem?_cons_zero, Option.some.injEq] at h3
      subst h3
      simp [HasTag, hsb]
    · have : k = 3 := by simp [heb] at h1 h2; omega
      subst this
      simp only [samplePacked, List.getElem?_cons_succ, List.getElem?_cons_zero,
        Option.some.injEq] at h3
      subst h3
      simp [HasTag, hsb]
  · intro v hv k e h1 h2 h3
    rw [hk] at hv
    have : v = 0 := by omega
    subst this
    have : k = 1 ∨ k = 2 := by simp [heb] at h1 h2; omega
    rcases this with rfl | rfl
    · simp only [samplePacked, List.getElem?_cons_succ, List.getElem?_cons_zero,
        Option.some.injEq] at h3
      subst h3
      simp [HasTag, samplePacked, PackedDag.sb]
    · simp only [samplePacked, List.getElem?_cons_succ, List.getElem?_cons_zero,
        Option.some.injEq] at h3
      subst h3
      simp [HasTag, samplePacked, PackedDag.sb]
  · constructor
    · simp [TopoWeak, samplePacked]
    · simp [samplePacked]
  · simp [HasTag, hsb]
  · simp [HasTag, samplePacked, PackedDag.sb]

theorem samplePath_cost :
    plainCost [⟨0, 1, 1, none⟩, ⟨1, 3, 2, some (0, 1)⟩] < ⊤ := by
  have : plainCost [⟨0, 1, 1, none⟩, ⟨1, 3, 2, some (0, 1)⟩] = ((1 + 2 : ℚ) : Cost) := by
    simp only [plainCost, weight, List.map_cons, List.map_nil, List.sum_cons, List.sum_nil, add_zero]
    rfl
  rw [this]
  exact WithTop.coe_lt_top _

/-- The hypotheses of `C32_extract` and `C33_constrained` are met by it, with a real constraint. -/
example : ∃ q, Complete samplePacked q ∧ (∀ kv ∈ [(0, 1)], kv ∈ assignments q)
    ∧ plainCost q < ⊤ := by
  refine ⟨[⟨0, 1, 1, none⟩, ⟨1, 3, 2, some (0, 1)⟩], ?_, ?_, ?_⟩
  · rw [Complete, PackedWalk, Walk.cons_iff, Walk.cons_iff, Walk.nil_iff]
    simp [samplePacked]
  · simp [assignments]
  · exact samplePath_cost

example : (samplePacked.constrainedBestPath 7 [(0, 1)]).map Prod.snd = some [(0, 1)] := by
  obtain ⟨p, asg, h1, -, h2, h3, h4, -⟩ := C33_constrained samplePacked samplePacked_wf 7 [(0, 1)]
    (by simp) (by simp [samplePacked]) (by
      refine ⟨[⟨0, 1, 1, none⟩, ⟨1, 3, 2, some (0, 1)⟩], ?_, ?_, ?_⟩
      · rw [Complete, PackedWalk, Walk.cons_iff, Walk.cons_iff, Walk.nil_iff]
        simp [samplePacked]
      · simp [assignments]
      · exact samplePath_cost)
  rw [h1]
  have hlen := C27_each_variable_once samplePacked samplePacked_wf _ h2
  rw [← h3] at hlen
  have hmem := h4 (0, 1) (by simp)
  match asg, hlen, hmem with
  | [a], _, hmem => simpa using (List.mem_singleton.1 hmem).symm
  | [], hlen, _ => simp [samplePacked] at hlen
  | _ :: _ :: _, hlen, _ => simp [samplePacked, List.range_succ] at hlen

end RUSure.Props
