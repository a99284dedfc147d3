import Verif.Lemmas.RoundedError
import Verif.Model.Float64
import Verif.Props.PackedDag
import Mathlib.Data.Rat.Floor

/-!
# C67: the shortest path tables in machine arithmetic
-/

namespace RUSure.Props
open RUSure RUSure.Spec RUSure.Lemmas RUSure.Rounded

/-- C67: with exact addition the functions are those of the exact model, to which C29-C33 refer. -/
theorem C67_exact :
    Rounded.updatePrefixes exact = Memo.updatePrefixes
    ∧ Rounded.updateSuffixes exact = Memo.updateSuffixes
    ∧ Rounded.makeFullyValid exact = Memo.makeFullyValid
    ∧ Rounded.minMarginals exact = Memo.minMarginals
    ∧ Rounded.allMinMarginals exact = Memo.allMinMarginals
    ∧ Rounded.minimalCost exact = Memo.minimalCost
    ∧ Rounded.extractPath exact = Memo.extractPath
    ∧ (∀ invalid d, Rounded.constrainedBestPath exact invalid d = d.constrainedBestPath invalid)
    ∧ ∀ pen p, forwardCost exact pen p = pathCost pen p
        ∧ backwardCost exact pen p = pathCost pen p := by
  have hloop : ∀ (m : Memo) (fuel s : Nat),
      Rounded.extractLoop exact m fuel s = RUSure.extractLoop m fuel s := by
    intro m fuel
    induction fuel with
    | zero => intro s; rfl
    | succ fuel ih =>
      intro s
      unfold Rounded.extractLoop RUSure.extractLoop
      simp only [ih]
      rfl
  have hext : Rounded.extractPath exact = Memo.extractPath := by
    funext m
    unfold Rounded.extractPath Memo.extractPath
    simp only [hloop]
    rfl
  refine ⟨rfl, rfl, rfl, rfl, rfl, rfl, hext, ?_, ?_⟩
  · intro invalid d
    funext cs
    unfold Rounded.constrainedBestPath PackedDag.constrainedBestPath
    rw [hext]
  · intro pen p
    have hsum : ∀ l : List Cost, Rnd.machineSum exact l = l.sum := by
      intro l
      rw [List.sum_eq_foldl]; rfl
    constructor
    · rw [Rnd.forward_summands, hsum, Rnd.pathCost_summands]
    · rw [Rnd.backward_summands, hsum, Rnd.pathCost_summands]
      apply List.Perm.sum_eq
      unfold summands
      exact List.Perm.flatMap_right _ (List.reverse_perm p)

/-- C67: in any machine arithmetic, after any history of operations, whatever is reported as a valid
prefix cost of a state is the least machine cost, added up from the start, of the paths from the start
to the state under the current penalties. -/
theorem C67_prefixes (A : Machine) (d : PackedDag) (wf : PackedWF d) (invalid : Cost)
    (pen : Penalties) (history : List MemoOp) (s : Nat) (c : Cost)
    (h : (roundedAfter A invalid d pen history).maskedPrefixes s = some c) :
    IsMinimum (fun p => PackedWalk d 0 s p) (forwardCost A (penaltiesAfter d pen history)) c := by
  obtain ⟨hm, hp⟩ := Rnd.roundedAfter_inv A wf invalid pen history
  unfold Memo.maskedPrefixes at h
  rw [hm.dag] at h
  split at h
  · split at h
    · simp at h
    · rename_i hs
      rw [hm.pre s (by omega), Option.some.injEq] at h
      rw [← h, ← hp]
      exact Rnd.fullPrefix_min A wf _ s
  · simp at h

/-- C67: the same for suffix costs, added up from the end. -/
theorem C67_suffixes (A : Machine) (d : PackedDag) (wf : PackedWF d) (invalid : Cost)
    (pen : Penalties) (history : List MemoOp) (s : Nat) (c : Cost)
    (h : (roundedAfter A invalid d pen history).maskedSuffixes s = some c) :
    IsMinimum (fun p => PackedWalk d s (d.numStates - 1) p)
      (backwardCost A (penaltiesAfter d pen history)) c := by
  obtain ⟨hm, hp⟩ := Rnd.roundedAfter_inv A wf invalid pen history
  unfold Memo.maskedSuffixes at h
  rw [hm.dag] at h
  split at h
  · split at h
    · simp at h
    · rw [hm.suf s (by omega) (by assumption), Option.some.injEq] at h
      rw [← h, ← hp]
      exact Rnd.fullSuffix_min A wf _ s
  · simp at h

/-- C67: rounding errors do not accumulate over a history: two histories that end with the same
penalties report exactly the same numbers wherever both report one. -/
theorem C67_no_drift (A : Machine) (d : PackedDag) (wf : PackedWF d) (invalid invalid' : Cost)
    (pen pen' : Penalties) (history history' : List MemoOp)
    (heq : penaltiesAfter d pen history = penaltiesAfter d pen' history') (s : Nat) (c c' : Cost) :
    ((roundedAfter A invalid d pen history).maskedPrefixes s = some c →
      (roundedAfter A invalid' d pen' history').maskedPrefixes s = some c' → c = c')
    ∧ ((roundedAfter A invalid d pen history).maskedSuffixes s = some c →
      (roundedAfter A invalid' d pen' history').maskedSuffixes s = some c' → c = c') := by
  constructor
  · intro h h'
    have h1 := C67_prefixes A d wf invalid pen history s c h
    have h2 := C67_prefixes A d wf invalid' pen' history' s c' h'
    rw [heq] at h1
    exact IsMinimum.unique h1 h2
  · intro h h'
    have h1 := C67_suffixes A d wf invalid pen history s c h
    have h2 := C67_suffixes A d wf invalid' pen' history' s c' h'
    rw [heq] at h1
    exact IsMinimum.unique h1 h2

/-- C67: the min-marginal of a variable and value is the least machine cost of the complete paths
which make this assignment, added up from both ends to the assigning edge. -/
theorem C67_min_marginals (A : Machine) (d : PackedDag) (wf : PackedWF d) (invalid : Cost)
    (pen : Penalties) (history : List MemoOp) (v : Nat) (hv : v < d.numKeys) :
    (∃ m' mm, Rounded.minMarginals A (roundedAfter A invalid d pen history) v = some (m', mm) ∧
      ∀ x, IsMinimum (fun y : List PackedEdge × PackedEdge × List PackedEdge =>
          Complete d (y.1 ++ y.2.1 :: y.2.2) ∧ y.2.1.req = some (v, x))
        (fun y => middleCost A (penaltiesAfter d pen history) y.1 y.2.1 y.2.2) (mm x))
    ∧ ∀ x, ∃ c, (Rounded.allMinMarginals A (roundedAfter A invalid d pen history)).2 v x = some c
      ∧ IsMinimum (fun y : List PackedEdge × PackedEdge × List PackedEdge =>
          Complete d (y.1 ++ y.2.1 :: y.2.2) ∧ y.2.1.req = some (v, x))
        (fun y => middleCost A (penaltiesAfter d pen history) y.1 y.2.1 y.2.2) c := by
  obtain ⟨hm, hp⟩ := Rnd.roundedAfter_inv A wf invalid pen history
  rw [← hp]
  obtain ⟨m', mm, h1, -, -, h4⟩ := Rnd.minMarginals_spec A wf hm hv
  exact ⟨⟨m', mm, h1, h4⟩, (Rnd.allMinMarginals_spec A wf hm).2.2 v hv⟩

/-- C67: what the three strategies for the minimal cost compute in machine arithmetic. -/
theorem C67_minimal_cost (A : Machine) (d : PackedDag) (wf : PackedWF d) (invalid : Cost)
    (pen : Penalties) (history : List MemoOp) (s : Strategy)
    (hs : s = .fromMiddle → 0 < d.numKeys) :
    ∃ m' c, Rounded.minimalCost A (roundedAfter A invalid d pen history) s = some (m', c)
      ∧ StrategyCost A d (penaltiesAfter d pen history) c s := by
  obtain ⟨hm, hp⟩ := Rnd.roundedAfter_inv A wf invalid pen history
  obtain ⟨m', c, h1, -, -, h4⟩ := Rnd.minimalCost_spec A wf hm s hs
  exact ⟨m', c, h1, by rw [← hp]; exact h4⟩

/-- C67: if some complete path has finite machine cost, extraction succeeds in any machine arithmetic:
it returns a complete path (by edge indices) with exactly the assignments it makes, and no complete
path has a smaller machine cost. -/
theorem C67_extract (A : Machine) (d : PackedDag) (wf : PackedWF d) (invalid : Cost)
    (pen : Penalties) (history : List MemoOp)
    (hfin : ∃ p, Complete d p ∧ backwardCost A (penaltiesAfter d pen history) p < ⊤) :
    ∃ m' p, Rounded.extractPath A (roundedAfter A invalid d pen history)
        = some (m', p, assignments (p.map Prod.snd))
      ∧ (∀ o ∈ p, d.edges[o.1]? = some o.2)
      ∧ Complete d (p.map Prod.snd)
      ∧ ∀ q, Complete d q → backwardCost A (penaltiesAfter d pen history) (p.map Prod.snd)
          ≤ backwardCost A (penaltiesAfter d pen history) q := by
  obtain ⟨hm, hp⟩ := Rnd.roundedAfter_inv A wf invalid pen history
  rw [← hp] at hfin ⊢
  obtain ⟨m', p, h1, -, -, h4, h5, h6⟩ := Rnd.extractPath_spec A wf hm hfin
  exact ⟨m', p, h1, h4, h5, h6.le⟩

/-- C67: the constrained best path in machine arithmetic agrees with the constraints whenever some
complete path of finite machine cost does, and is then cheapest in machine cost among those. -/
theorem C67_constrained (A : Machine) (d : PackedDag) (wf : PackedWF d) (invalid : Cost)
    (constraints : List (Nat × Nat)) (hnd : (constraints.map Prod.fst).Nodup)
    (hk : ∀ kv ∈ constraints, kv.1 < d.numKeys)
    (hex : ∃ q, Complete d q ∧ (∀ kv ∈ constraints, kv ∈ assignments q)
      ∧ backwardCost A (fun _ _ => 0) q < ⊤) :
    ∃ p asg, Rounded.constrainedBestPath A invalid d constraints = some (p, asg)
      ∧ (∀ o ∈ p, d.edges[o.1]? = some o.2)
      ∧ Complete d (p.map Prod.snd) ∧ asg = assignments (p.map Prod.snd)
      ∧ (∀ kv ∈ constraints, kv ∈ asg)
      ∧ ∀ q, Complete d q → (∀ kv ∈ constraints, kv ∈ assignments q) →
          backwardCost A (fun _ _ => 0) (p.map Prod.snd) ≤ backwardCost A (fun _ _ => 0) q := by
  obtain ⟨hm, hp⟩ := Rnd.constraint_memo A wf invalid constraints hk
  unfold Rounded.constrainedBestPath
  dsimp only
  generalize constraints.foldl
    (fun (m : Memo) kv => m.setPenalties kv.1 (setEntry (fun _ => ⊤) kv.2 0))
    (emptyUnpenalizedTable invalid d) = m at *
  obtain ⟨q, hq, hqc, hqf⟩ := hex
  have hcost := Rnd.constraint_cost A wf constraints hnd hk
  obtain ⟨m', p, h1, -, -, h4, h5, h6⟩ := Rnd.extractPath_spec A wf hm
    ⟨q, hq, by rw [hp, (hcost q hq).1 hqc]; exact hqf⟩
  rw [h1, hp] at *
  have hob : ∀ kv ∈ constraints, kv ∈ assignments (p.map Prod.snd) := by
    by_contra hc
    have h7 := (hcost _ h5).2 hc
    have h8 := h6.le q hq
    rw [h7, (hcost q hq).1 hqc] at h8
    exact absurd (lt_of_le_of_lt h8 hqf) (lt_irrefl _)
  refine ⟨p, _, rfl, h4, h5, rfl, hob, ?_⟩
  intro q' hq' hc'
  have := h6.le q' hq'
  rwa [(hcost _ h5).1 hob, (hcost q' hq').1 hc'] at this

/-- C67: the machine cost of a path, in either direction, differs from its exact cost by at most
`(1+u)^(2n) - 1` times the total size of the numbers added, as long as sums stay in range. -/
theorem C67_path_error (A : Machine) (F : ℚ → Prop) (u limit : ℚ)
    (hA : Accurate A F u limit) (hu : 0 ≤ u)
    (pen : Penalties) (p : List PackedEdge) (t : ℚ) (ht : TotalSize F pen p t)
    (hl : (1 + u) ^ (2 * p.length) * t ≤ limit) :
    ∃ x f b : ℚ, pathCost pen p = x ∧ forwardCost A pen p = f ∧ backwardCost A pen p = b
      ∧ |f - x| ≤ ((1 + u) ^ (2 * p.length) - 1) * t
      ∧ |b - x| ≤ ((1 + u) ^ (2 * p.length) - 1) * t := by
  obtain ⟨x, f, b, h1, h2, h3, h4, h5, -⟩ := Rnd.path_error hA hu ht hl
  exact ⟨x, f, b, h1, h2, h3, h4, h5⟩

/-- C67: the minimal cost that any strategy reports after any history is the exact minimal cost up to
that error; it is infinite exactly if the exact one is. -/
theorem C67_minimal_cost_error (A : Machine) (F : ℚ → Prop) (u limit : ℚ)
    (hA : Accurate A F u limit) (hu : 0 ≤ u)
    (d : PackedDag) (wf : PackedWF d) (invalid : Cost) (pen : Penalties) (history : List MemoOp)
    (n : Nat) (T : ℚ) (hr : InRange F d (penaltiesAfter d pen history) n T)
    (hl : (1 + u) ^ (2 * n + 1) * T ≤ limit) (s : Strategy) (hs : s = .fromMiddle → 0 < d.numKeys)
    (c : Cost) (hc : IsMinimum (Complete d) (pathCost (penaltiesAfter d pen history)) c) :
    ∃ m' c', Rounded.minimalCost A (roundedAfter A invalid d pen history) s = some (m', c')
      ∧ ((c = ⊤ ∧ c' = ⊤)
        ∨ ∃ x y : ℚ, c = x ∧ c' = y ∧ |y - x| ≤ ((1 + u) ^ (2 * n + 1) - 1) * T) := by
  obtain ⟨m', c', h1, h2⟩ := C67_minimal_cost A d wf invalid pen history s hs
  refine ⟨m', c', h1, ?_⟩
  generalize penaltiesAfter d pen history = pen' at *
  have hP := Rnd.one_le_pow_u hu (2 * n)
  have hle := Rnd.pow_mono hu (show 2 * n ≤ 2 * n + 1 by omega)
  have hmem : ∀ p, Complete d p → Rnd.Members F pen' p :=
    fun p hp e he => hr.member e (Rnd.complete_mem hp e he)
  have hboth : ∀ p t, Complete d p → TotalSize F pen' p t → ∃ x f b : ℚ, pathCost pen' p = x
      ∧ forwardCost A pen' p = f ∧ backwardCost A pen' p = b
      ∧ |f - x| ≤ ((1 + u) ^ (2 * n + 1) - 1) * T ∧ |b - x| ≤ ((1 + u) ^ (2 * n + 1) - 1) * T := by
    intro p t hp ht
    have h0 := Rnd.size_nonneg ht
    have hT := hr.total p hp t ht
    have q1 : (1 + u) ^ (2 * n) * t ≤ (1 + u) ^ (2 * n + 1) * T :=
      mul_le_mul hle hT h0 (by linarith)
    have q2 : ((1 + u) ^ (2 * n) - 1) * t ≤ ((1 + u) ^ (2 * n + 1) - 1) * T :=
      mul_le_mul (by linarith) hT h0 (by linarith)
    obtain ⟨x, f, b, g1, g2, g3, g4, g5, -⟩ := Rnd.path_error_le hA hu ht (hr.length p hp)
      (q1.trans hl)
    exact ⟨x, f, b, g1, g2, g3, g4.trans q2, g5.trans q2⟩
  cases s with
  | atStart =>
    refine Rnd.min_close hc h2 ?_ ?_
    · intro p hp hf
      obtain ⟨t, ht⟩ := Rnd.size_of_pathCost (hmem p hp) hf
      obtain ⟨x, f, b, g1, g2, g3, g4, g5⟩ := hboth p t hp ht
      exact ⟨p, hp, x, b, g1, g3, g5⟩
    · intro p hp hf
      obtain ⟨t, ht⟩ := Rnd.size_of_backward (hmem p hp) hf
      obtain ⟨x, f, b, g1, g2, g3, g4, g5⟩ := hboth p t hp ht
      exact ⟨p, hp, x, b, g1, g3, g5⟩
  | atEnd =>
    refine Rnd.min_close hc h2 ?_ ?_
    · intro p hp hf
      obtain ⟨t, ht⟩ := Rnd.size_of_pathCost (hmem p hp) hf
      obtain ⟨x, f, b, g1, g2, g3, g4, g5⟩ := hboth p t hp ht
      exact ⟨p, hp, x, f, g1, g2, g4⟩
    · intro p hp hf
      obtain ⟨t, ht⟩ := Rnd.size_of_forward (hmem p hp) hf
      obtain ⟨x, f, b, g1, g2, g3, g4, g5⟩ := hboth p t hp ht
      exact ⟨p, hp, x, f, g1, g2, g4⟩
  | fromMiddle =>
    obtain ⟨v, hv, h2⟩ := h2
    have hmid : ∀ (p q : List PackedEdge) (e : PackedEdge) (t : ℚ), Complete d (p ++ e :: q) →
        TotalSize F pen' (p ++ e :: q) t → ∃ x r : ℚ, pathCost pen' (p ++ e :: q) = x
          ∧ middleCost A pen' p e q = r ∧ |r - x| ≤ ((1 + u) ^ (2 * n + 1) - 1) * T := by
      intro p q e t hp ht
      have hT := hr.total _ hp t ht
      have h0 := Rnd.size_nonneg ht
      have q1 : (1 + u) ^ (2 * n + 1) * t ≤ (1 + u) ^ (2 * n + 1) * T :=
        mul_le_mul_of_nonneg_left hT (by linarith)
      have q2 : ((1 + u) ^ (2 * n + 1) - 1) * t ≤ ((1 + u) ^ (2 * n + 1) - 1) * T :=
        mul_le_mul_of_nonneg_left hT (by linarith)
      obtain ⟨x, r, g1, g2, g3⟩ := Rnd.middle_error hA hu ht (hr.length _ hp) (q1.trans hl)
      exact ⟨x, r, g1, g2, g3.trans q2⟩
    refine Rnd.min_close hc h2 ?_ ?_
    · intro p hp hf
      obtain ⟨t, ht⟩ := Rnd.size_of_pathCost (hmem p hp) hf
      have hkeys := complete_keys wf hp
      have hmem : v ∈ (assignments p).map Prod.fst := by rw [hkeys]; simpa using hv
      obtain ⟨⟨k, x⟩, hx, rfl⟩ := List.mem_map.1 hmem
      obtain ⟨e, he, hreq⟩ := List.mem_filterMap.1 hx
      obtain ⟨p1, p2, rfl⟩ := List.append_of_mem he
      obtain ⟨z, r, g1, g2, g3⟩ := hmid p1 p2 e t hp ht
      exact ⟨(p1, e, p2), ⟨hp, x, hreq⟩, z, r, g1, g2, g3⟩
    · rintro ⟨p1, e, p2⟩ ⟨hp, x, hreq⟩ hf
      obtain ⟨t, ht⟩ := Rnd.size_of_middle (hmem _ hp) hf
      obtain ⟨z, r, g1, g2, g3⟩ := hmid p1 p2 e t hp ht
      exact ⟨_, hp, z, r, g1, g2, g3⟩

/-- C67: the extracted path is cheapest in exact arithmetic up to twice that error. -/
theorem C67_extract_error (A : Machine) (F : ℚ → Prop) (u limit : ℚ)
    (hA : Accurate A F u limit) (hu : 0 ≤ u)
    (d : PackedDag) (wf : PackedWF d) (invalid : Cost) (pen : Penalties) (history : List MemoOp)
    (n : Nat) (T : ℚ) (hr : InRange F d (penaltiesAfter d pen history) n T)
    (hl : (1 + u) ^ (2 * n) * T ≤ limit)
    (hfin : ∃ p, Complete d p ∧ pathCost (penaltiesAfter d pen history) p < ⊤) :
    ∃ m' p, ∃ x : ℚ, Rounded.extractPath A (roundedAfter A invalid d pen history)
        = some (m', p, assignments (p.map Prod.snd))
      ∧ Complete d (p.map Prod.snd)
      ∧ pathCost (penaltiesAfter d pen history) (p.map Prod.snd) = x
      ∧ ∀ q, Complete d q → ∀ y : ℚ, pathCost (penaltiesAfter d pen history) q = y →
          x ≤ y + 2 * (((1 + u) ^ (2 * n) - 1) * T) := by
  have hP := Rnd.one_le_pow_u hu (2 * n)
  have hmem : ∀ p, Complete d p → Rnd.Members F (penaltiesAfter d pen history) p :=
    fun p hp e he => hr.member e (Rnd.complete_mem hp e he)
  have hboth : ∀ p t, Complete d p → TotalSize F (penaltiesAfter d pen history) p t →
      ∃ x b : ℚ, pathCost (penaltiesAfter d pen history) p = x
      ∧ backwardCost A (penaltiesAfter d pen history) p = b
      ∧ |b - x| ≤ ((1 + u) ^ (2 * n) - 1) * T := by
    intro p t hp ht
    have h0 := Rnd.size_nonneg ht
    have hT := hr.total p hp t ht
    have q1 : (1 + u) ^ (2 * n) * t ≤ (1 + u) ^ (2 * n) * T :=
      mul_le_mul_of_nonneg_left hT (by linarith)
    have q2 : ((1 + u) ^ (2 * n) - 1) * t ≤ ((1 + u) ^ (2 * n) - 1) * T :=
      mul_le_mul_of_nonneg_left hT (by linarith)
    obtain ⟨x, f, b, g1, g2, g3, g4, g5, -⟩ := Rnd.path_error_le hA hu ht (hr.length p hp)
      (q1.trans hl)
    exact ⟨x, b, g1, g3, g5.trans q2⟩
  obtain ⟨p0, hp0, hf0⟩ := hfin
  obtain ⟨t0, ht0⟩ := Rnd.size_of_pathCost (hmem p0 hp0) hf0
  obtain ⟨x0, b0, k1, k2, k3⟩ := hboth p0 t0 hp0 ht0
  obtain ⟨m', p, h1, -, h3, h4⟩ := C67_extract A d wf invalid pen history
    ⟨p0, hp0, by rw [k2]; exact WithTop.coe_lt_top _⟩
  have hpf : backwardCost A (penaltiesAfter d pen history) (p.map Prod.snd) < ⊤ := by
    refine lt_of_le_of_lt (h4 p0 hp0) ?_
    rw [k2]; exact WithTop.coe_lt_top _
  obtain ⟨t, ht⟩ := Rnd.size_of_backward (hmem _ h3) hpf
  obtain ⟨x, b, g1, g2, g3⟩ := hboth _ t h3 ht
  refine ⟨m', p, x, h1, h3, g1, ?_⟩
  intro q hq y hy
  obtain ⟨t', ht'⟩ := Rnd.size_of_pathCost (hmem q hq) (show pathCost (penaltiesAfter d pen history) q < ⊤ by
    rw [hy]; exact WithTop.coe_lt_top _)
  obtain ⟨y', b', e1, e2, e3⟩ := hboth q t' hq ht'
  have hyy : y = y' := by
    rw [hy] at e1; exact WithTop.coe_inj.1 e1
  subst hyy
  have := h4 q hq
  rw [g2, e2] at this
  have hbb : b ≤ b' := WithTop.coe_le_coe.1 this
  rw [abs_le] at g3 e3
  linarith [g3.1, g3.2, e3.1, e3.2]

/-- C67: the hypothesis of the error bounds holds for `float64` with `u = 2⁻⁵³`. -/
theorem C67_float64 : Accurate float64 IsFloat64 (1 / 2 ^ 53) (2 ^ 1023) := by
  refine ⟨⟨0, 0, by norm_num, by norm_num, by simp⟩, ?_⟩
  intro a c ha hc hl
  -- the sum is a multiple of the smallest float
  have hmul : ∀ x, IsFloat64 x → ∃ k : ℤ, x = k * 2 ^ (-1074 : ℤ) := by
    rintro x ⟨m, e, -, he, rfl⟩
    refine ⟨m * 2 ^ (e + 1074).toNat, ?_⟩
    have : (2 : ℚ) ^ e = 2 ^ (e + 1074).toNat * 2 ^ (-1074 : ℤ) := by
      rw [← zpow_natCast, Int.toNat_of_nonneg (by omega), ← zpow_add₀ (by norm_num),
        show e + 1074 + -1074 = e by omega]
    rw [this]
    push_cast
    rw [mul_assoc]
  obtain ⟨k, hk⟩ := hmul a ha
  obtain ⟨k', hk'⟩ := hmul c hc
  -- rounding numbers that are not negative
  have key : ∀ s : ℚ, 0 ≤ s → (∃ k : ℤ, s = k * 2 ^ (-1074 : ℤ)) →
      |roundPos s - s| ≤ 1 / 2 ^ 53 * s
      ∧ ∃ m e : ℤ, |m| ≤ 2 ^ 53 ∧ -1074 ≤ e ∧ roundPos s = m * 2 ^ e := by
    intro s hs ⟨k, hk⟩
    rcases hs.eq_or_lt with rfl | hs
    · rw [roundPos_zero]
      exact ⟨by simp, 0, 0, by norm_num, by norm_num, by simp⟩
    · have hpos := two_zpow_pos (lastPlace s)
      refine ⟨?_, roundEven (s / 2 ^ lastPlace s), lastPlace s, ?_, by unfold lastPlace; omega, rfl⟩
      · by_cases hm : -1074 < lastPlace s
        · have h1 := lastPlace_le hs hm
          have h2 := roundEven_error (s / 2 ^ lastPlace s)
          have e1 : roundPos s - s
              = ((roundEven (s / 2 ^ lastPlace s) : ℚ) - s / 2 ^ lastPlace s) * 2 ^ lastPlace s := by
            unfold roundPos
            rw [sub_mul, div_mul_cancel₀ _ hpos.ne']
          rw [e1, abs_mul, abs_of_pos hpos]
          rw [add_comm, zpow_add₀ (by norm_num)] at h1
          have h3 := mul_le_mul_of_nonneg_right h2 hpos.le
          refine h3.trans ?_
          norm_num at h1 ⊢
          linarith
        · have hm' : lastPlace s = -1074 := by unfold lastPlace at *; omega
          have e1 : roundPos s = s := by
            unfold roundPos
            rw [hm', hk, mul_div_assoc, div_self (two_zpow_pos _).ne', mul_one, roundEven_int]
          rw [e1, sub_self, abs_zero]
          exact mul_nonneg (by norm_num) hs.le
      · have h0 : (0 : ℤ) ≤ roundEven (s / 2 ^ lastPlace s) := by
          rw [← roundEven_int 0]
          apply roundEven_mono
          push_cast
          exact div_nonneg hs.le hpos.le
        rw [abs_of_nonneg h0, ← roundEven_int (2 ^ 53)]
        apply roundEven_mono
        rw [div_le_iff₀ hpos]
        have := (lt_lastPlace s).le
        rw [add_comm, zpow_add₀ (by norm_num)] at this
        exact_mod_cast this
  have hsum : a + c = ((k + k' : ℤ) : ℚ) * 2 ^ (-1074 : ℤ) := by
    rw [hk, hk', Int.cast_add, add_mul]
  have hbig : round64 (a + c) < 2 ^ 1024 := by
    have h1 : round64 (a + c) ≤ round64 (2 ^ 1023) := round64_mono ((le_abs_self _).trans hl)
    have h2 : round64 (2 ^ 1023) = 2 ^ 1023 := by
      have hlog : Int.log 2 ((2 : ℚ) ^ 1023) = 1023 := by
        have := Int.log_zpow (R := ℚ) (b := 2) (by norm_num) 1023
        exact_mod_cast this
      unfold round64
      rw [if_pos (by norm_num)]
      unfold roundPos
      have hlp : lastPlace (2 ^ 1023) = 971 := by unfold lastPlace; rw [hlog]; rfl
      rw [hlp]
      have e1 : (2 : ℚ) ^ (971 : ℤ) = 2 ^ (971 : ℕ) := zpow_natCast 2 971
      have e0 : (2 : ℚ) ^ 1023 = ((2 ^ 52 : ℤ) : ℚ) * 2 ^ (971 : ℕ) := by
        rw [Int.cast_pow, Int.cast_ofNat, ← pow_add]
      have hp : (0 : ℚ) < 2 ^ (971 : ℕ) := pow_pos (by norm_num) _
      rw [e1, e0, mul_div_assoc, div_self hp.ne', mul_one, roundEven_int]
    rw [h2] at h1
    exact lt_of_le_of_lt h1 (pow_lt_pow_right₀ (by norm_num) (by omega))
  have hadd : float64.add (a : Cost) (c : Cost) = ((round64 (a + c) : ℚ) : Cost) := by
    change (if round64 (a + c) < 2 ^ 1024 then ((round64 (a + c) : ℚ) : Cost) else ⊤) = _
    rw [if_pos hbig]
  refine ⟨round64 (a + c), ?_, hadd, ?_⟩
  · unfold round64
    split <;> rename_i hn
    · obtain ⟨-, m, e, h1, h2, h3⟩ := key (a + c) hn ⟨_, hsum⟩
      exact ⟨m, e, h1, h2, h3⟩
    · push Not at hn
      obtain ⟨-, m, e, h1, h2, h3⟩ := key (-(a + c)) (by linarith)
        ⟨-(k + k'), by rw [hsum, Int.cast_neg, neg_mul]⟩
      exact ⟨-m, e, by rw [abs_neg]; exact h1, h2, by rw [h3]; push_cast; ring⟩
  · unfold round64
    split <;> rename_i hn
    · rw [abs_of_nonneg hn]
      exact (key (a + c) hn ⟨_, hsum⟩).1
    · push Not at hn
      have := (key (-(a + c)) (by linarith) ⟨-(k + k'), by rw [hsum, Int.cast_neg, neg_mul]⟩).1
      rw [abs_of_neg hn]
      rw [show - roundPos (-(a + c)) - (a + c) = -(roundPos (-(a + c)) - -(a + c)) by ring, abs_neg]
      exact this

/-! ## Concrete cases -/

/-- One path, with costs one, one and `2^53`. -/
def roundPacked : PackedDag where
  numStates := 4
  numKeys := 1
  numValues := 1
  edges := [⟨0, 1, 1, none⟩, ⟨1, 2, 1, some (0, 0)⟩,
    ⟨2, 3, ((9007199254740992 : ℚ) : Cost), none⟩]
  edgeBounds := [0, 1, 2, 3]
  stateBounds := [0, 2, 4]

theorem roundPacked_wf : PackedWF roundPacked := by
  have heb : ∀ i, roundPacked.eb i = [0, 1, 2, 3].getD i 0 := fun _ => rfl
  have hsb : ∀ i, roundPacked.sb i = [0, 2, 4].getD i 0 := fun _ => rfl
  have hk : roundPacked.numKeys = 1 := rfl
  refine ⟨rfl, rfl, ?_, rfl, rfl, ?_, ?_, ?_, ?_, ?_, ?_⟩
  · intro i hi
    rw [hk] at hi
    rcases (by omega : i = 0 ∨ i = 1) with rfl | rfl <;> decide
  · intro i hi
    rw [hk] at hi
    rcases (by omega : i = 0 ∨ i = 1 ∨ i = 2) with rfl | rfl | rfl <;> decide
  · intro τ hτ k e h1 h2 h3
    rw [hk] at hτ
    rcases (by omega : τ = 0 ∨ τ = 1) with rfl | rfl
    · have : k = 0 := by simp [heb] at h1 h2; omega
      subst this
      simp only [roundPacked, List.getElem?_cons_zero, Option.some.injEq] at h3
      subst h3
      simp [HasTag, hsb]
    · have : k = 2 := by simp [heb] at h1 h2; omega
      subst this
      simp only [roundPacked, List.getElem?_cons_succ, List.getElem?_cons_zero,
        Option.some.injEq] at h3
      subst h3
      simp [HasTag, hsb]
  · intro v hv k e h1 h2 h3
    rw [hk] at hv
    have : v = 0 := by omega
    subst this
    have : k = 1 := by simp [heb] at h1 h2; omega
    subst this
    simp only [roundPacked, List.getElem?_cons_succ, List.getElem?_cons_zero,
      Option.some.injEq] at h3
    subst h3
    simp [HasTag, roundPacked, PackedDag.sb]
  · constructor
    · simp [TopoWeak, roundPacked]
    · simp [roundPacked]
  · simp [HasTag, hsb]
  · simp [HasTag, roundPacked, PackedDag.sb]

theorem roundPacked_complete (p : List PackedEdge) :
    Complete roundPacked p ↔ p = roundPacked.edges := by
  constructor
  · intro h
    rw [Complete, PackedWalk] at h
    cases p with
    | nil => rw [Walk.nil_iff] at h; simp [roundPacked] at h
    | cons a p =>
    rw [Walk.cons_iff] at h
    obtain ⟨ha, hs, h⟩ := h
    simp only [roundPacked, List.mem_cons, List.not_mem_nil, or_false] at ha
    rcases ha with rfl | rfl | rfl <;> simp only at hs
    · cases p with
      | nil => rw [Walk.nil_iff] at h; simp [roundPacked] at h
      | cons b p =>
      rw [Walk.cons_iff] at h
      obtain ⟨hb, hs, h⟩ := h
      simp only [roundPacked, List.mem_cons, List.not_mem_nil, or_false] at hb
      rcases hb with rfl | rfl | rfl <;> simp at hs
      cases p with
      | nil => rw [Walk.nil_iff] at h; simp [roundPacked] at h
      | cons c p =>
      rw [Walk.cons_iff] at h
      obtain ⟨hc, hs, h⟩ := h
      simp only [roundPacked, List.mem_cons, List.not_mem_nil, or_false] at hc
      rcases hc with rfl | rfl | rfl <;> simp at hs
      cases p with
      | nil => rfl
      | cons c p =>
      rw [Walk.cons_iff] at h
      obtain ⟨hc, hs, h⟩ := h
      simp only [roundPacked, List.mem_cons, List.not_mem_nil, or_false] at hc
      rcases hc with rfl | rfl | rfl <;> simp at hs
    · simp at hs
    · simp at hs
  · rintro rfl
    rw [Complete, PackedWalk, roundPacked]
    simp only [Walk.cons_iff, Walk.nil_iff]
    simp

theorem roundPacked_range : InRange IsFloat64 roundPacked (fun _ _ => 0) 3 9007199254740994 := by
  have h0 : IsFloat64 0 := ⟨0, 0, by norm_num, by norm_num, by norm_num⟩
  have h1 : IsFloat64 1 := ⟨1, 0, by norm_num, by norm_num, by norm_num⟩
  have h2 : IsFloat64 9007199254740992 := ⟨1, 53, by norm_num, by norm_num, by norm_num⟩
  refine ⟨?_, ?_, ?_⟩
  · intro e he x hx
    simp only [roundPacked, List.mem_cons, List.not_mem_nil, or_false] at he
    rcases he with rfl | rfl | rfl <;> rcases hx with hx | hx
    · rw [← WithTop.coe_inj.1 (show ((1 : ℚ) : Cost) = x from hx)]; exact h1
    · rw [← WithTop.coe_inj.1 (show ((0 : ℚ) : Cost) = x from hx)]; exact h0
    · rw [← WithTop.coe_inj.1 (show ((1 : ℚ) : Cost) = x from hx)]; exact h1
    · rw [← WithTop.coe_inj.1 (show ((0 : ℚ) : Cost) = x from hx)]; exact h0
    · rw [← WithTop.coe_inj.1 hx]; exact h2
    · rw [← WithTop.coe_inj.1 (show ((0 : ℚ) : Cost) = x from hx)]; exact h0
  · intro p hp
    rw [(roundPacked_complete p).1 hp]
    exact le_refl 3
  · intro p hp t ht
    rw [(roundPacked_complete p).1 hp] at ht
    obtain ⟨l, g1, -, rfl⟩ := ht
    have : l = [1, 0, 1, 0, 9007199254740992, 0] := by
      apply List.map_injective_iff.2 (fun x y h => WithTop.coe_inj.1 h)
      exact g1.symm
    rw [this]
    norm_num

theorem roundPacked_finite : ∃ p, Complete roundPacked p ∧ pathCost (fun _ _ => 0) p < ⊤ := by
  refine ⟨_, (roundPacked_complete _).2 rfl, ?_⟩
  rw [show pathCost (fun _ _ => 0) roundPacked.edges = ((9007199254740994 : ℚ) : Cost) by
    decide +kernel]
  exact WithTop.coe_lt_top _

/-- The hypotheses of the error bounds are met by `float64` and a DAG on which it rounds. -/
example : Accurate float64 IsFloat64 (1 / 2 ^ 53) (2 ^ 1023) ∧ PackedWF roundPacked
    ∧ InRange IsFloat64 roundPacked (penaltiesAfter roundPacked (fun _ _ => 0) []) 3
        9007199254740994
    ∧ (1 + 1 / 2 ^ 53 : ℚ) ^ (2 * 3 + 1) * 9007199254740994 ≤ 2 ^ 1023
    ∧ ∃ p, Complete roundPacked p
      ∧ pathCost (penaltiesAfter roundPacked (fun _ _ => 0) []) p < ⊤ := by
  refine ⟨C67_float64, roundPacked_wf, roundPacked_range, ?_, roundPacked_finite⟩
  refine le_trans ?_ (pow_le_pow_right₀ (by norm_num : (1 : ℚ) ≤ 2) (by omega : 60 ≤ 1023))
  norm_num

/-- The hypothesis of `C67_constrained` is met, too, with a constraint. -/
example : ∃ q, Complete roundPacked q ∧ (∀ kv ∈ [(0, 0)], kv ∈ assignments q)
    ∧ backwardCost float64 (fun _ _ => 0) q < ⊤ := by
  refine ⟨_, (roundPacked_complete _).2 rfl, by decide, ?_⟩
  rw [show backwardCost float64 (fun _ _ => 0) roundPacked.edges
    = ((9007199254740992 : ℚ) : Cost) by decide +kernel]
  exact WithTop.coe_lt_top _

/-- C67: the agreement of the three strategies (C31) is lost in machine arithmetic: on this DAG two of
them return different numbers with `float64`. -/
theorem C67_strategies_differ :
    (Rounded.minimalCost float64 (roundedAfter float64 ⊤ roundPacked (fun _ _ => 0) [])
        .atStart).map Prod.snd = some ((9007199254740992 : ℚ) : Cost)
    ∧ (Rounded.minimalCost float64 (roundedAfter float64 ⊤ roundPacked (fun _ _ => 0) [])
        .atEnd).map Prod.snd = some ((9007199254740994 : ℚ) : Cost) := by
  decide +kernel

end RUSure.Props
