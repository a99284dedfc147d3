import Verif.Lemmas.SystemSolve

/-!
# The systems built from a prototype and targets, with finite penalties for some decisions
-/

namespace RUSure.Lemmas
open RUSure RUSure.Spec RUSure.Props

section
variable {T E S I M : Type} [DecidableEq S]
  {invalid : Cost} {make : T → Except E (Dag S DecisionKey DecisionValue I)}
  {proto : List (Node M)} {l : List (T × ℚ)} {total : ℚ} {B : BuiltSystem S I}
  {D : DualSystem DecisionKey DecisionValue} {pen : (DecisionKey → DecisionValue) → ℚ}

/-- The system has the joint solutions of a built system, and their costs are increased by a penalty that
depends on the decisions. -/
structure Penalised (B : BuiltSystem S I) (pen : (DecisionKey → DecisionValue) → ℚ)
    (D : DualSystem DecisionKey DecisionValue) : Prop where
  reach : SystemReach B.system D
  cost : ∀ a α paths, VectorMeans B.system a α →
    jointCost D.data a paths = jointCost B.system.data a paths + (pen α : Cost)

theorem reach_any {K V : Type} {i j : DecidableEq K} [DecidableEq V] {D D' : DualSystem K V}
    (h : @SystemReach K V i _ D D') : @SystemReach K V j _ D D' := by
  rwa [Subsingleton.elim j i]

theorem constrain_any {K V : Type} {i j : DecidableEq K} [DecidableEq V] {p : Cost} {cs : List (K × V)}
    {D D' : DualSystem K V} (h : @DualSystem.constrain K V i _ p cs D = some D') :
    @DualSystem.constrain K V j _ p cs D = some D' := by
  rwa [Subsingleton.elim j i]

theorem Built.dinv (h : Built invalid make proto l total B) : DInv B.system := by
  obtain ⟨-, -, -, h4, h5, -⟩ := makeSystem_ok h.system
  exact ⟨makeSystem_inv h.system (fun d hd => (h.entries d hd).1) h.weights, h4.symm, h5.symm⟩

theorem Built.kept (h : Built invalid make proto l total B) (hr : SystemReach B.system D) :
    D.keys = seqKeys 0 proto ∧ D.values = allValues ∧ D.data.numKeys = (seqKeys 0 proto).length
    ∧ D.data.numValues = 3 ∧ (views D.data).map (fun w => (w.dag, w.index))
      = (views B.system.data).map fun w => (w.dag, w.index) := by
  obtain ⟨hk, hv, hnk, hnv, -⟩ := h.keys
  obtain ⟨s1, s2, s3, s4, s5⟩ := reach_same h.dinv hr
  exact ⟨s1.trans hk, s2.trans hv, s3.trans hnk, s4.trans hnv, s5⟩

theorem Built.means (h : Built invalid make proto l total B) (hr : SystemReach B.system D) {a : Nat → Nat}
    {α : DecisionKey → DecisionValue} : VectorMeans D a α ↔ VectorMeans B.system a α := by
  obtain ⟨s1, s2, -⟩ := reach_same h.dinv hr
  unfold VectorMeans
  rw [s1, s2]

theorem Built.joint_iff (h : Built invalid make proto l total B) (hr : SystemReach B.system D)
    {a : Nat → Nat} {paths : List (List PackedEdge)} :
    Joint D.data a paths ↔ Joint B.system.data a paths := by
  obtain ⟨-, -, r3, r4, r5⟩ := reach_same h.dinv hr
  rw [Lemmas.joint_iff, Lemmas.joint_iff, r3, r4]
  exact ⟨vjoint_same r5.symm, vjoint_same r5⟩

/-- Solving does not change the penalties. -/
theorem Penalised.solve (h : Built invalid make proto l total B) (hp : Penalised B pen D) {tol : ℚ}
    {late : Nat → Bool} {fuel : Nat} {st : SweepState} (he : D.data.solve tol late fuel = .ok st) :
    Penalised B pen { D with data := st.system } := by
  refine ⟨.solve hp.reach he, fun a α paths hα => ?_⟩
  rw [← hp.cost a α paths hα]
  have := (solve_inv (built_inv h.system (fun d hd => (h.entries d hd).1) h.weights (reach_any hp.reach)).sys he).1.same
  unfold jointCost
  rw [this.keys, this.extra]

/-- The penalties of constraints. -/
theorem Penalised.constrain (h : Built invalid make proto l total B) {p : ℚ}
    {cs : List (DecisionKey × DecisionValue)} (hk : ∀ c ∈ cs, c.1 ∈ seqKeys 0 proto)
    (he : DualSystem.constrain (p : Cost) cs B.system = some D) :
    Penalised B (fun α => (cs.map fun c => if α c.1 = c.2 then 0 else p).sum) D := by
  refine ⟨.constrain .start he, fun a α paths hα => ?_⟩
  have hs : SystemReach B.system B.system := .start
  obtain ⟨hkeys, hv, -⟩ := h.kept hs
  rw [(C56_constrain h.system (fun d hd => (h.entries d hd).1) h.weights (reach_any hs)
    (by rw [hv]; decide) _ cs D (constrain_any he) a paths).2]
  congr 1
  clear he
  induction cs with
  | nil => rfl
  | cons c cs ih =>
    rw [List.map_cons, List.sum_cons, List.map_cons, List.sum_cons, ih fun c hc => hk c (List.mem_cons_of_mem _ hc),
      WithTop.coe_add]
    congr 1
    have hex : (∃ v, B.system.keys[v]? = some c.1 ∧ B.system.values[a v]? = some c.2) ↔ α c.1 = c.2 := by
      constructor
      · rintro ⟨v, h1, h2⟩
        rw [hα v _ h1] at h2
        exact Option.some.inj h2
      · intro hc
        obtain ⟨v, hv⟩ := List.mem_iff_getElem?.1 (hk c (by simp))
        rw [← hkeys] at hv
        exact ⟨v, hv, by rw [hα v _ hv, hc]⟩
    by_cases hc : α c.1 = c.2
    · rw [if_pos (hex.2 hc), if_pos hc]; rfl
    · rw [if_neg (fun h => hc (hex.1 h)), if_neg hc]

theorem Penalised.minimum (h : Built invalid make proto l total B) (hp : Penalised B pen D)
    {a : Nat → Nat} {α : DecisionKey → DecisionValue} (hα : VectorMeans B.system a α)
    (hwf : WellFormedRegions α proto) {x : ℚ}
    (hx : WeightedTotal (LeastPath make (seqKeys 0 proto) α) l x) :
    IsMinimum (Joint D.data a) (jointCost D.data a) ((x + pen α : ℚ) : Cost) := by
  have hm := h.minimum .start hα hwf hx
  constructor
  · intro paths hj
    rw [hp.cost a α paths hα, WithTop.coe_add]
    exact add_le_add_left (hm.le paths ((h.joint_iff hp.reach).1 hj)) _
  · rcases hm.attained with h' | ⟨paths, h1, h2⟩
    · exact absurd h' (WithTop.coe_ne_top)
    · exact .inr ⟨paths, (h.joint_iff hp.reach).2 h1, by rw [hp.cost a α paths hα, h2, WithTop.coe_add]⟩

theorem Penalised.feasible (h : Built invalid make proto l total B) (hp : Penalised B pen D) :
    ∃ a paths, Joint D.data a paths ∧ jointCost D.data a paths < ⊤ := by
  obtain ⟨α, hα⟩ := wellFormed_exists proto
  obtain ⟨x, hx⟩ := h.least hα
  rcases (hp.minimum h (h.vector .start α) hα hx).attained with h' | ⟨paths, h1, h2⟩
  · exact absurd h' (WithTop.coe_ne_top)
  · exact ⟨_, paths, h1, by rw [h2]; exact WithTop.coe_lt_top _⟩

theorem Penalised.guards (h : Built invalid make proto l total B) (hp : Penalised B pen D) :
    ∃ w ∈ views D.data, Guards D.data w := by
  obtain ⟨w0, hw0, hg⟩ := h.guards (D := B.system) .start
  obtain ⟨-, -, k3, k4, k5⟩ := h.kept hp.reach
  obtain ⟨-, -, b3, b4, -⟩ := h.kept (D := B.system) .start
  have hmem : (w0.dag, w0.index) ∈ (views D.data).map fun w => (w.dag, w.index) := by
    rw [k5]
    exact List.mem_map.2 ⟨w0, hw0, rfl⟩
  obtain ⟨w, hw, hwe⟩ := List.mem_map.1 hmem
  simp only [Prod.mk.injEq] at hwe
  refine ⟨w, hw, ⟨?_, ?_⟩⟩
  · intro u hu
    rw [hwe.2]
    exact hg.total u (by rw [b3]; rwa [k3] at hu)
  · intro b p hb hcp hfin hbp
    rw [hwe.1] at hcp
    rw [hwe.2] at hbp
    rw [k3, k4] at hb
    obtain ⟨paths, j1, j2⟩ := hg.extends_ b p (by rw [b3, b4]; exact hb) hcp hfin hbp
    refine ⟨paths, (h.joint_iff hp.reach).2 j1, ?_⟩
    rw [hp.cost b _ paths (h.meaning .start hb)]
    exact WithTop.add_lt_top.2 ⟨j2, WithTop.coe_lt_top _⟩

/-- Greedy extraction always finds well-formed decisions, and their exact cost with the penalty. -/
theorem Penalised.greedy (h : Built invalid make proto l total B) (hp : Penalised B pen D)
    (hne : seqKeys 0 proto ≠ []) (dir : Direction) :
    ∃ (vec : List Nat) (α : DecisionKey → DecisionValue) (x : ℚ),
      D.data.greedy dir = some (vec, some ((x + pen α : ℚ) : Cost))
      ∧ assignmentPairs D.keys D.values vec = some ((seqKeys 0 proto).map fun k => (k, α k))
      ∧ WellFormedRegions α proto ∧ WeightedTotal (LeastPath make (seqKeys 0 proto) α) l x
      ∧ dualValue D.data ≤ ((x + pen α : ℚ) : Cost) := by
  obtain ⟨k1, k2, k3, k4, k5⟩ := h.kept hp.reach
  have hgood := fun d hd => (h.entries d hd).1
  have hinv := (built_inv h.system hgood h.weights (reach_any hp.reach)).sys
  obtain ⟨vec, c, hgr⟩ := C39_greedy_defined h.system hgood h.weights (reach_any hp.reach)
    (fun d hd => by rw [(h.entries d hd).2.1]; exact hne)
    (by rw [h.keys.2.1]; simp) dir
  obtain ⟨g1, g2, -, g4⟩ := C39_greedy h.system hgood h.weights (reach_any hp.reach) dir vec c hgr
  obtain ⟨C, rfl, hmin, hdual⟩ := g4 (by rw [k1]; exact hne)
  rw [k1] at g1
  rw [k2] at g2
  have hvlt : ∀ v < (seqKeys 0 proto).length, vec.getD v 0 < 3 := by
    intro v hv
    rw [← g1] at hv
    rw [List.getD_eq_getElem?_getD, List.getElem?_eq_getElem hv]
    exact g2 _ (List.getElem_mem hv)
  have hmean := h.meaning .start hvlt
  have hjoint : ∃ paths, Joint D.data (fun v => vec.getD v 0) paths := by
    obtain ⟨w, hw, hg⟩ := hp.guards h
    obtain ⟨a0, p0, f1, f2⟩ := hp.feasible h
    unfold System.greedy at hgr
    rw [Option.map_eq_some_iff] at hgr
    obtain ⟨⟨S', a, c'⟩, h1, h2⟩ := hgr
    simp only [Prod.mk.injEq] at h2
    obtain ⟨b, paths, hb, hj, -⟩ := guard_loop hw hg _ _ _ _ _ _ _ _ (greedy_start hinv)
      (order_nodup _ dir) (fun v hv => ⟨(mem_order dir).1 hv, by simp⟩)
      ⟨a0, p0, by simp, f1, f2⟩ h1
    refine ⟨paths, joint_congr hinv ?_ hj⟩
    intro u hu
    rw [hb u (.inl ((mem_order dir).2 hu)), ← h2.1]
    simp [List.getD_eq_getElem?_getD, hu]
  obtain ⟨paths, hj⟩ := hjoint
  have hwf := ((h.joint .start hmean _).1 ⟨paths, (h.joint_iff hp.reach).1 hj, rfl⟩).1
  obtain ⟨x, hx⟩ := h.least hwf
  have hCx := IsMinimum.unique hmin (hp.minimum h hmean hwf hx)
  refine ⟨vec, _, x, by rw [hgr, hCx], ?_, hwf, hx, by rw [← hCx]; exact hdual⟩
  obtain ⟨pairs, p1, p2, p3⟩ := C39_assignment_pairs D.keys D.values vec
    (by rw [g1, k1]) (by rw [k2]; exact g2)
  rw [p1]
  congr 1
  rw [k1] at p2
  have hmean' := (h.means hp.reach).2 hmean
  apply List.ext_getElem?
  intro i
  have hkey := congrArg (fun l => l[i]?) p2
  simp only [List.getElem?_map] at hkey
  rw [List.getElem?_map]
  cases hi : pairs[i]? with
  | none => rw [hi] at hkey; rw [← hkey]; rfl
  | some kv =>
    rw [hi] at hkey
    rw [← hkey]
    obtain ⟨y, y1, y2⟩ := p3 i kv hi
    have hm := hmean' i kv.1 (by rw [k1, ← hkey]; rfl)
    have : vec.getD i 0 = y := by rw [List.getD_eq_getElem?_getD, y1]; rfl
    dsimp only at hm
    rw [this, y2] at hm
    simp only [Option.map_some, Option.some.injEq]
    rw [← Option.some.inj hm]

theorem Penalised.terminates (h : Built invalid make proto l total B) (hp : Penalised B pen D)
    (tol : ℚ) (htol : 0 < tol) (late : Nat → Bool) :
    ∃ n st, ∀ fuel, n ≤ fuel → D.data.solve tol late fuel = .ok st := by
  by_cases hne : seqKeys 0 proto = []
  · have h0 : D.data.numKeys - 1 = 0 := by
      rw [(h.kept hp.reach).2.2.1, hne]
      rfl
    have : ∀ fuel, ∃ st, D.data.solve tol late (fuel + 1) = .ok st
        ∧ ∀ fuel', D.data.solve tol late (fuel' + 1) = .ok st := by
      intro fuel
      unfold System.solve
      simp only [solveLoop, forwardVars, reverseVars, h0, List.range_zero, runSweep, List.range'_zero,
        List.reverse_nil, Bool.false_eq_true, ↓reduceIte]
      split <;> exact ⟨_, rfl, fun _ => rfl⟩
    obtain ⟨st, -, h⟩ := this 0
    refine ⟨1, st, fun fuel hf => ?_⟩
    obtain ⟨k, rfl⟩ : ∃ k, fuel = k + 1 := ⟨fuel - 1, by omega⟩
    exact h k
  · obtain ⟨a, paths, h1, h2⟩ := hp.feasible h
    exact C41_terminates h.system (fun d hd => (h.entries d hd).1) h.weights (reach_any hp.reach)
      (fun d hd => by rw [(h.entries d hd).2.1]; exact hne) a paths h1 h2 tol htol late

theorem Penalised.bound (h : Built invalid make proto l total B) (hp : Penalised B pen D)
    {α : DecisionKey → DecisionValue} (hwf : WellFormedRegions α proto) {x : ℚ}
    (hx : WeightedTotal (LeastPath make (seqKeys 0 proto) α) l x) :
    dualValue D.data ≤ ((x + pen α : ℚ) : Cost) := by
  rcases (hp.minimum h (h.vector .start α) hwf hx).attained with h' | ⟨paths, j1, j2⟩
  · exact absurd h' (WithTop.coe_ne_top)
  · rw [← j2]
    exact C36_lower_bound h.system (fun d hd => (h.entries d hd).1) h.weights (reach_any hp.reach) _
      paths j1

end

end RUSure.Lemmas
