import Verif.Lemmas.SystemMain

/-!
# The systems built from a prototype and targets: minima, greedy extraction and solving
-/

namespace RUSure.Lemmas
open RUSure RUSure.Spec RUSure.Props

section
variable {T E S I M : Type} [DecidableEq S]

/-- `c` is the least cost of the paths of a target that make the decisions `α`. -/
def LeastPath (make : T → Except E (Dag S DecisionKey DecisionValue I)) (keys : List DecisionKey)
    (α : DecisionKey → DecisionValue) (t : T) (c : ℚ) : Prop :=
  PathPrice make keys α t c ∧ ∀ x, PathPrice make keys α t x → (c : Cost) ≤ x

theorem leastPath_exists {make : T → Except E (Dag S DecisionKey DecisionValue I)}
    {proto : List (Node M)} {t : T} {d : Dag S DecisionKey DecisionValue I} (hd : make t = .ok d)
    (hg : GoodUtility proto d) {α : DecisionKey → DecisionValue} (hα : WellFormedRegions α proto) :
    ∃ c, LeastPath make (seqKeys 0 proto) α t c := by
  obtain ⟨cv, hcv⟩ := hg.packs
  have hk := hg.keys cv hcv
  obtain ⟨q, asg, -, -, h3, h4⟩ := part_best hg.topo hcv (s := 1) one_pos 0 (α := α)
    (by rw [hk]; exact hg.serves α hα)
  rw [hk] at h3 h4
  have hfin : weight Edge.cost (cv.originalPath d.prune q) < ⊤ := by
    unfold weight
    rw [sum_lt_top, List.forall_mem_map]
    exact h3.1.2
  obtain ⟨r, hr⟩ := WithTop.ne_top_iff_exists.1 hfin.ne
  refine ⟨r, ⟨d, _, hd, h3, hr⟩, ?_⟩
  rintro x ⟨d', w, hd', hw, rfl⟩
  rw [hd] at hd'
  obtain rfl := Except.ok.inj hd'
  rw [hr]
  exact h4 w hw

theorem coe_scale (c s : ℚ) : ((c : Cost).map (· * s)) = ((c * s : ℚ) : Cost) := rfl

theorem total_least {P : T → Cost → Prop} :
    ∀ {l : List (T × ℚ)} {x : ℚ}, (∀ ts ∈ l, 0 < ts.2) →
      WeightedTotal (fun t c => P t ((c : ℚ) : Cost) ∧ ∀ y, P t y → (c : Cost) ≤ y) l x →
      CostTotal P l x ∧ ∀ y, CostTotal P l y → (x : Cost) ≤ y := by
  intro l
  induction l with
  | nil =>
    intro x _ h
    simp only [WeightedTotal] at h
    subst h
    exact ⟨rfl, fun y hy => by simp only [CostTotal] at hy; rw [hy]; exact le_refl _⟩
  | cons ts l ih =>
    obtain ⟨t, s⟩ := ts
    intro x hpos h
    obtain ⟨c, y, ⟨h1, h2⟩, h3, rfl⟩ := h
    obtain ⟨i1, i2⟩ := ih (fun ts hts => hpos ts (List.mem_cons_of_mem _ hts)) h3
    have hs : 0 < s := hpos (t, s) (by simp)
    refine ⟨⟨c, y, h1, i1, by rw [coe_scale, ← WithTop.coe_add]⟩, ?_⟩
    rintro _ ⟨c', y', g1, g2, rfl⟩
    rw [WithTop.coe_add, ← coe_scale]
    exact add_le_add ((scaleCost_le s hs _ _).2 (h2 _ g1)) (i2 _ g2)

theorem total_exists {Least : T → ℚ → Prop} :
    ∀ {l : List (T × ℚ)}, (∀ ts ∈ l, ∃ c, Least ts.1 c) → ∃ x, WeightedTotal Least l x := by
  intro l
  induction l with
  | nil => intro _; exact ⟨0, rfl⟩
  | cons ts l ih =>
    obtain ⟨t, s⟩ := ts
    intro h
    obtain ⟨c, hc⟩ := h (t, s) (by simp)
    obtain ⟨y, hy⟩ := ih fun ts hts => h ts (List.mem_cons_of_mem _ hts)
    exact ⟨_, c, y, hc, hy, rfl⟩

theorem total_congr {L L' : T → ℚ → Prop} :
    ∀ {l : List (T × ℚ)} {x : ℚ}, (∀ ts ∈ l, ∀ c, L ts.1 c ↔ L' ts.1 c) →
      (WeightedTotal L l x ↔ WeightedTotal L' l x) := by
  intro l
  induction l with
  | nil => intro x _; rfl
  | cons ts l ih =>
    obtain ⟨t, s⟩ := ts
    intro x h
    unfold WeightedTotal
    have h1 := h (t, s) (by simp)
    have h2 := fun y => ih (x := y) fun ts hts => h ts (List.mem_cons_of_mem _ hts)
    simp only at h1
    simp only [h1, h2]

variable {invalid : Cost} {make : T → Except E (Dag S DecisionKey DecisionValue I)}
  {proto : List (Node M)} {l : List (T × ℚ)} {total : ℚ} {B : BuiltSystem S I}
  {D : DualSystem DecisionKey DecisionValue}

theorem Built.made (h : Built invalid make proto l total B) :
    ∀ ts ∈ l, ∃ d, make ts.1 = .ok d ∧ GoodUtility proto d := by
  intro ts hts
  have hp := h.parts
  have hg := h.good
  clear h
  generalize B.utilities = ps at hp
  induction hp with
  | nil => simp at hts
  | cons h1 _ ih =>
    rcases List.mem_cons.1 hts with rfl | hts
    · obtain ⟨d, c, hd, -⟩ := h1
      exact ⟨d, hd, hg _ (by simp) d hd⟩
    · exact ih hts fun ts hts => hg ts (List.mem_cons_of_mem _ hts)

theorem Built.same (h : Built invalid make proto l total B) (hr : SolverReach B.system D) :
    D.keys = seqKeys 0 proto ∧ D.values = allValues ∧ D.data.numKeys = (seqKeys 0 proto).length
    ∧ D.data.numValues = 3 ∧ SameProblem B.system.data D.data := by
  obtain ⟨hk, hv, hnk, hnv, -⟩ := h.keys
  obtain ⟨-, -, -, h4, h5, -⟩ := makeSystem_ok h.system
  obtain ⟨s1, s2, s3⟩ := solver_same
    ⟨makeSystem_inv h.system (fun d hd => (h.entries d hd).1) h.weights, h4.symm, h5.symm⟩ hr
  exact ⟨s1.trans hk, s2.trans hv, s3.keys.trans hnk, s3.values.trans hnv, s3⟩

/-- The minimal cost of the joint solutions for well-formed decisions. -/
theorem Built.minimum (h : Built invalid make proto l total B) (hr : SolverReach B.system D)
    {a : Nat → Nat} {α : DecisionKey → DecisionValue} (hα : VectorMeans D a α)
    (hwf : WellFormedRegions α proto) {x : ℚ}
    (hx : WeightedTotal (LeastPath make (seqKeys 0 proto) α) l x) :
    IsMinimum (Joint D.data a) (jointCost D.data a) x := by
  obtain ⟨h1, h2⟩ := total_least h.pos hx
  constructor
  · intro paths hp
    exact h2 _ ((h.joint hr hα _).1 ⟨paths, hp, rfl⟩).2
  · exact .inr ((h.joint hr hα _).2 ⟨hwf, h1⟩)

theorem Built.least (h : Built invalid make proto l total B) {α : DecisionKey → DecisionValue}
    (hwf : WellFormedRegions α proto) :
    ∃ x, WeightedTotal (LeastPath make (seqKeys 0 proto) α) l x :=
  total_exists fun ts hts => by
    obtain ⟨d, hd, hg⟩ := h.made ts hts
    exact leastPath_exists hd hg hwf

theorem Built.infeasible (h : Built invalid make proto l total B) (hr : SolverReach B.system D)
    {a : Nat → Nat} {α : DecisionKey → DecisionValue} (hα : VectorMeans D a α)
    (hwf : ¬ WellFormedRegions α proto) (paths : List (List PackedEdge)) :
    ¬ Joint D.data a paths := fun hj =>
  hwf ((h.joint hr hα _).1 ⟨paths, hj, rfl⟩).1

/-- The decisions a vector stands for. -/
def meaning (keys : List DecisionKey) (a : Nat → Nat) (k : DecisionKey) : DecisionValue :=
  (allValues[a (keys.idxOf k)]?).getD .na

theorem meaning_means {keys : List DecisionKey} (hnd : keys.Nodup) {a : Nat → Nat}
    (ha : ∀ v < keys.length, a v < 3) :
    ∀ v k, keys[v]? = some k → allValues[a v]? = some (meaning keys a k) := by
  intro v k hvk
  obtain ⟨hv, rfl⟩ := List.getElem?_eq_some_iff.1 hvk
  unfold meaning
  rw [List.Nodup.idxOf_getElem hnd v hv, List.getElem?_eq_getElem (ha v hv)]
  rfl

theorem Built.meaning (h : Built invalid make proto l total B) (hr : SolverReach B.system D)
    {a : Nat → Nat} (ha : ∀ v < (seqKeys 0 proto).length, a v < 3) :
    VectorMeans D a (meaning (seqKeys 0 proto) a) := by
  obtain ⟨h1, h2, -⟩ := h.same hr
  intro v k hvk
  rw [h2]
  rw [h1] at hvk
  exact meaning_means ((seqKeys_sorted proto 0).imp fun h => ne_of_lt h) ha v k hvk

/-- For any decisions there is a vector that stands for them. -/
theorem Built.vector (h : Built invalid make proto l total B) (hr : SolverReach B.system D)
    (α : DecisionKey → DecisionValue) :
    VectorMeans D (fun v => (((seqKeys 0 proto)[v]?).map fun k => valueIndex (α k)).getD 0) α := by
  obtain ⟨h1, h2, -⟩ := h.same hr
  intro v k hvk
  rw [h1] at hvk
  dsimp only
  rw [h2, hvk]
  exact valueIndex_get _

/-- There are well-formed decisions for every prototype: no regions at all. -/
theorem wellFormed_exists (proto : List (Node M)) : ∃ α, WellFormedRegions α proto := by
  obtain ⟨ds, hds⟩ := regionSeq_none proto false 0
  exact ⟨decided ds, (validRegions_iff proto).1 ⟨_, ds, hds, fun _ _ => rfl⟩⟩

theorem Built.feasible (h : Built invalid make proto l total B) (hr : SolverReach B.system D) :
    ∃ a paths, Joint D.data a paths ∧ jointCost D.data a paths < ⊤ := by
  obtain ⟨α, hα⟩ := wellFormed_exists proto
  obtain ⟨x, hx⟩ := h.least hα
  rcases (h.minimum hr (h.vector hr α) hα hx).attained with h' | ⟨paths, h1, h2⟩
  · exact absurd h' (WithTop.coe_ne_top)
  · exact ⟨_, paths, h1, by rw [h2]; exact WithTop.coe_lt_top _⟩

/-- The constraint DAG decides what is feasible. -/
theorem Built.guards (h : Built invalid make proto l total B) (hr : SolverReach B.system D) :
    ∃ w ∈ views D.data, Guards D.data w := by
  obtain ⟨k1, k2, k3, k4, k5⟩ := h.same hr
  obtain ⟨hk, -, -, -, -⟩ := h.keys
  obtain ⟨-, -, -, -, -, -, g7, g8⟩ := C35_make_system invalid _ _ _ h.system
    (fun d hd => (h.entries d hd).1)
  have hlen : B.utilities.length < B.system.data.subs.length := by
    rw [g7]; simp
  obtain ⟨e1, -, -, -, e5, -⟩ := g8 B.utilities.length B.constraint.entry
    (B.system.data.subs[B.utilities.length]) (by simp) (List.getElem?_eq_getElem hlen)
  set s := B.system.data.subs[B.utilities.length] with hs
  have hsm : s ∈ B.system.data.subs := List.getElem_mem _
  have hmem : (s.view.dag, s.view.index) ∈ (views D.data).map fun w => (w.dag, w.index) := by
    rw [k5.dags]
    exact List.mem_map.2 ⟨s.view, List.mem_map.2 ⟨s, hsm, rfl⟩, rfl⟩
  obtain ⟨w, hw, hwe⟩ := List.mem_map.1 hmem
  simp only [Prod.mk.injEq] at hwe
  have hdag : w.dag = B.constraint.entry.1 := hwe.1.trans e1
  obtain ⟨dc, cc, c1, c2, c3⟩ := h.constraint
  have hck := (C45_constraint_packs proto dc c1).2 cc c2
  have hentry : B.constraint.entry.2.1 = seqKeys 0 proto := by rw [c3]; exact hck
  have hidx : ∀ v k, w.index v = some k ↔ ∃ key, (seqKeys 0 proto)[v]? = some key
      ∧ (seqKeys 0 proto)[k]? = some key := by
    intro v k
    rw [hwe.2]
    have := e5 v k
    rw [hk, hentry] at this
    exact this
  refine ⟨w, hw, ⟨?_, ?_⟩⟩
  · intro u hu
    rw [k3] at hu
    exact ⟨u, (hidx u u).2 ⟨_, List.getElem?_eq_getElem hu, List.getElem?_eq_getElem hu⟩⟩
  · intro b p hb hp hfin hbp
    rw [k3, k4] at hb
    have hmean := h.meaning hr hb
    have hα' := meaning_means ((seqKeys_sorted proto 0).imp fun h => ne_of_lt h) hb
    have hcp := fun x => part_paths (C45_constraint proto dc c1).1 c2 h.total_pos (a := b)
      (α := Lemmas.meaning (seqKeys 0 proto) b) (by rw [hck]; exact hα') x
    rw [hck] at hcp
    rw [hdag, c3] at hp
    have hgd := (h.entries B.constraint.entry (by simp)).1
    rw [c3] at hgd
    obtain ⟨pw, hpw, -⟩ := (hcp _).1 ⟨p, hp, by
      intro v y hvy
      have h1 := complete_keys hgd.wf hp
      have : v ∈ (assignments p).map Prod.fst := List.mem_map.2 ⟨_, hvy, rfl⟩
      rw [h1, ← hgd.keys_length] at this
      have hvl : v < (seqKeys 0 proto).length := by
        rw [← hentry, c3]; simpa using this
      exact hbp v v y ((hidx v v).2 ⟨_, List.getElem?_eq_getElem hvl, List.getElem?_eq_getElem hvl⟩)
        hvy, rfl⟩
    have hwf := (C42_accepts proto dc c1 _).1 ⟨pw, hpw⟩
    obtain ⟨x, hx⟩ := h.least hwf
    rcases (h.minimum hr hmean hwf hx).attained with h' | ⟨paths, j1, j2⟩
    · exact absurd h' (WithTop.coe_ne_top)
    · exact ⟨paths, j1, by rw [j2]; exact WithTop.coe_lt_top _⟩

theorem Built.inv (h : Built invalid make proto l total B) (hr : SolverReach B.system D) :
    SysInv D.data :=
  (built_inv h.system (fun d hd => (h.entries d hd).1) h.weights (solver_reach hr)).sys

/-- Greedy extraction always finds well-formed decisions, and their exact cost. -/
theorem Built.greedy (h : Built invalid make proto l total B) (hr : SolverReach B.system D)
    (hne : seqKeys 0 proto ≠ []) (dir : Direction) :
    ∃ (vec : List Nat) (α : DecisionKey → DecisionValue) (x : ℚ),
      D.data.greedy dir = some (vec, some (x : Cost))
      ∧ VectorMeans D (fun v => vec.getD v 0) α
      ∧ assignmentPairs D.keys D.values vec = some ((seqKeys 0 proto).map fun k => (k, α k))
      ∧ WellFormedRegions α proto ∧ WeightedTotal (LeastPath make (seqKeys 0 proto) α) l x
      ∧ dualValue D.data ≤ x := by
  obtain ⟨k1, k2, k3, k4, k5⟩ := h.same hr
  have hgood := fun d hd => (h.entries d hd).1
  obtain ⟨vec, c, hgr⟩ := C39_greedy_defined h.system hgood h.weights (solver_reach hr)
    (fun d hd => by rw [(h.entries d hd).2.1]; exact hne)
    (by rw [h.keys.2.1]; simp) dir
  obtain ⟨g1, g2, -, g4⟩ := C39_greedy h.system hgood h.weights (solver_reach hr) dir vec c hgr
  obtain ⟨C, rfl, hmin, hdual⟩ := g4 (by rw [k1]; exact hne)
  rw [k1] at g1
  rw [k2] at g2
  have hvlt : ∀ v < (seqKeys 0 proto).length, vec.getD v 0 < 3 := by
    intro v hv
    rw [← g1] at hv
    rw [List.getD_eq_getElem?_getD, List.getElem?_eq_getElem hv]
    exact g2 _ (List.getElem_mem hv)
  have hmean := h.meaning hr hvlt
  -- the extracted values belong to a joint solution
  have hjoint : ∃ paths, Joint D.data (fun v => vec.getD v 0) paths := by
    obtain ⟨w, hw, hg⟩ := h.guards hr
    obtain ⟨a0, p0, f1, f2⟩ := h.feasible hr
    unfold System.greedy at hgr
    rw [Option.map_eq_some_iff] at hgr
    obtain ⟨⟨S', a, c'⟩, h1, h2⟩ := hgr
    simp only [Prod.mk.injEq] at h2
    obtain ⟨b, paths, hb, hj, -⟩ := guard_loop hw hg _ _ _ _ _ _ _ _ (greedy_start (h.inv hr))
      (order_nodup _ dir) (fun v hv => ⟨(mem_order dir).1 hv, by simp⟩)
      ⟨a0, p0, by simp, f1, f2⟩ h1
    refine ⟨paths, joint_congr (h.inv hr) ?_ hj⟩
    intro u hu
    rw [hb u (.inl ((mem_order dir).2 hu)), ← h2.1]
    simp [List.getD_eq_getElem?_getD, hu]
  obtain ⟨paths, hj⟩ := hjoint
  have hwf := ((h.joint hr hmean _).1 ⟨paths, hj, rfl⟩).1
  obtain ⟨x, hx⟩ := h.least hwf
  have hCx : C = (x : Cost) := IsMinimum.unique hmin (h.minimum hr hmean hwf hx)
  refine ⟨vec, _, x, by rw [hgr, hCx], hmean, ?_, hwf, hx, by rw [← hCx]; exact hdual⟩
  obtain ⟨pairs, p1, p2, p3⟩ := C39_assignment_pairs D.keys D.values vec
    (by rw [g1, k1]) (by rw [k2]; exact g2)
  rw [p1]
  congr 1
  rw [k1] at p2
  apply List.ext_getElem?
  intro i
  have hkey := congrArg (fun l => l[i]?) p2
  simp only [List.getElem?_map] at hkey
  rw [List.getElem?_map]
  cases hi : pairs[i]? with
  | none => rw [hi] at hkey; rw [← hkey]; rfl
  | some kv =>
    rw [hi] at hkey
    rw [← hkey]
    obtain ⟨y, y1, y2⟩ := p3 i kv hi
    have hm := hmean i kv.1 (by rw [k1, ← hkey]; rfl)
    have : vec.getD i 0 = y := by rw [List.getD_eq_getElem?_getD, y1]; rfl
    dsimp only at hm
    rw [this, y2] at hm
    simp only [Option.map_some, Option.some.injEq]
    rw [← Option.some.inj hm]

theorem Built.terminates (h : Built invalid make proto l total B) (hr : SolverReach B.system D)
    (hne : seqKeys 0 proto ≠ []) (tol : ℚ) (htol : 0 < tol) (late : Nat → Bool) :
    ∃ n st, ∀ fuel, n ≤ fuel → D.data.solve tol late fuel = .ok st := by
  obtain ⟨a, paths, h1, h2⟩ := h.feasible hr
  exact C41_terminates h.system (fun d hd => (h.entries d hd).1) h.weights (solver_reach hr)
    (fun d hd => by rw [(h.entries d hd).2.1]; exact hne) a paths h1 h2 tol htol late

theorem Built.bound (h : Built invalid make proto l total B) (hr : SolverReach B.system D)
    {α : DecisionKey → DecisionValue} (hwf : WellFormedRegions α proto) {x : ℚ}
    (hx : WeightedTotal (LeastPath make (seqKeys 0 proto) α) l x) :
    dualValue D.data ≤ x := by
  rcases (h.minimum hr (h.vector hr α) hwf hx).attained with h' | ⟨paths, j1, j2⟩
  · exact absurd h' (WithTop.coe_ne_top)
  · rw [← j2]
    exact C36_lower_bound h.system (fun d hd => (h.entries d hd).1) h.weights (solver_reach hr) _
      paths j1

end

end RUSure.Lemmas
