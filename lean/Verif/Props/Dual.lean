import Verif.Lemmas.DualMake
import Verif.Props.PackedDag
import Mathlib.Algebra.Order.Archimedean.Basic

/-!
# Properties of the dual solver (C35–C41, C55, C56)
-/

namespace RUSure.Props
open RUSure RUSure.Spec RUSure.Lemmas

section
variable {K V : Type} [LinearOrder K] [DecidableEq V]

/-! ## C35: building systems -/

/-- C35: building fails exactly if there are no DAGs or if two DAGs have different value lists. -/
theorem C35_errors (invalid : Cost) (dags : List (PackedDag × List K × List V))
    (weights : Option (List ℚ)) :
    (makeSystem invalid dags weights = .error .noDags ↔ dags = [])
    ∧ (makeSystem invalid dags weights = .error .valuesDiffer
        ↔ ∃ d ∈ dags, ∃ d' ∈ dags, d.2.2 ≠ d'.2.2) := by
  cases dags with
  | nil => simp [makeSystem]
  | cons d ds =>
    unfold makeSystem
    dsimp only
    by_cases h : ds.any (fun d' => decide (d'.2.2 ≠ d.2.2)) = true
    · rw [if_pos h]
      simp only [List.any_eq_true, decide_eq_true_eq] at h
      obtain ⟨d', h1, h2⟩ := h
      exact ⟨by simp, ⟨fun _ => ⟨d', List.mem_cons_of_mem _ h1, d, by simp, h2⟩, fun _ => rfl⟩⟩
    · rw [if_neg h]
      simp only [List.any_eq_true, decide_eq_true_eq, not_exists, not_and, not_not] at h
      refine ⟨by simp, ?_⟩
      simp only [reduceCtorEq, false_iff, not_exists, not_and, not_not]
      have hall : ∀ x ∈ d :: ds, x.2.2 = d.2.2 := by
        intro x hx
        rcases List.mem_cons.1 hx with rfl | hx
        · rfl
        · exact h x hx
      intro x hx y hy
      rw [hall x hx, hall y hy]

/-- C35: the variables of a system are the variables of its DAGs, sorted and without duplicates; the
values are those of every DAG; there is one subproblem for each DAG, in order, with its weight and
without penalties; and a variable of the system is looked up in a DAG at the position holding the
same key, and nowhere if the DAG does not have that key. -/
theorem C35_make_system (invalid : Cost) (dags : List (PackedDag × List K × List V))
    (weights : Option (List ℚ)) (D : DualSystem K V) (h : makeSystem invalid dags weights = .ok D)
    (hd : ∀ d ∈ dags, GoodDag d) :
    D.keys.Pairwise (· < ·)
    ∧ (∀ key, key ∈ D.keys ↔ ∃ d ∈ dags, key ∈ d.2.1)
    ∧ (∀ d ∈ dags, d.2.2 = D.values)
    ∧ D.data.numKeys = D.keys.length ∧ D.data.numValues = D.values.length
    ∧ (∀ v x, D.data.extra v x = 0)
    ∧ D.data.subs.length = dags.length
    ∧ ∀ (i : Nat) (d : PackedDag × List K × List V) (s : Sub), dags[i]? = some d →
        D.data.subs[i]? = some s →
        s.memo.dag = d.1 ∧ (∀ k x, s.memo.pen k x = 0)
        ∧ (∀ w, weights = some w → w.length = dags.length → w[i]? = some s.weight)
        ∧ (weights = none → s.weight = 1)
        ∧ (∀ v k, s.index v = some k ↔ ∃ key, D.keys[v]? = some key ∧ d.2.1[k]? = some key)
        ∧ ∀ v key, D.keys[v]? = some key → (s.index v = none ↔ key ∉ d.2.1) := by
  obtain ⟨h1, h2, h3, h4, h5, h6, h7⟩ := makeSystem_ok h
  refine ⟨h1 ▸ systemKeys_sorted dags, fun key => by rw [h1]; exact mem_systemKeys, h2, h4, h5,
    fun v x => by rw [h6], by rw [h7]; simp, ?_⟩
  intro i d s hdi hs
  rw [h7, List.getElem?_map, List.getElem?_zipIdx, hdi] at hs
  simp only [Option.map_some, Option.some.injEq, Nat.zero_add] at hs
  subst hs
  have hg := hd d (List.mem_of_getElem? hdi)
  have hidx : ∀ v k, indexColumn (systemKeys dags) d.2.1 v = some k ↔
      ∃ key, D.keys[v]? = some key ∧ d.2.1[k]? = some key := by
    intro v k
    rw [h1]
    exact indexColumn_iff hg.keys_nodup
  refine ⟨rfl, fun _ _ => rfl, ?_, ?_, hidx, ?_⟩
  · rintro w rfl hl
    have : i < w.length := by rw [hl]; exact (List.getElem?_eq_some_iff.1 hdi).1
    simp [subWeight, this]
  · rintro rfl; rfl
  · intro v key hk
    constructor
    · intro hn hm
      obtain ⟨k, hkk⟩ := List.getElem?_of_mem hm
      have := (hidx v k).2 ⟨key, hk, hkk⟩
      change indexColumn (systemKeys dags) d.2.1 v = none at hn
      rw [hn] at this
      cases this
    · intro hm
      change indexColumn (systemKeys dags) d.2.1 v = none
      cases hc : indexColumn (systemKeys dags) d.2.1 v with
      | none => rfl
      | some k =>
        obtain ⟨key', hk1, hk2⟩ := (hidx v k).1 hc
        rw [hk] at hk1
        simp only [Option.some.injEq] at hk1
        subst hk1
        exact absurd (List.mem_of_getElem? hk2) hm

/-- C35: in every reachable system the joint solutions are exactly the choices of one complete path
in each of the given DAGs and of one value for each key, such that each path gives each of its keys
the chosen value. -/
theorem C35_joint_solutions (invalid : Cost) (dags : List (PackedDag × List K × List V))
    (weights : Option (List ℚ)) (D₀ D : DualSystem K V) (hm : makeSystem invalid dags weights = .ok D₀)
    (hd : ∀ d ∈ dags, GoodDag d) (hw : GoodWeights dags.length weights) (hr : SystemReach D₀ D)
    (a : Nat → Nat) (paths : List (List PackedEdge)) :
    Joint D.data a paths ↔
      (∀ v < D₀.keys.length, a v < D₀.values.length)
      ∧ List.Forall₂ (fun (d : PackedDag × List K × List V) p => Complete d.1 p ∧
          ∀ (v : Nat) (key : K) (k x : Nat), D₀.keys[v]? = some key → d.2.1[k]? = some key →
            (k, x) ∈ assignments p → x = a v) dags paths := by
  obtain ⟨h1, h2, h3, h4, h5, h6, h7⟩ := makeSystem_ok hm
  have hD : DInv D₀ := ⟨makeSystem_inv hm hd hw, h4.symm, h5.symm⟩
  obtain ⟨-, -, r3, r4, r5⟩ := reach_same hD hr
  have hj : Joint D.data a paths ↔ Joint D₀.data a paths := by
    rw [joint_iff, joint_iff, r3, r4]
    exact ⟨vjoint_same r5.symm, vjoint_same r5⟩
  rw [hj]
  have key : ∀ (n : Nat) (ds : List (PackedDag × List K × List V)), (∀ d ∈ ds, d ∈ dags) →
      (List.Forall₂ (fun (s : Sub) p => Complete s.memo.dag p ∧
        ∀ v k x, s.index v = some k → (k, x) ∈ assignments p → x = a v)
        ((ds.zipIdx n).map (fun x => (⟨emptyUnpenalizedTable invalid x.1.1,
          indexColumn (systemKeys dags) x.1.2.1, subWeight weights x.2⟩ : Sub))) paths
      ↔ List.Forall₂ (fun (d : PackedDag × List K × List V) p => Complete d.1 p ∧
          ∀ (v : Nat) (key : K) (k x : Nat), D₀.keys[v]? = some key → d.2.1[k]? = some key →
            (k, x) ∈ assignments p → x = a v) ds paths) := by
    clear hj
    induction paths with
    | nil =>
      intro n ds _
      cases ds <;> simp
    | cons p ps ih =>
      intro n ds hds
      cases ds with
      | nil => simp
      | cons d ds =>
        rw [List.zipIdx_cons, List.map_cons, List.forall₂_cons, List.forall₂_cons]
        refine and_congr (and_congr Iff.rfl ?_)
          (ih _ _ fun d' hd' => hds d' (List.mem_cons_of_mem _ hd'))
        have hg := hd d (hds d (by simp))
        constructor
        · intro hh v ky k x hk1 hk2 hx
          refine hh v k x ?_ hx
          rw [h1] at hk1
          exact (indexColumn_iff hg.keys_nodup).2 ⟨ky, hk1, hk2⟩
        · intro hh v k x hk hx
          obtain ⟨ky, hk1, hk2⟩ := (indexColumn_iff hg.keys_nodup).1 hk
          exact hh v ky k x (by rw [h1]; exact hk1) hk2 hx
  constructor
  · rintro ⟨j1, j2⟩
    rw [h7] at j2
    refine ⟨?_, (key 0 dags fun _ h => h).1 j2⟩
    rw [← h4, ← h5]; exact j1
  · rintro ⟨j1, j2⟩
    refine ⟨by rw [h4, h5]; exact j1, ?_⟩
    rw [h7]
    exact (key 0 dags fun _ h => h).2 j2

/-! ## Reachable systems

All remaining theorems are about the systems that can be reached from a system built by
`make_system`. -/

variable {invalid : Cost} {dags : List (PackedDag × List K × List V)} {weights : Option (List ℚ)}
  {D₀ D : DualSystem K V}

theorem built_inv (hm : makeSystem invalid dags weights = .ok D₀) (hd : ∀ d ∈ dags, GoodDag d)
    (hw : GoodWeights dags.length weights) (hr : SystemReach D₀ D) : DInv D := by
  obtain ⟨-, -, -, h4, h5, -⟩ := makeSystem_ok hm
  exact reach_inv ⟨makeSystem_inv hm hd hw, h4.symm, h5.symm⟩ hr

/-- C36: the dual value never exceeds the cost of a joint solution. -/
theorem C36_lower_bound (hm : makeSystem invalid dags weights = .ok D₀) (hd : ∀ d ∈ dags, GoodDag d)
    (hw : GoodWeights dags.length weights) (hr : SystemReach D₀ D) (a : Nat → Nat)
    (paths : List (List PackedEdge)) (hj : Joint D.data a paths) :
    dualValue D.data ≤ jointCost D.data a paths := by
  have h := (built_inv hm hd hw hr).sys
  rw [dualValue_eq h]
  exact h.inv.cost_le ((joint_iff _ _ _).1 hj)

/-- C36: the system min-marginals bound the joint solutions with the given value, and they are never
below the dual value. -/
theorem C36_min_marginals (hm : makeSystem invalid dags weights = .ok D₀)
    (hd : ∀ d ∈ dags, GoodDag d) (hw : GoodWeights dags.length weights) (hr : SystemReach D₀ D)
    (v : Nat) (S : System) (mm : Nat → Cost) (he : D.data.minMarginals v = some (S, mm)) :
    (∀ a paths, Joint D.data a paths → mm (a v) ≤ jointCost D.data a paths)
    ∧ ∀ x, dualValue D.data ≤ mm x := by
  have h := (built_inv hm hd hw hr).sys
  obtain ⟨-, -, -, -, -, h6⟩ := h.minMarginals he
  constructor
  · intro a paths hj
    rw [h6]
    exact h.inv.marg_le ((joint_iff _ _ _).1 hj) v
  · intro x
    rw [h6]
    exact marg_ge_cost h v x

/-- C36, C37: computing min-marginals and averaging succeed exactly if no subproblem without any
variable has to be skipped. -/
theorem C37_defined (hm : makeSystem invalid dags weights = .ok D₀)
    (hd : ∀ d ∈ dags, GoodDag d) (hw : GoodWeights dags.length weights) (hr : SystemReach D₀ D)
    (v : Nat) :
    ((D.data.average v).isSome ↔ ∀ s ∈ D.data.subs, s.index v = none → 0 < s.memo.dag.numKeys)
    ∧ ((D.data.minMarginals v).isSome
        ↔ ∀ s ∈ D.data.subs, s.index v = none → 0 < s.memo.dag.numKeys) := by
  have h := (built_inv hm hd hw hr).sys
  exact ⟨h.average_isSome v, h.minMarginals_isSome v⟩

/-- C37: averaging never lowers the dual value, and returns the new dual value. -/
theorem C37_averaging (hm : makeSystem invalid dags weights = .ok D₀)
    (hd : ∀ d ∈ dags, GoodDag d) (hw : GoodWeights dags.length weights) (hr : SystemReach D₀ D)
    (v : Nat) (hv : v < D.data.numKeys) (S : System) (c : Cost)
    (he : D.data.average v = some (S, c)) : dualValue D.data ≤ dualValue S ∧ c = dualValue S :=
  average_dual (built_inv hm hd hw hr).sys hv he

/-- C38: the penalties of a value that occurs in some joint solution of finite cost add up to its
extra cost. -/
theorem C38_penalties (hm : makeSystem invalid dags weights = .ok D₀)
    (hd : ∀ d ∈ dags, GoodDag d) (hw : GoodWeights dags.length weights) (hr : SystemReach D₀ D)
    (v : Nat) (hv : v < D.data.numKeys) (x : Nat) (hf : Feasible D.data v x) :
    (D.data.subs.map fun s => Sub.charge s v x).sum = D.data.extra v x := by
  have h := (built_inv hm hd hw hr).sys
  obtain ⟨a, paths, hj, hlt, rfl⟩ := hf
  have h1 := (h.inv.charges ((joint_iff _ _ _).1 hj) hlt).1 v hv
  rw [← h1]
  unfold views
  rw [List.map_map]
  rfl

/-- C38: hence for every joint solution of finite cost the penalised costs of the paths add up to its
true cost. -/
theorem C38_reparameterisation (hm : makeSystem invalid dags weights = .ok D₀)
    (hd : ∀ d ∈ dags, GoodDag d) (hw : GoodWeights dags.length weights) (hr : SystemReach D₀ D)
    (a : Nat → Nat) (paths : List (List PackedEdge)) (hj : Joint D.data a paths)
    (hfin : jointCost D.data a paths < ⊤) :
    (List.zipWith (fun (s : Sub) p => pathCost s.memo.pen p) D.data.subs paths).sum
      = jointCost D.data a paths := by
  have h := (built_inv hm hd hw hr).sys
  have h1 := (h.inv.charges ((joint_iff _ _ _).1 hj) hfin).2
  rw [jointCost_eq, ← h1]
  unfold views
  rw [List.zipWith_map_left]
  rfl

/-- C38: averaging, computing min-marginals and running the sweep solver change neither the joint
solutions nor their costs. -/
theorem C38_unchanged (hm : makeSystem invalid dags weights = .ok D₀)
    (hd : ∀ d ∈ dags, GoodDag d) (hw : GoodWeights dags.length weights) (hr : SystemReach D₀ D)
    (S : System)
    (hop : (∃ v < D.data.numKeys, ∃ c, D.data.average v = some (S, c))
      ∨ (∃ v mm, D.data.minMarginals v = some (S, mm))
      ∨ (∃ tol late fuel st, D.data.solve tol late fuel = .ok st ∧ st.system = S))
    (a : Nat → Nat) (paths : List (List PackedEdge)) :
    (Joint S a paths ↔ Joint D.data a paths) ∧ jointCost S a paths = jointCost D.data a paths := by
  have h := (built_inv hm hd hw hr).sys
  have hs : SameProblem D.data S := by
    rcases hop with ⟨v, hv, c, he⟩ | ⟨v, mm, he⟩ | ⟨tol, late, fuel, st, he, rfl⟩
    · exact average_same h hv he
    · exact minMarginals_same h he
    · exact (solve_inv h he).1.same
  exact ⟨hs.joint, hs.cost a paths⟩

/-! ## Greedy extraction -/

/-- C39: greedy extraction returns one value for each variable. The returned cost is exactly the
minimal cost of the joint solutions with these values (infinite if there are none of finite cost),
and at least the dual value. -/
theorem C39_greedy (hm : makeSystem invalid dags weights = .ok D₀)
    (hd : ∀ d ∈ dags, GoodDag d) (hw : GoodWeights dags.length weights) (hr : SystemReach D₀ D)
    (dir : Direction) (vec : List Nat) (c : Option Cost)
    (he : D.data.greedy dir = some (vec, c)) :
    vec.length = D.keys.length ∧ (∀ x ∈ vec, x < D.values.length)
    ∧ (D.keys = [] → c = none)
    ∧ (D.keys ≠ [] → ∃ C, c = some C
        ∧ IsMinimum (Joint D.data fun v => vec.getD v 0) (jointCost D.data fun v => vec.getD v 0) C
        ∧ dualValue D.data ≤ C) := by
  have hI := built_inv hm hd hw hr
  have h := hI.sys
  unfold System.greedy at he
  rw [Option.map_eq_some_iff] at he
  obtain ⟨⟨S', a, c'⟩, h1, h2⟩ := he
  simp only [Prod.mk.injEq] at h2
  obtain ⟨rfl, rfl⟩ := h2
  obtain ⟨g1, -, g3, g4⟩ := greedyLoop_spec _ _ _ _ _ _ _ _ (greedy_start h)
    (order_nodup _ dir) (fun v hv => ⟨(mem_order dir).1 hv, by simp⟩)
    (fun v hv => .inl ((mem_order dir).2 hv)) h1
  refine ⟨by simp [hI.keys], ?_, ?_, ?_⟩
  · intro x hx
    obtain ⟨v, hv, rfl⟩ := List.mem_map.1 hx
    rw [hI.values]
    exact g1 v (by simpa using hv)
  · intro hk
    apply g4
    have : D.data.numKeys = 0 := by rw [← hI.keys, hk]; rfl
    rw [this]
    cases dir <;> rfl
  · intro hk
    have hN : 0 < D.data.numKeys := by
      rw [← hI.keys]; exact List.length_pos_iff.2 hk
    obtain ⟨C, hc, hmin⟩ := g3 (by
      intro hc
      have : 0 ∈ dir.order D.data.numKeys := (mem_order dir).2 hN
      rw [hc] at this
      simp at this)
    have hag : ∀ u < D.data.numKeys, a u = ((List.range D.data.numKeys).map a).getD u 0 := by
      intro u hu
      simp [List.getD_eq_getElem?_getD, hu]
    have hmin' : IsMinimum (Joint D.data fun v => ((List.range D.data.numKeys).map a).getD v 0)
        (jointCost D.data fun v => ((List.range D.data.numKeys).map a).getD v 0) C := by
      constructor
      · intro paths hj
        rw [← jointCost_congr (b := a) hag]
        exact hmin.le paths (joint_congr h (fun u hu => (hag u hu).symm) hj)
      · rcases hmin.attained with h' | ⟨paths, hj, h'⟩
        · exact .inl h'
        · exact .inr ⟨paths, joint_congr h hag hj, by rw [← jointCost_congr (b := a) hag]; exact h'⟩
    refine ⟨C, hc, hmin', ?_⟩
    rcases hmin.attained with h' | ⟨paths, hj, h'⟩
    · rw [h']; exact le_top
    · rw [← h']
      exact C36_lower_bound hm hd hw hr a paths hj

/-- C39: greedy extraction succeeds if there are values and every subproblem has a variable. -/
theorem C39_greedy_defined (hm : makeSystem invalid dags weights = .ok D₀)
    (hd : ∀ d ∈ dags, GoodDag d) (hw : GoodWeights dags.length weights) (hr : SystemReach D₀ D)
    (hk : ∀ d ∈ dags, d.2.1 ≠ []) (hv : D₀.values ≠ []) (dir : Direction) :
    ∃ vec c, D.data.greedy dir = some (vec, c) := by
  obtain ⟨h1, h2, h3, h4, h5, h6, h7⟩ := makeSystem_ok hm
  have hD : DInv D₀ := ⟨makeSystem_inv hm hd hw, h4.symm, h5.symm⟩
  have hI := built_inv hm hd hw hr
  obtain ⟨r1, r2, r3, r4, r5⟩ := reach_same hD hr
  have hpos : ∀ s ∈ D.data.subs, 0 < s.memo.dag.numKeys := by
    intro s hs
    have : (s.view.dag, s.view.index) ∈ (views D.data).map fun w => (w.dag, w.index) :=
      List.mem_map.2 ⟨s.view, List.mem_map.2 ⟨s, hs, rfl⟩, rfl⟩
    rw [r5] at this
    obtain ⟨w, hw', hwe⟩ := List.mem_map.1 this
    obtain ⟨s0, hs0, rfl⟩ := List.mem_map.1 hw'
    rw [h7] at hs0
    obtain ⟨⟨d, i⟩, hx, rfl⟩ := List.mem_map.1 hs0
    have hmem : d ∈ dags := List.fst_mem_of_mem_zipIdx hx
    simp only [Prod.mk.injEq] at hwe
    have e1 : s.memo.dag = d.1 := hwe.1.symm
    rw [e1, ← (hd d hmem).keys_length]
    exact List.length_pos_iff.2 (hk d hmem)
  have hV : D.data.numValues ≠ 0 := by
    rw [r4, h5]
    exact fun hc => hv (List.length_eq_zero_iff.1 hc)
  obtain ⟨⟨S', a, c⟩, hgr⟩ := greedyLoop_isSome (fun v s hs _ => hpos s hs) hV
    (dir.order D.data.numKeys) D.data _ (fun _ => 0) none (greedy_start hI.sys) (order_nodup _ dir)
    (fun v hv => ⟨(mem_order dir).1 hv, by simp⟩)
  exact ⟨_, _, by unfold System.greedy; rw [hgr]; rfl⟩

omit [LinearOrder K] [DecidableEq V] in
/-- C39: the assignment vector is turned into pairs of a key and a value. -/
theorem C39_assignment_pairs (keys : List K) (values : List V) (vec : List Nat)
    (hl : vec.length = keys.length) (hv : ∀ x ∈ vec, x < values.length) :
    ∃ pairs, assignmentPairs keys values vec = some pairs ∧ pairs.map Prod.fst = keys
      ∧ ∀ (i : Nat) (kv : K × V), pairs[i]? = some kv →
        ∃ x, vec[i]? = some x ∧ values[x]? = some kv.2 := by
  have gen : ∀ (vec : List Nat) (n : Nat), vec.length + n = keys.length →
      (∀ x ∈ vec, x < values.length) → ∃ pairs : List (K × V),
      mapAll (fun (x : Nat × Nat) =>
        (keys[x.2]?).bind fun k => (values[x.1]?).map fun v => (k, v)) (vec.zipIdx n) = some pairs
      ∧ pairs.map Prod.fst = keys.drop n
      ∧ ∀ (i : Nat) (kv : K × V), pairs[i]? = some kv →
        ∃ x, vec[i]? = some x ∧ values[x]? = some kv.2 := by
    intro vec
    induction vec with
    | nil =>
      intro n hn _
      refine ⟨[], by simp [mapAll], ?_, by simp⟩
      rw [List.drop_of_length_le (by simp at hn; omega)]
      rfl
    | cons x vec ih =>
      intro n hn hx
      simp only [List.length_cons] at hn
      obtain ⟨pairs, h1, h2, h3⟩ := ih (n + 1) (by omega) (fun y hy => hx y (List.mem_cons_of_mem _ hy))
      have hlt : n < keys.length := by omega
      have hxl := hx x (by simp)
      refine ⟨(keys[n], values[x]) :: pairs, ?_, ?_, ?_⟩
      · rw [List.zipIdx_cons]
        simp [mapAll, hlt, hxl, h1]
      · rw [List.map_cons, h2]
        exact (List.drop_eq_getElem_cons hlt).symm
      · intro i kv hi
        cases i with
        | zero =>
          simp only [List.getElem?_cons_zero, Option.some.injEq] at hi
          subst hi
          exact ⟨x, by simp, by simp [hxl]⟩
        | succ i => simpa using h3 i kv (by simpa using hi)
  obtain ⟨pairs, h1, h2, h3⟩ := gen vec 0 (by omega) hv
  exact ⟨pairs, h1, by simpa using h2, h3⟩

/-- C40: if the extracted cost is no larger than the dual value then the extracted values are optimal:
no joint solution is cheaper, and unless the cost is infinite some joint solution with these values
attains it. -/
theorem C40_certificate (hm : makeSystem invalid dags weights = .ok D₀)
    (hd : ∀ d ∈ dags, GoodDag d) (hw : GoodWeights dags.length weights) (hr : SystemReach D₀ D)
    (dir : Direction) (vec : List Nat) (C : Cost)
    (he : D.data.greedy dir = some (vec, some C)) (hC : C ≤ dualValue D.data) :
    (∀ a paths, Joint D.data a paths → C ≤ jointCost D.data a paths)
    ∧ (C < ⊤ → ∃ paths, Joint D.data (fun v => vec.getD v 0) paths
        ∧ jointCost D.data (fun v => vec.getD v 0) paths = C) := by
  obtain ⟨-, -, h3, h4⟩ := C39_greedy hm hd hw hr dir vec (some C) he
  refine ⟨fun a paths hj => hC.trans (C36_lower_bound hm hd hw hr a paths hj), ?_⟩
  intro hlt
  have hk : D.keys ≠ [] := fun hc => by have := h3 hc; cases this
  obtain ⟨C', hc', hmin, -⟩ := h4 hk
  simp only [Option.some.injEq] at hc'
  subst hc'
  rcases hmin.attained with h' | h'
  · rw [h'] at hlt; simp at hlt
  · exact h'

/-! ## Sweeps -/

/-- C41: when the sweep solver returns, its log of objectives never decreases and starts no lower
than the initial dual value; the objective returned is that of the last step, it is the dual value of
the system it leaves behind, and with at least two variables there is one. Joint solutions and their
costs are unchanged. -/
theorem C41_sweeps (hm : makeSystem invalid dags weights = .ok D₀)
    (hd : ∀ d ∈ dags, GoodDag d) (hw : GoodWeights dags.length weights) (hr : SystemReach D₀ D)
    (tol : ℚ) (late : Nat → Bool) (fuel : Nat) (st : SweepState)
    (he : D.data.solve tol late fuel = .ok st) :
    st.objectiveAtStep.Pairwise (· ≤ ·)
    ∧ (∀ c ∈ st.objectiveAtStep, dualValue D.data ≤ c)
    ∧ st.objectiveAtSweep.getLast? = some st.objectiveAtStep.getLast?
    ∧ (∀ c, st.objectiveAtStep.getLast? = some c → c = dualValue st.system)
    ∧ st.variableAtStep.length = st.objectiveAtStep.length
    ∧ st.objectiveAtSweep.length = st.stepsAtSweep.length
    ∧ (∀ (i : Nat) (o : Option Cost) (n : Nat), st.objectiveAtSweep[i]? = some o →
        st.stepsAtSweep[i]? = some n → n ≤ st.objectiveAtStep.length ∧
          o = (st.objectiveAtStep.take n).getLast?)
    ∧ dualValue D.data ≤ dualValue st.system
    ∧ ∀ a paths, (Joint st.system a paths ↔ Joint D.data a paths)
        ∧ jointCost st.system a paths = jointCost D.data a paths := by
  obtain ⟨h1, h2, h3, h4⟩ := solve_inv (built_inv hm hd hw hr).sys he
  refine ⟨h1.sorted, h1.lower, by rw [h4, h1.last], ?_, h1.count, h2.lengths, h2.entries, h1.mono, ?_⟩
  · intro c hc
    rw [← h1.last] at hc
    exact h1.current c hc
  · intro a paths
    exact ⟨h1.same.joint, h1.same.cost a paths⟩

/-- C41: the first two sweeps visit all variables but the last forwards and all but the first
backwards (when no timeout intervenes), so with at least two variables there is an objective. -/
theorem C41_order (hm : makeSystem invalid dags weights = .ok D₀)
    (hd : ∀ d ∈ dags, GoodDag d) (hw : GoodWeights dags.length weights) (hr : SystemReach D₀ D)
    (tol : ℚ) (late : Nat → Bool) (fuel : Nat) (st : SweepState)
    (he : D.data.solve tol late fuel = .ok st) :
    List.range (D.keys.length - 1) <+: st.variableAtStep
    ∧ (late 1 = false → List.range (D.keys.length - 1)
        ++ (List.range' 1 (D.keys.length - 1)).reverse <+: st.variableAtStep) := by
  have hI := built_inv hm hd hw hr
  rw [hI.keys]
  have hpre : ∀ (fuel : Nat) (st st' : SweepState), SweepInv D.data st →
      solveLoop tol late fuel st = .ok st' → st.variableAtStep <+: st'.variableAtStep := by
    intro fuel
    induction fuel with
    | zero => intro st st' _ h; simp [solveLoop] at h
    | succ fuel ih =>
      intro st st' h he
      unfold solveLoop at he
      split at he
      · cases he
      · rename_i st1 c1 h1
        obtain ⟨i1, -, -, i4, -⟩ := runSweep_inv _ _ _ _ _ h
          (fun v hv => by rw [← h.same.keys]; exact forwardVars_lt hv) h1
        have p1 : st.variableAtStep <+: st1.record.variableAtStep := by
          change _ <+: st1.variableAtStep
          rw [i4]; exact List.prefix_append _ _
        dsimp only at he
        split at he
        · split at he
          · exact p1.trans (ih _ _ (record_inv i1) he)
          · cases he; exact p1
        · split at he
          · cases he
          · rename_i st2 c2 h2
            obtain ⟨k1, -, -, k4, -⟩ := runSweep_inv _ _ _ _ _ (record_inv i1)
              (fun v hv => by rw [← h.same.keys]; exact reverseVars_lt hv) h2
            have p2 : st1.record.variableAtStep <+: st2.record.variableAtStep := by
              change _ <+: st2.variableAtStep
              rw [k4]; exact List.prefix_append _ _
            split at he
            · exact (p1.trans p2).trans (ih _ _ (record_inv k1) he)
            · cases he; exact p1.trans p2
  have h := start_inv hI.sys
  unfold System.solve at he
  cases fuel with
  | zero => simp [solveLoop] at he
  | succ fuel =>
    unfold solveLoop at he
    split at he
    · cases he
    · rename_i st1 c1 h1
      obtain ⟨i1, i2, i3, i4, -⟩ := runSweep_inv _ _ _ _ _ h (fun v hv => forwardVars_lt hv) h1
      simp only [List.nil_append] at i4
      have e1 : st1.record.variableAtStep = List.range (D.data.numKeys - 1) := i4
      have hlen : st1.record.objectiveAtSweep.length = 1 := by
        simp [SweepState.record, i2]
      dsimp only at he
      rw [hlen] at he
      split at he
      · rename_i hl
        refine ⟨?_, fun hc => by rw [hc] at hl; cases hl⟩
        split at he
        · rw [← e1]; exact hpre _ _ _ (record_inv i1) he
        · cases he
          rw [e1]
          exact List.prefix_refl _
      · split at he
        · cases he
        · rename_i st2 c2 h2
          obtain ⟨k1, -, -, k4, -⟩ := runSweep_inv _ _ _ _ _ (record_inv i1)
            (fun v hv => reverseVars_lt hv) h2
          have e2 : st2.record.variableAtStep = List.range (D.data.numKeys - 1)
              ++ (List.range' 1 (D.data.numKeys - 1)).reverse := by
            change st2.variableAtStep = _
            rw [k4, e1]
            rfl
          have : List.range (D.data.numKeys - 1) ++ (List.range' 1 (D.data.numKeys - 1)).reverse
              <+: st.variableAtStep := by
            rw [← e2]
            split at he
            · exact hpre _ _ _ (record_inv k1) he
            · cases he; exact List.prefix_refl _
          exact ⟨(List.prefix_append _ _).trans this, fun _ => this⟩

/-- C41: the sweep solver terminates, whatever the timeout does, if the tolerance is positive, every
DAG has a variable and there is a joint solution of finite cost; the result does not depend on how
much longer it would have been allowed to run. -/
theorem C41_terminates (hm : makeSystem invalid dags weights = .ok D₀)
    (hd : ∀ d ∈ dags, GoodDag d) (hw : GoodWeights dags.length weights) (hr : SystemReach D₀ D)
    (hk : ∀ d ∈ dags, d.2.1 ≠ []) (a : Nat → Nat) (paths : List (List PackedEdge))
    (hj : Joint D.data a paths) (hfin : jointCost D.data a paths < ⊤) (tol : ℚ) (htol : 0 < tol)
    (late : Nat → Bool) :
    ∃ n st, ∀ fuel, n ≤ fuel → D.data.solve tol late fuel = .ok st := by
  obtain ⟨h1, h2, h3, h4, h5, h6, h7⟩ := makeSystem_ok hm
  have hD : DInv D₀ := ⟨makeSystem_inv hm hd hw, h4.symm, h5.symm⟩
  have hI := built_inv hm hd hw hr
  obtain ⟨r1, r2, r3, r4, r5⟩ := reach_same hD hr
  have hpos : ∀ s ∈ D.data.subs, 0 < s.memo.dag.numKeys := by
    intro s hs
    have : (s.view.dag, s.view.index) ∈ (views D.data).map fun w => (w.dag, w.index) :=
      List.mem_map.2 ⟨s.view, List.mem_map.2 ⟨s, hs, rfl⟩, rfl⟩
    rw [r5] at this
    obtain ⟨w, hw', hwe⟩ := List.mem_map.1 this
    obtain ⟨s0, hs0, rfl⟩ := List.mem_map.1 hw'
    rw [h7] at hs0
    obtain ⟨⟨d, i⟩, hx, rfl⟩ := List.mem_map.1 hs0
    have hmem : d ∈ dags := List.fst_mem_of_mem_zipIdx hx
    simp only [Prod.mk.injEq] at hwe
    have e1 : s.memo.dag = d.1 := hwe.1.symm
    rw [e1, ← (hd d hmem).keys_length]
    exact List.length_pos_iff.2 (hk d hmem)
  obtain ⟨B, hB⟩ : ∃ B : ℚ, jointCost D.data a paths = (B : Cost) := by
    rcases WithTop.ne_top_iff_exists.1 hfin.ne with ⟨B, hB⟩
    exact ⟨B, hB.symm⟩
  have hbound : ∀ st, SweepInv D.data st → dualValue st.system ≤ (B : Cost) := by
    intro st hst
    rw [← hB, ← hst.same.cost, dualValue_eq hst.inv]
    exact hst.inv.inv.cost_le ((joint_iff _ _ _).1 (hst.same.joint.2 hj))
  obtain ⟨n, hn1, hn2⟩ : ∃ n : Nat, 0 < n ∧
      ((B - (n - 1) * tol : ℚ) : Cost) < dualValue D.data := by
    generalize dualValue D.data = d0
    induction d0 using WithTop.recTopCoe with
    | top => exact ⟨1, by simp, WithTop.coe_lt_top _⟩
    | coe d0 =>
      obtain ⟨m, hm'⟩ := exists_nat_gt ((B - d0) / tol)
      refine ⟨m + 1, by omega, ?_⟩
      rw [WithTop.coe_lt_coe]
      rw [div_lt_iff₀ htol] at hm'
      push_cast
      linarith
  obtain ⟨st, hst⟩ := solveLoop_stops (late := late) hpos hbound n (n + 1) _ (start_inv hI.sys)
    (by omega) (by simp) (fun _ _ => hn2) (fun _ => hn1)
  exact ⟨n + 1, st, fun fuel hf => solveLoop_mono _ _ _ hst fuel hf⟩

/-- C41: with at most one variable the solver returns at once, without any objective, and the system
stays as it was. -/
theorem C41_at_most_one_variable (hm : makeSystem invalid dags weights = .ok D₀)
    (hd : ∀ d ∈ dags, GoodDag d) (hw : GoodWeights dags.length weights) (hr : SystemReach D₀ D)
    (hN : D.keys.length ≤ 1) (tol : ℚ) (late : Nat → Bool) (fuel : Nat) (st : SweepState)
    (he : D.data.solve tol late fuel = .ok st) :
    st.system = D.data ∧ st.objectiveAtStep = [] ∧ st.last = none := by
  have hI := built_inv hm hd hw hr
  have h0 : D.data.numKeys - 1 = 0 := by rw [← hI.keys]; omega
  unfold System.solve at he
  cases fuel with
  | zero => simp [solveLoop] at he
  | succ fuel =>
    simp only [solveLoop, forwardVars, reverseVars, h0, List.range_zero, runSweep, List.range'_zero,
      List.reverse_nil, Bool.false_eq_true, ↓reduceIte] at he
    split at he <;> (cases he; exact ⟨rfl, rfl, rfl⟩)

/-! ## C55: partial commitment -/

/-- C55: partial commitment never makes a joint solution cheaper and never adds one; a joint solution
whose cost equals the dual value keeps its cost, so that an optimum certified by the dual value is not
lost. -/
theorem C55_partial_commitment (hm : makeSystem invalid dags weights = .ok D₀)
    (hd : ∀ d ∈ dags, GoodDag d) (hw : GoodWeights dags.length weights) (hr : SystemReach D₀ D)
    (dir : Direction) (quantile : (Nat → Nat → Cost) → Quantile) (strictness epsilon : ℚ)
    (hs : 0 ≤ strictness) (S : System) (status : CommitStatus)
    (he : D.data.partiallyCommit dir quantile strictness epsilon = some (S, status)) (a : Nat → Nat)
    (paths : List (List PackedEdge)) :
    (Joint S a paths ↔ Joint D.data a paths)
    ∧ jointCost D.data a paths ≤ jointCost S a paths
    ∧ (Joint D.data a paths → jointCost D.data a paths ≤ dualValue D.data →
        jointCost S a paths = jointCost D.data a paths) := by
  obtain ⟨-, h2, h3, -⟩ := commit_spec (built_inv hm hd hw hr).sys he
  exact ⟨h2.joint, h2.cost_le a paths, h3 hs a paths⟩

/-- C55: values are only ever forbidden entirely. -/
theorem C55_only_forbids (hm : makeSystem invalid dags weights = .ok D₀)
    (hd : ∀ d ∈ dags, GoodDag d) (hw : GoodWeights dags.length weights) (hr : SystemReach D₀ D)
    (dir : Direction) (quantile : (Nat → Nat → Cost) → Quantile) (strictness epsilon : ℚ)
    (S : System) (status : CommitStatus)
    (he : D.data.partiallyCommit dir quantile strictness epsilon = some (S, status)) (v x : Nat) :
    S.extra v x = D.data.extra v x ∨ S.extra v x = ⊤ :=
  (commit_spec (built_inv hm hd hw hr).sys he).2.1.extra v x

/-- C55: unless it reports a partial assignment, every joint solution of finite cost keeps its
cost. -/
theorem C55_no_assignment (hm : makeSystem invalid dags weights = .ok D₀)
    (hd : ∀ d ∈ dags, GoodDag d) (hw : GoodWeights dags.length weights) (hr : SystemReach D₀ D)
    (dir : Direction) (quantile : (Nat → Nat → Cost) → Quantile) (strictness epsilon : ℚ)
    (S : System) (status : CommitStatus)
    (he : D.data.partiallyCommit dir quantile strictness epsilon = some (S, status))
    (hst : status ≠ .madePartialAssignment) (a : Nat → Nat) (paths : List (List PackedEdge))
    (hj : Joint D.data a paths) (hfin : jointCost D.data a paths < ⊤) :
    jointCost S a paths = jointCost D.data a paths :=
  (commit_spec (built_inv hm hd hw hr).sys he).2.2.2 hst a paths hj hfin

/-! ## C56: constraints and symmetry breaking -/

open Classical in
/-- C56: constraining a system adds the penalty once for each constraint that a joint solution
violates, and nothing else. -/
theorem C56_constrain (hm : makeSystem invalid dags weights = .ok D₀)
    (hd : ∀ d ∈ dags, GoodDag d) (hw : GoodWeights dags.length weights) (hr : SystemReach D₀ D)
    (hv : D₀.values.Nodup) (penalty : Cost) (cs : List (K × V)) (D' : DualSystem K V)
    (he : DualSystem.constrain penalty cs D = some D') (a : Nat → Nat)
    (paths : List (List PackedEdge)) :
    (Joint D'.data a paths ↔ Joint D.data a paths)
    ∧ jointCost D'.data a paths = jointCost D.data a paths
      + (cs.map fun c => if ∃ v, D.keys[v]? = some c.1 ∧ D.values[a v]? = some c.2 then 0
          else penalty).sum := by
  obtain ⟨h1, h2, h3, h4, h5, h6, h7⟩ := makeSystem_ok hm
  have hD : DInv D₀ := ⟨makeSystem_inv hm hd hw, h4.symm, h5.symm⟩
  have hI := built_inv hm hd hw hr
  obtain ⟨r1, r2, -⟩ := reach_same hD hr
  have hkn : D.keys.Nodup := by rw [r1, h1]; exact systemKeys_nodup dags
  have hvn : D.values.Nodup := by rw [r2]; exact hv
  constructor
  · obtain ⟨-, -, r3, r4, r5⟩ := reach_same hI (.constrain .start he)
    rw [joint_iff, joint_iff, r3, r4]
    exact ⟨vjoint_same r5.symm, vjoint_same r5⟩
  · clear hr hD hw hd hm r1 r2 h1 h2 h3 h4 h5 h6 h7
    induction cs generalizing D with
    | nil =>
      simp only [DualSystem.constrain, Option.some.injEq] at he
      subst he
      simp
    | cons c cs ih =>
      unfold DualSystem.constrain at he
      split at he
      · rename_i v i hv' hi
        have hlt : v < D.data.numKeys := by rw [← hI.keys]; exact dictIndex_lt hv'
        have hI' : DInv { D with data := D.data.addUnary v (setEntry (fun _ => penalty) i 0) } :=
          ⟨(hI.sys.addUnary hlt _).1, hI.keys, hI.values⟩
        rw [ih he hI' hkn hvn, addUnary_cost hlt]
        rw [List.map_cons, List.sum_cons, add_assoc]
        congr 2
        by_cases hc : i = a v
        · subst hc
          have : ∃ v, D.keys[v]? = some c.1 ∧ D.values[a v]? = some c.2 :=
            ⟨v, dictIndex_get hv', dictIndex_get hi⟩
          simp [setEntry, this]
        · have : ¬ ∃ v, D.keys[v]? = some c.1 ∧ D.values[a v]? = some c.2 := by
            rintro ⟨u, hu1, hu2⟩
            have e1 := dictIndex_of_get hkn hu1
            rw [hv'] at e1
            simp only [Option.some.injEq] at e1
            subst e1
            have e2 := dictIndex_of_get hvn hu2
            rw [hi] at e2
            simp only [Option.some.injEq] at e2
            exact hc e2
          rw [if_neg this]
          simp [setEntry, Ne.symm hc]
      · cases he

/-- C56: constraining succeeds exactly if all keys and values are known. -/
theorem C56_constrain_defined (D : DualSystem K V) (penalty : Cost) (cs : List (K × V)) :
    (DualSystem.constrain penalty cs D).isSome ↔ ∀ c ∈ cs, c.1 ∈ D.keys ∧ c.2 ∈ D.values := by
  induction cs generalizing D with
  | nil => simp [DualSystem.constrain]
  | cons c cs ih =>
    rw [List.forall_mem_cons]
    unfold DualSystem.constrain
    split
    · rename_i v i hv hi
      rw [ih]
      exact ⟨fun h => ⟨⟨dictIndex_mem hv, dictIndex_mem hi⟩, h⟩, fun h => h.2⟩
    · rename_i hno
      simp only [Option.isSome_none, Bool.false_eq_true, false_iff, not_and]
      rintro ⟨hk, hv⟩
      obtain ⟨v, hv1⟩ := dictIndex_isSome hk
      obtain ⟨i, hi⟩ := dictIndex_isSome hv
      exact absurd hi (hno v i hv1)

/-- C56: symmetry breaking adds the drawn amount for the value of each variable. -/
theorem C56_break_symmetry (S : System) (noise : Nat → Nat → ℚ) (a : Nat → Nat)
    (paths : List (List PackedEdge)) :
    jointCost (S.breakSymmetry noise) a paths = jointCost S a paths
      + ((List.range S.numKeys).map fun v => ((noise v (a v) : ℚ) : Cost)).sum := by
  unfold System.breakSymmetry
  have : ∀ (vs : List Nat) (T : System), (∀ v ∈ vs, v < T.numKeys) →
      jointCost (vs.foldl (fun S v => S.addUnary v (fun x => (noise v x : Cost))) T) a paths
        = jointCost T a paths + (vs.map fun v => ((noise v (a v) : ℚ) : Cost)).sum := by
    intro vs
    induction vs with
    | nil => intro T _; simp
    | cons v vs ih =>
      intro T hvs
      rw [List.foldl_cons, ih (T.addUnary v _) (fun u hu => hvs u (List.mem_cons_of_mem _ hu)),
        addUnary_cost (hvs v (by simp)), List.map_cons, List.sum_cons, add_assoc]
  exact this _ S (by simp)

end

/-! ## A concrete system

Two DAGs; the first assigns the variables 3 and 7, the second only the variable 7. -/

/-- A DAG with two variables. -/
def twoPacked : PackedDag where
  numStates := 3
  numKeys := 2
  numValues := 2
  edges := [⟨0, 1, 1, some (0, 0)⟩, ⟨0, 1, 2, some (0, 1)⟩, ⟨1, 2, 1, some (1, 0)⟩,
    ⟨1, 2, 3, some (1, 1)⟩]
  edgeBounds := [0, 0, 2, 2, 4, 4]
  stateBounds := [0, 1, 2, 3]

theorem twoPacked_wf : PackedWF twoPacked := by
  have heb : ∀ i, twoPacked.eb i = [0, 0, 2, 2, 4, 4].getD i 0 := fun _ => rfl
  have hsb : ∀ i, twoPacked.sb i = [0, 1, 2, 3].getD i 0 := fun _ => rfl
  have hk : twoPacked.numKeys = 2 := rfl
  refine ⟨rfl, rfl, ?_, rfl, rfl, ?_, ?_, ?_, ?_, ?_, ?_⟩
  · intro i hi
    rw [hk] at hi
    rcases (by omega : i = 0 ∨ i = 1 ∨ i = 2) with rfl | rfl | rfl <;> decide
  · intro i hi
    rw [hk] at hi
    rcases (by omega : i = 0 ∨ i = 1 ∨ i = 2 ∨ i = 3 ∨ i = 4) with rfl | rfl | rfl | rfl | rfl <;>
      decide
  · intro τ hτ k e h1 h2 h3
    rw [hk] at hτ
    rcases (by omega : τ = 0 ∨ τ = 1 ∨ τ = 2) with rfl | rfl | rfl <;> simp [heb] at h1 h2 <;> omega
  · intro v hv k e h1 h2 h3
    rw [hk] at hv
    have : k = 0 ∨ k = 1 ∨ k = 2 ∨ k = 3 := by
      rcases (by omega : v = 0 ∨ v = 1) with rfl | rfl <;> simp [heb] at h1 h2 <;> omega
    rcases (by omega : v = 0 ∨ v = 1) with rfl | rfl <;>
      rcases this with rfl | rfl | rfl | rfl <;> simp [heb] at h1 h2 <;>
      · simp [twoPacked] at h3
        subst h3
        simp [HasTag, twoPacked, PackedDag.sb]
  · constructor
    · simp [TopoWeak, twoPacked]
    · simp [twoPacked]
  · simp [HasTag, hsb]
  · simp [HasTag, twoPacked, PackedDag.sb]

/-- The DAGs of the system. -/
def sampleDags : List (PackedDag × List Nat × List Nat) :=
  [(twoPacked, [3, 7], [10, 20]), (samplePacked, [7], [10, 20])]

theorem sampleDags_good : ∀ d ∈ sampleDags, GoodDag d := by
  intro d hd
  simp only [sampleDags, List.mem_cons, List.not_mem_nil, or_false] at hd
  rcases hd with rfl | rfl
  · exact ⟨twoPacked_wf, by simp, rfl, rfl⟩
  · exact ⟨samplePacked_wf, by simp, rfl, rfl⟩

theorem sampleDags_keys : systemKeys sampleDags = [3, 7] := by
  have : firstSeen id (sampleDags.flatMap fun d => d.2.1) = [3, 7] := by decide
  unfold systemKeys
  rw [this]
  exact List.mergeSort_of_pairwise (by simp)

/-- The hypotheses of the theorems above are met by it: it can be built, also with weights … -/
theorem sample_made : ∃ D, makeSystem 7 sampleDags (some [1, 2]) = .ok D ∧ D.keys = [3, 7]
    ∧ D.values = [10, 20] ∧ GoodWeights sampleDags.length (some [1, 2])
    ∧ ∀ d ∈ sampleDags, d.2.1 ≠ [] := by
  cases h : makeSystem 7 sampleDags (some [1, 2]) with
  | error e =>
    exfalso
    unfold makeSystem sampleDags at h
    simp at h
  | ok D =>
    obtain ⟨h1, h2, -⟩ := makeSystem_ok h
    refine ⟨D, rfl, h1.trans sampleDags_keys, ?_, ?_, ?_⟩
    · exact (h2 _ (by simp [sampleDags] : (twoPacked, [3, 7], [10, 20]) ∈ sampleDags)).symm
    · rintro w hw
      simp only [Option.some.injEq] at hw
      subst hw
      exact ⟨rfl, by simp⟩
    · simp [sampleDags]

theorem sample_joint_paths {D : DualSystem Nat Nat} (h : makeSystem 7 sampleDags (some [1, 2]) = .ok D) :
    Joint D.data (fun v => if v = 1 then 1 else 0)
      [[⟨0, 1, 1, some (0, 0)⟩, ⟨1, 2, 3, some (1, 1)⟩], [⟨0, 1, 1, none⟩, ⟨1, 3, 2, some (0, 1)⟩]]
    ∧ jointCost D.data (fun v => if v = 1 then 1 else 0)
      [[⟨0, 1, 1, some (0, 0)⟩, ⟨1, 2, 3, some (1, 1)⟩], [⟨0, 1, 1, none⟩, ⟨1, 3, 2, some (0, 1)⟩]]
      = ((7 : ℚ) : Cost) := by
  obtain ⟨D', h', hk, hv, hw, -⟩ := sample_made
  rw [h] at h'
  simp only [Except.ok.injEq] at h'
  subst h'
  refine ⟨?_, ?_⟩
  · rw [C35_joint_solutions 7 sampleDags (some [1, 2]) D D h sampleDags_good hw .start]
    rw [hk, hv]
    refine ⟨?_, ?_⟩
    · intro v hv'
      split <;> simp
    · unfold sampleDags
      refine .cons ⟨?_, ?_⟩ (.cons ⟨?_, ?_⟩ .nil)
      · rw [Complete, PackedWalk, Walk.cons_iff, Walk.cons_iff, Walk.nil_iff]
        simp [twoPacked]
      · intro v key k x h1 h2 h3
        simp only [assignments, List.filterMap_cons, List.filterMap_nil, List.mem_cons, Prod.mk.injEq,
          List.not_mem_nil, or_false] at h3
        rcases h3 with ⟨rfl, rfl⟩ | ⟨rfl, rfl⟩
        · simp at h2
          subst h2
          match v, h1 with
          | 0, _ => rfl
          | 1, h1 => simp at h1
        · simp at h2
          subst h2
          match v, h1 with
          | 0, h1 => simp at h1
          | 1, _ => rfl
      · rw [Complete, PackedWalk, Walk.cons_iff, Walk.cons_iff, Walk.nil_iff]
        simp [samplePacked]
      · intro v key k x h1 h2 h3
        simp only [assignments, List.filterMap_cons, List.filterMap_nil, List.mem_cons, Prod.mk.injEq,
          List.not_mem_nil, or_false] at h3
        obtain ⟨rfl, rfl⟩ := h3
        simp at h2
        subst h2
        match v, h1 with
        | 0, h1 => simp at h1
        | 1, _ => rfl
  · obtain ⟨-, -, -, h4, -, h6, -⟩ := makeSystem_ok h
    unfold jointCost
    rw [h6]
    have hz : ((List.range D.data.numKeys).map fun v => (fun _ _ => (0 : Cost)) v
        (if v = 1 then 1 else 0)).sum = 0 := by
      apply List.sum_eq_zero
      intro c hc
      obtain ⟨u, -, rfl⟩ := List.mem_map.1 hc
      rfl
    rw [hz]
    simp only [List.map_cons, List.map_nil, weight, List.sum_cons, List.sum_nil, add_zero]
    have h1 : ((1 : Cost) + 3) = ((4 : ℚ) : Cost) := by
      rw [show (4 : ℚ) = 1 + 3 by norm_num]; rfl
    have h2 : ((1 : Cost) + 2) = ((3 : ℚ) : Cost) := by
      rw [show (3 : ℚ) = 1 + 2 by norm_num]; rfl
    rw [h1, h2, ← WithTop.coe_add]
    congr 1
    norm_num

/-- … it has a joint solution of finite cost, in which the DAGs agree on variable 7 … -/
theorem sample_joint {D : DualSystem Nat Nat} (h : makeSystem 7 sampleDags (some [1, 2]) = .ok D) :
    ∃ a paths, Joint D.data a paths ∧ jointCost D.data a paths = ((7 : ℚ) : Cost) :=
  ⟨_, _, sample_joint_paths h⟩

/-- … so the sweep solver terminates on it, and averaging and greedy extraction succeed. -/
example : ∃ D n st, makeSystem 7 sampleDags (some [1, 2]) = .ok D
    ∧ ∀ fuel, n ≤ fuel → D.data.solve 1 (fun _ => false) fuel = .ok st := by
  obtain ⟨D, h, hk, hv, hw, hne⟩ := sample_made
  obtain ⟨a, paths, hj, hc⟩ := sample_joint h
  obtain ⟨n, st, hst⟩ := C41_terminates h sampleDags_good hw .start hne a paths hj
    (by rw [hc]; exact WithTop.coe_lt_top _) 1 (by norm_num) (fun _ => false)
  exact ⟨D, n, st, h, hst⟩

example : ∃ D vec c, makeSystem 7 sampleDags (some [1, 2]) = .ok D
    ∧ D.data.greedy .forward = some (vec, c) ∧ vec.length = 2 := by
  obtain ⟨D, h, hk, hv, hw, hne⟩ := sample_made
  obtain ⟨vec, c, hg⟩ := C39_greedy_defined h sampleDags_good hw .start hne (by rw [hv]; simp) .forward
  refine ⟨D, vec, c, h, hg, ?_⟩
  rw [(C39_greedy h sampleDags_good hw .start .forward vec c hg).1, hk]
  rfl

example : ∃ D D', makeSystem 7 sampleDags (some [1, 2]) = .ok D
    ∧ DualSystem.constrain ⊤ [(7, 10)] D = some D' ∧ SystemReach D D' := by
  obtain ⟨D, h, hk, hv, hw, hne⟩ := sample_made
  have := (C56_constrain_defined D ⊤ [(7, 10)]).2 (by simp [hk, hv])
  rw [Option.isSome_iff_exists] at this
  obtain ⟨D', hD'⟩ := this
  exact ⟨D, D', h, hD', .constrain .start hD'⟩

example : ∃ D S c, makeSystem 7 sampleDags (some [1, 2]) = .ok D ∧ 0 < D.data.numKeys
    ∧ D.data.average 0 = some (S, c) := by
  obtain ⟨D, h, hk, hv, hw, hne⟩ := sample_made
  obtain ⟨-, -, -, h4, -, -, h7⟩ := makeSystem_ok h
  have := (C37_defined h sampleDags_good hw .start 0).1.2 (by
    intro s hs _
    rw [h7] at hs
    obtain ⟨⟨d, i⟩, hx, rfl⟩ := List.mem_map.1 hs
    have hmem : d ∈ sampleDags := List.fst_mem_of_mem_zipIdx hx
    change 0 < d.1.numKeys
    rw [← (sampleDags_good d hmem).keys_length]
    exact List.length_pos_iff.2 (hne d hmem))
  rw [Option.isSome_iff_exists] at this
  obtain ⟨⟨S, c⟩, hS⟩ := this
  exact ⟨D, S, c, h, by rw [h4, hk]; decide, hS⟩

end RUSure.Props
