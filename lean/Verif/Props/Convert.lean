import Verif.Lemmas.ConvertMain
import Verif.Props.PackedDag

/-! # Conversion to packed DAGs: C26, C27, C28 -/

namespace RUSure.Props
open RUSure RUSure.Spec RUSure.Lemmas

section
variable {S K V I : Type} [DecidableEq S] [LinearOrder K] [LinearOrder V]

/-- C26: every solution of the original DAG has a packed counterpart: a complete path that is
translated back to it. -/
theorem C26_forward (d : Dag S K V I) (ht : Topo Edge.source Edge.dest d.edges) (missing : V)
    (ordering : Option (List V)) (c : Conversion S K V) (h : d.convert missing ordering = .ok c)
    (p : List (Edge S K V I)) (hp : DagSolution d p) :
    ∃ q, IndexedPath c.packed q ∧ Complete c.packed (q.map Prod.snd) ∧ c.originalPath d q = p := by
  obtain ⟨T, hT⟩ := convert_ok ht h
  exact hT.forward hp

/-- C26: every complete packed path is translated back to a solution of the original DAG of the same
cost; it reports, for every variable in sorted order, the value that the original path assigns to it,
or the missing value if it assigns none; and those values are the ones its edges carry. -/
theorem C26_backward (d : Dag S K V I) (ht : Topo Edge.source Edge.dest d.edges) (missing : V)
    (ordering : Option (List V)) (c : Conversion S K V) (h : d.convert missing ordering = .ok c)
    (q : List (Nat × PackedEdge)) (hi : IndexedPath c.packed q)
    (hq : Complete c.packed (q.map Prod.snd)) :
    DagSolution d (c.originalPath d q)
    ∧ plainCost (q.map Prod.snd) = weight Edge.cost (c.originalPath d q)
    ∧ c.pathAssignments q
        = c.keys.map (fun k => (k, (valueOn (c.originalPath d q) k).getD missing))
    ∧ (assignments (q.map Prod.snd)).map (fun kv => (c.keys[kv.1]?, c.values[kv.2]?))
        = (c.pathAssignments q).map (fun kv => (some kv.1, some kv.2)) := by
  obtain ⟨T, hT⟩ := convert_ok ht h
  obtain ⟨t, hc, hw⟩ := hT.backward hi hq
  obtain ⟨b1, b2, b3, -, b5, b6⟩ := backward_walk (orderedKeys_nodup d) hT.tables hT.mem hw
  have ho : c.originalPath d q = origins d t := hc.original
  have hkeys : c.keys = d.orderedKeys := hT.asm.keys_eq
  have hvals : c.values = d.orderedValues missing ordering := hT.asm.values_eq
  rw [ho]
  have hasg : c.pathAssignments q
      = c.keys.map (fun k => (k, (valueOn (origins d t) k).getD missing)) := by
    rw [hc.assignments, b6, hkeys, List.filterMap_map]
    simp only [Nat.sub_zero]
    rw [← List.range_eq_range']
    apply List.ext_getElem?
    intro j
    by_cases hj : j < d.orderedKeys.length
    · have : ((List.range d.orderedKeys.length).filterMap
          ((fun kv => Option.map (fun k => (k, kv.2)) d.orderedKeys[kv.1]?) ∘
            filled d.orderedKeys missing (origins d t)))
          = (List.range d.orderedKeys.length).map (fun i => match d.orderedKeys[i]? with
            | some k => (k, (valueOn (origins d t) k).getD missing)
            | none => (d.orderedKeys[0], missing)) := by
        rw [← List.filterMap_eq_map]
        apply List.filterMap_congr
        intro i hi
        rw [List.mem_range] at hi
        simp [filled, List.getElem?_eq_getElem hi]
      rw [this]
      simp [hj]
    · rw [List.getElem?_eq_none, List.getElem?_eq_none (by simpa using hj)]
      refine le_trans (List.length_filterMap_le _ _) ?_
      simpa using hj
  refine ⟨⟨b1, b2⟩, ?_, hasg, ?_⟩
  · unfold plainCost
    rw [hc.weight, b3]
  · rw [hc.assignments]
    unfold assignments
    rw [hc.reqs]
    have hex : ∀ kv ∈ t.filterMap TaggedEdge.req, (∃ k, c.keys[kv.1]? = some k)
        ∧ ∃ v, dictIndex c.values kv.2 = some v ∧ c.values[v]? = some kv.2 := by
      intro kv hkv
      constructor
      · rw [b6] at hkv
        obtain ⟨i, hi, rfl⟩ := List.mem_map.1 hkv
        rw [List.mem_range'_1] at hi
        rw [hkeys]
        exact ⟨d.orderedKeys[i]'(by simp only at hi; omega), List.getElem?_eq_getElem _⟩
      · obtain ⟨e, he, hr⟩ := List.mem_filterMap.1 hkv
        have hmem := Walk.mem hw e he
        obtain ⟨k, hk⟩ := List.mem_iff_getElem?.1 hmem
        have hlt : k < c.packed.edges.length := by
          rw [(mapAll_get hT.asm.packed).1]
          exact (List.getElem?_eq_some_iff.1 hk).1
        have h2 := (mapAll_get hT.asm.packed).2 k
        rw [hk, Option.bind_some, List.getElem?_eq_getElem hlt] at h2
        rcases (packEdge_some h2.symm).2.2.2 with ⟨h3, -⟩ | ⟨k', x, v, h3, h4, -⟩
        · rw [hr] at h3; simp at h3
        · rw [hr] at h3
          simp only [Option.some.injEq] at h3
          subst h3
          rw [hvals]
          exact ⟨v, h4, dictIndex_get h4⟩
    rw [← hvals]
    generalize t.filterMap TaggedEdge.req = l at hex
    clear b6
    induction l with
    | nil => rfl
    | cons kv l ih =>
      obtain ⟨⟨k, hk⟩, v, hv, hv'⟩ := hex kv (by simp)
      rw [List.filterMap_cons, List.filterMap_cons, hv, hk]
      simp only [Option.map_some, List.map_cons]
      rw [ih (fun kv' h' => hex kv' (by simp [h'])), hk, hv']

/-- C26: different complete packed paths come from different sequences of original edges (given by
their positions in the list of edges). -/
theorem C26_unique (d : Dag S K V I) (ht : Topo Edge.source Edge.dest d.edges) (missing : V)
    (ordering : Option (List V)) (c : Conversion S K V) (h : d.convert missing ordering = .ok c)
    (q q' : List (Nat × PackedEdge)) (hi : IndexedPath c.packed q) (hi' : IndexedPath c.packed q')
    (hq : Complete c.packed (q.map Prod.snd)) (hq' : Complete c.packed (q'.map Prod.snd))
    (heq : q.filterMap (fun x => (c.taggedEdges[x.1]?).bind TaggedEdge.info)
      = q'.filterMap (fun x => (c.taggedEdges[x.1]?).bind TaggedEdge.info)) : q = q' := by
  obtain ⟨T, hT⟩ := convert_ok ht h
  obtain ⟨t, hc, hw⟩ := hT.backward hi hq
  obtain ⟨t', hc', hw'⟩ := hT.backward hi' hq'
  have key : ∀ {q t}, Corr c (d.orderedValues missing ordering) q t →
      q.filterMap (fun x => (c.taggedEdges[x.1]?).bind TaggedEdge.info)
        = t.filterMap TaggedEdge.info := by
    intro q t hc
    induction hc with
    | nil => rfl
    | cons h _ ih => rw [List.filterMap_cons, List.filterMap_cons, ih, h.1, Option.bind_some]
  rw [key hc, key hc'] at heq
  have hlp : lp T d.final ≤ d.orderedKeys.length := hT.tables.lp_le _
  have := hT.unique_walk (fun e he => hT.final_sink e he _ hlp) hw hw' heq
  subst this
  exact hT.corr_unique hc hc'

/-- Every path of a packed DAG can be given with positions. -/
theorem exists_indexed (d : PackedDag) {a b : Nat} {p : List PackedEdge} (h : PackedWalk d a b p) :
    ∃ q, IndexedPath d q ∧ q.map Prod.snd = p := by
  have hm := Walk.mem h
  clear h
  induction p with
  | nil => exact ⟨[], by simp [IndexedPath], rfl⟩
  | cons e p ih =>
    obtain ⟨q, h1, h2⟩ := ih (fun e' he' => hm e' (by simp [he']))
    obtain ⟨k, hk⟩ := List.mem_iff_getElem?.1 (hm e (by simp))
    refine ⟨(k, e) :: q, ?_, by simp [h2]⟩
    intro o ho
    rcases List.mem_cons.1 ho with rfl | ho
    · exact hk
    · exact h1 o ho

/-- C26: so the cheapest solutions have the same cost. -/
theorem C26_minimum (d : Dag S K V I) (ht : Topo Edge.source Edge.dest d.edges) (missing : V)
    (ordering : Option (List V)) (c : Conversion S K V) (h : d.convert missing ordering = .ok c)
    (x : Cost) :
    IsMinimum (Complete c.packed) plainCost x ↔ IsMinimum (DagSolution d) (weight Edge.cost) x := by
  have fwd : ∀ p, DagSolution d p → ∃ q, Complete c.packed q ∧ plainCost q = weight Edge.cost p := by
    intro p hp
    obtain ⟨q, h1, h2, h3⟩ := C26_forward d ht missing ordering c h p hp
    refine ⟨_, h2, ?_⟩
    rw [← h3]
    exact (C26_backward d ht missing ordering c h q h1 h2).2.1
  have bwd : ∀ q, Complete c.packed q → ∃ p, DagSolution d p ∧ plainCost q = weight Edge.cost p := by
    intro q hq
    obtain ⟨q', h1, rfl⟩ := exists_indexed _ hq
    obtain ⟨b1, b2, -⟩ := C26_backward d ht missing ordering c h q' h1 hq
    exact ⟨_, b1, b2⟩
  constructor
  · rintro ⟨h1, h2⟩
    refine ⟨?_, ?_⟩
    · intro p hp
      obtain ⟨q, hq, hc⟩ := fwd p hp
      rw [← hc]; exact h1 q hq
    · rcases h2 with h2 | ⟨q, hq, hc⟩
      · exact .inl h2
      · obtain ⟨p, hp, hc'⟩ := bwd q hq
        exact .inr ⟨p, hp, by rw [← hc', hc]⟩
  · rintro ⟨h1, h2⟩
    refine ⟨?_, ?_⟩
    · intro q hq
      obtain ⟨p, hp, hc⟩ := bwd q hq
      rw [hc]; exact h1 p hp
    · rcases h2 with h2 | ⟨p, hp, hc⟩
      · exact .inl h2
      · obtain ⟨q, hq, hc'⟩ := fwd p hp
        exact .inr ⟨q, hq, by rw [hc', hc]⟩

/-- C27: a converted DAG satisfies the documented invariants of packed DAGs, its variables are the
variables of the original DAG in increasing order, and so (`C27_each_variable_once`) every complete
path assigns each of them exactly once, in order. -/
theorem C27_convert (d : Dag S K V I) (ht : Topo Edge.source Edge.dest d.edges) (missing : V)
    (ordering : Option (List V)) (c : Conversion S K V) (h : d.convert missing ordering = .ok c) :
    PackedWF c.packed ∧ c.packed.numKeys = c.keys.length ∧ c.keys.Pairwise (· < ·)
    ∧ (∀ k, k ∈ c.keys ↔ ∃ e ∈ d.edges, ∃ x, e.req = some (k, x))
    ∧ ∀ p, Complete c.packed p → (assignments p).map Prod.fst = List.range c.keys.length := by
  obtain ⟨T, hT⟩ := convert_ok ht h
  have wf := hT.asm.wf hT.emit
  have hk := hT.asm.keys_eq
  have hn : c.packed.numKeys = c.keys.length := by rw [hT.asm.numKeys, hk]
  refine ⟨wf, hn, ?_, ?_, ?_⟩
  · rw [hk]; exact orderedKeys_sorted d
  · intro k; rw [hk]; exact mem_orderedKeys
  · intro p hp
    rw [← hn]
    exact C27_each_variable_once _ wf p hp

/-- C28: if conversion succeeds, then every path from the initial state assigns variables in
increasing order; so a path violating the order (or assigning a variable twice) makes it fail. -/
theorem C28_reject (d : Dag S K V I) (ht : Topo Edge.source Edge.dest d.edges) (missing : V)
    (ordering : Option (List V)) (c : Conversion S K V) (h : d.convert missing ordering = .ok c) :
    OrderRespecting d := by
  obtain ⟨T, hT⟩ := convert_ok ht h
  intro s p hp
  exact (ordered_walk hT.tables hp).1

/-- C28: on DAGs all of whose edges can be reached, the error about the ordering is only raised if
some path from the initial state violates the ordering. -/
theorem C28_error (d : Dag S K V I) (ht : Topo Edge.source Edge.dest d.edges) (missing : V)
    (ordering : Option (List V)) (hreach : ∀ e ∈ d.edges, ∃ p, DagWalk d d.initial e.source p)
    (h : d.convert missing ordering = .error .ordering) : ¬ OrderRespecting d := by
  intro hord
  unfold Dag.convert at h
  dsimp only at h
  split at h
  · simp at h
  split at h
  · simp at h
  split at h
  · simp at h
  split at h
  · simp at h
  rename_i lpb hlpb
  split at h
  · rename_i err herr
    obtain ⟨p1, p2, p3⟩ := possibleLoop_spec ht hlpb
    have hsome : ∀ s, (∃ p, DagWalk d d.initial s p) → (lpb s).isSome := by
      rintro s ⟨p, hp⟩
      rcases List.eq_nil_or_concat p with rfl | ⟨p', e', rfl⟩
      · rw [DagWalk, Walk.nil_iff] at hp
        subst hp
        obtain ⟨c, hc, -⟩ := p1 d.initial 0 (by simp [tableSingle])
        simp [hc]
      · rw [DagWalk, List.concat_eq_append, Walk.snoc_iff] at hp
        obtain ⟨h1, h2, -⟩ := hp
        obtain ⟨-, c, hc, -⟩ := p2 e' h1
        rw [h2]; simp [hc]
    obtain ⟨-, e, he, i, τ, hk, hτ, hle⟩ := afterLoop_error herr
      (fun e he _ _ => hsome _ (hreach e he))
    obtain ⟨k, x, hr, hki, -⟩ := keyIndex_some hk
    obtain ⟨v, rfl⟩ : ∃ v, τ = v + 1 := ⟨τ - 1, by omega⟩
    rcases p3 e.source _ hτ with h' | ⟨e', he', hd, harr⟩
    · simp only [tableSingle] at h'
      split at h' <;> simp at h'
    · obtain ⟨j, hj⟩ := List.mem_iff_getElem?.1 he'
      obtain ⟨p, k', w1, w2, w3⟩ := lpb_path ht hreach p3 j e' hj v harr
      rw [hd] at w1
      have := hord e.dest (p ++ [e]) (Walk.append w1 (Walk.single he))
      unfold assignedKeys at this w3
      rw [List.filterMap_append, List.pairwise_append] at this
      have hlt := this.2.2 k' w3 k (by simp [hr])
      have := (sorted_index (orderedKeys_sorted d) w2 hki).1 hlt
      omega
  · split at h
    · simp at h
    · unfold assemble at h
      dsimp only at h
      split at h
      · simp at h
      · split at h
        · simp at h
        · split at h
          · simp at h
          · split at h
            · simp at h
            · simp at h

/-- C28: a nonempty pruned DAG in topological order is accepted if and only if all paths from the
initial state assign variables in increasing order; otherwise the error is about the ordering. -/
theorem C28_accept (d : Dag S K V I) (ht : Topo Edge.source Edge.dest d.edges) (hp : Pruned d)
    (hne : d.edges ≠ []) (missing : V) (ordering : Option (List V))
    (ho : ∀ o, ordering = some o → missing ∈ o ∧ ∀ e ∈ d.edges, ∀ k x, e.req = some (k, x) → x ∈ o) :
    (OrderRespecting d → ∃ c, d.convert missing ordering = .ok c)
    ∧ (¬ OrderRespecting d → d.convert missing ordering = .error .ordering) := by
  have hcases : (∃ c, d.convert missing ordering = .ok c)
      ∨ d.convert missing ordering = .error .ordering := by
    obtain ⟨r, hsrc⟩ := pruned_first ht hp hne
    have hfin := pruned_final ht hp
    obtain ⟨lpb, hlpb⟩ := pruned_possible ht hp
    obtain ⟨p1, p2, p3⟩ := possibleLoop_spec ht hlpb
    have hsome : ∀ s, (∃ p, DagWalk d d.initial s p) → (lpb s).isSome := by
      rintro s ⟨p, hw⟩
      rcases List.eq_nil_or_concat p with rfl | ⟨p', e', rfl⟩
      · rw [DagWalk, Walk.nil_iff] at hw
        subst hw
        obtain ⟨c, hc, -⟩ := p1 d.initial 0 (by simp [tableSingle])
        simp [hc]
      · rw [DagWalk, List.concat_eq_append, Walk.snoc_iff] at hw
        obtain ⟨h1, h2, -⟩ := hw
        obtain ⟨-, c, hc, -⟩ := p2 e' h1
        rw [h2]; simp [hc]
    unfold Dag.convert
    dsimp only
    rw [hlpb]
    cases hs : d.sourcesInOrder with
    | nil => rw [hs] at hsrc; simp at hsrc
    | cons s r' =>
      have hs0 : s = d.initial := by rw [hs] at hsrc; simp only [List.cons.injEq] at hsrc; exact hsrc.1
      dsimp only
      rw [if_neg (by simp [hs0]), if_neg (by rw [← hs]; exact hfin)]
      cases ha : afterLoop d.orderedKeys lpb d.edges (fun _ => none) with
      | error err =>
        right
        obtain ⟨rfl, -⟩ := afterLoop_error ha (fun e he _ _ => hsome _ (hp e he).2.1)
        rfl
      | ok after =>
        left
        dsimp only
        rw [← hs]
        rw [if_neg]
        · exact assemble_succeeds ht hp hne
            (tables_ok ht (by rw [← hs0]; exact no_edge_to_initial ht hs) hlpb ha) ho
        · rw [List.any_eq_true]
          rintro ⟨x, hx, hnone⟩
          have : (lpb x).isSome := by
            apply hsome
            rw [List.mem_append, List.mem_singleton] at hx
            rcases hx with hx | rfl
            · rw [sources_eq, mem_firstSeen] at hx
              obtain ⟨e, he, rfl⟩ := hx
              exact (hp e he).2.1
            · obtain ⟨e, he⟩ := List.exists_mem_of_ne_nil _ hne
              obtain ⟨-, ⟨p, hpw⟩, q, hq⟩ := hp e he
              exact ⟨p ++ e :: q, Walk.append hpw (.cons he hq)⟩
          cases hl : lpb x with
          | none => rw [hl] at this; simp at this
          | some c => rw [hl] at hnone; simp at hnone
  constructor
  · intro hord
    rcases hcases with h | h
    · exact h
    · exact absurd hord (C28_error d ht missing ordering (fun e he => (hp e he).2.1) h)
  · intro hord
    rcases hcases with ⟨c, h⟩ | h
    · exact absurd (C28_reject d ht missing ordering c h) hord
    · exact h

end

/-- A DAG with two variables; one path assigns only the first, one only the second, one both. -/
def sampleGated : Dag Nat Nat Nat Unit :=
  ⟨0, [⟨0, 1, 1, some (3, 5), ()⟩, ⟨0, 1, 2, none, ()⟩, ⟨1, 2, 3, some (7, 5), ()⟩, ⟨1, 2, 0, none, ()⟩],
    2⟩

theorem sampleGated_keys : sampleGated.orderedKeys = [3, 7] := by
  have : (sampleGated.edges.filterMap (fun e => e.req.map Prod.fst)).dedup = [3, 7] := by
    simp [sampleGated]
  unfold Dag.orderedKeys
  rw [this]
  exact List.mergeSort_of_pairwise (by simp)

/-- It is converted to five tagged states and six edges. -/
theorem sampleGated_convert : ((sampleGated.convert 9 (some [5, 9])).toOption.map fun c =>
    (c.packed.numStates, c.taggedStates, c.packed.edges.length))
      = some (5, [(0, 0), (1, 0), (1, 1), (2, 1), (2, 2)], 6) := by
  unfold Dag.convert
  rw [sampleGated_keys]
  decide +kernel

example : ∃ c, sampleGated.convert 9 (some [5, 9]) = .ok c := by
  cases h : sampleGated.convert 9 (some [5, 9]) with
  | ok c => exact ⟨c, rfl⟩
  | error e => have := sampleGated_convert; rw [h] at this; simp [Except.toOption] at this

example : Topo Edge.source Edge.dest sampleGated.edges := by
  simp [Topo, TopoWeak, sampleGated]

example : Pruned sampleGated := by
  have h1 : DagWalk sampleGated 0 1 [⟨0, 1, 2, none, ()⟩] := by
    rw [DagWalk, Walk.cons_iff, Walk.nil_iff]; simp [sampleGated]
  have h2 : DagWalk sampleGated 1 2 [⟨1, 2, 0, none, ()⟩] := by
    rw [DagWalk, Walk.cons_iff, Walk.nil_iff]; simp [sampleGated]
  intro e he
  simp only [sampleGated, List.mem_cons, List.not_mem_nil, or_false] at he
  rcases he with rfl | rfl | rfl | rfl
  · exact ⟨WithTop.coe_lt_top (1 : ℚ), ⟨[], .nil _⟩, ⟨_, h2⟩⟩
  · exact ⟨WithTop.coe_lt_top (2 : ℚ), ⟨[], .nil _⟩, ⟨_, h2⟩⟩
  · exact ⟨WithTop.coe_lt_top (3 : ℚ), ⟨_, h1⟩, ⟨[], .nil _⟩⟩
  · exact ⟨WithTop.coe_lt_top (0 : ℚ), ⟨_, h1⟩, ⟨[], .nil _⟩⟩

/-- A DAG assigning variable 7 before variable 3 violates the ordering. -/
example : ¬ OrderRespecting (⟨0, [⟨0, 1, 1, some (7, 5), ()⟩, ⟨1, 2, 2, some (3, 5), ()⟩], 2⟩ :
    Dag Nat Nat Nat Unit) := by
  intro h
  have := h 2 [⟨0, 1, 1, some (7, 5), ()⟩, ⟨1, 2, 2, some (3, 5), ()⟩] (by
    rw [DagWalk, Walk.cons_iff, Walk.cons_iff, Walk.nil_iff]; simp)
  simp [assignedKeys] at this

/-- Why self loops are excluded: an edge from a state to itself that assigns nothing is accepted, and
then packed edges are not in topological order. -/
theorem self_loop_accepted : ((⟨0, [⟨0, 0, 1, none, ()⟩, ⟨0, 1, 2, none, ()⟩], 1⟩ :
    Dag Nat Nat Nat Unit).convert 9 (some [9])).toOption.map (fun c =>
      c.packed.edges.map (fun e => (e.source, e.dest))) = some [(0, 0), (0, 1)] := by
  have : (⟨0, [⟨0, 0, 1, none, ()⟩, ⟨0, 1, 2, none, ()⟩], 1⟩ : Dag Nat Nat Nat Unit).orderedKeys
      = [] := by
    simp [Dag.orderedKeys]
  unfold Dag.convert
  rw [this]
  decide +kernel

end RUSure.Props
