import Verif.Props.GatedDag
import Verif.Props.Convert

/-!
# State lists and the pipeline from gated DAGs to minimal costs (C53, C54)
-/

namespace RUSure.Props
open RUSure RUSure.Spec RUSure.Lemmas

section
variable {S K V I : Type} [DecidableEq S]

theorem stateList_snoc (d : Dag S K V I) (e : Edge S K V I) :
    ({ d with edges := d.edges ++ [e] } : Dag S K V I).stateList
      = (let r := if e.source ∈ d.stateList then d.stateList else d.stateList ++ [e.source]
         if e.dest ∈ r then r else r ++ [e.dest]) := by
  unfold Dag.stateList
  rw [List.foldl_append]
  rfl

/-- C53: the state list contains the states touched by edges, each once. -/
theorem C53_state_list (d : Dag S K V I) :
    d.stateList.Nodup ∧ ∀ s, s ∈ d.stateList ↔ ∃ e ∈ d.edges, s = e.source ∨ s = e.dest := by
  obtain ⟨i, es, f⟩ := d
  induction es using List.reverseRecOn with
  | nil => simp [Dag.stateList]
  | append_singleton es e ih =>
    obtain ⟨h1, h2⟩ := ih
    rw [stateList_snoc (⟨i, es, f⟩ : Dag S K V I) e]
    generalize (⟨i, es, f⟩ : Dag S K V I).stateList = l at h1 h2
    have add : ∀ (l : List S) (x : S), l.Nodup →
        (if x ∈ l then l else l ++ [x]).Nodup
        ∧ ∀ s, s ∈ (if x ∈ l then l else l ++ [x]) ↔ s ∈ l ∨ s = x := by
      intro l x hl
      split
      · rename_i hx
        refine ⟨hl, fun s => ⟨.inl, ?_⟩⟩
        rintro (h | rfl)
        · exact h
        · exact hx
      · rename_i hx
        refine ⟨?_, by simp⟩
        rw [List.nodup_append]
        refine ⟨hl, by simp, ?_⟩
        intro a ha b hb
        simp only [List.mem_singleton] at hb
        subst hb
        exact fun hc => hx (hc ▸ ha)
    obtain ⟨a1, a2⟩ := add l e.source h1
    obtain ⟨b1, b2⟩ := add _ e.dest a1
    refine ⟨b1, fun s => ?_⟩
    dsimp only
    rw [b2, a2, h2]
    simp only [List.mem_append, List.mem_singleton]
    constructor
    · rintro ((⟨e', h, h'⟩ | rfl) | rfl)
      · exact ⟨e', .inl h, h'⟩
      · exact ⟨e, .inr rfl, .inl rfl⟩
      · exact ⟨e, .inr rfl, .inr rfl⟩
    · rintro ⟨e', h | rfl, h'⟩
      · exact .inl (.inl ⟨e', h, h'⟩)
      · rcases h' with rfl | rfl
        · exact .inl (.inr rfl)
        · exact .inr rfl

/-- C53: states are listed in the order in which they first appear: the states of the first edges
come first. -/
theorem C53_first_appearance (d : Dag S K V I) (es es' : List (Edge S K V I))
    (h : d.edges = es ++ es') :
    ({ d with edges := es } : Dag S K V I).stateList <+: d.stateList := by
  obtain ⟨i, E, f⟩ := d
  dsimp only at h
  subst h
  induction es' using List.reverseRecOn with
  | nil => simp
  | append_singleton es' e ih =>
    refine ih.trans ?_
    rw [← List.append_assoc, stateList_snoc (⟨i, es ++ es', f⟩ : Dag S K V I) e]
    generalize (⟨i, es ++ es', f⟩ : Dag S K V I).stateList = l
    have add : ∀ (l : List S) (x : S), l <+: (if x ∈ l then l else l ++ [x]) := by
      intro l x
      split
      · exact List.prefix_refl _
      · exact List.prefix_append _ _
    exact (add l e.source).trans (add _ e.dest)

/-- C53: with edges in topological order, the first state is the source of the first edge, and if the
DAG is pruned this is the initial state. -/
theorem C53_initial_first (d : Dag S K V I) (ht : Topo Edge.source Edge.dest d.edges) (hp : Pruned d)
    (hne : d.edges ≠ []) : d.stateList.head? = some d.initial := by
  have hh : ∀ (e : Edge S K V I) es, d.edges = e :: es → d.stateList.head? = some e.source := by
    intro e es h
    obtain ⟨t, ht'⟩ := C53_first_appearance d [e] es h
    rw [← ht']
    simp only [Dag.stateList, List.foldl_cons, List.foldl_nil, List.not_mem_nil, ↓reduceIte,
      List.nil_append, List.mem_singleton]
    split <;> simp
  cases he : d.edges with
  | nil => exact absurd he hne
  | cons e es =>
    rw [hh e es he]
    obtain ⟨-, ⟨p, hw⟩, -⟩ := hp e (by rw [he]; simp)
    rcases List.eq_nil_or_concat p with rfl | ⟨p', e', rfl⟩
    · rw [DagWalk, Walk.nil_iff] at hw
      rw [hw]
    · exfalso
      obtain ⟨b, w1, w2⟩ := Walk.append_iff.1 (by simpa using hw)
      rw [Walk.cons_iff] at w2
      obtain ⟨g1, g2, g3⟩ := w2
      rw [Walk.nil_iff] at g3
      obtain ⟨ht, hl⟩ := ht
      unfold TopoWeak at ht
      rw [he] at ht g1
      rw [List.pairwise_cons] at ht
      rcases List.mem_cons.1 g1 with rfl | g1
      · exact hl e' (by rw [he]; simp) g3
      · exact ht.1 e' g1 g3

example : (⟨0, [⟨0, 2, 0, none, ()⟩, ⟨0, 1, 0, none, ()⟩, ⟨1, 2, 0, none, ()⟩], 2⟩ :
    Dag Nat Unit Unit Unit).stateList = [0, 2, 1] := by decide

end

section
variable {S K V I : Type} [DecidableEq S] [LinearOrder K] [LinearOrder V]

/-- The penalties of a packed DAG given by penalties on the original variables and values. -/
def packedPenalties (c : Conversion S K V) (pen : K → V → Cost) : Penalties := fun i x =>
  match c.keys[i]?, c.values[x]? with
  | some k, some v => pen k v
  | _, _ => 0

/-- The penalised cost of a path of the original DAG: its cost and, for each variable, the penalty of
the value it gets, which is the missing value if the path does not assign it. -/
def penalizedCost (keys : List K) (missing : V) (pen : K → V → Cost) (p : List (Edge S K V I)) :
    Cost :=
  weight Edge.cost p + (keys.map fun k => pen k ((valueOn p k).getD missing)).sum

theorem pathCost_split (pen : Penalties) (p : List PackedEdge) :
    pathCost pen p = plainCost p + ((assignments p).map fun kv => pen kv.1 kv.2).sum := by
  induction p with
  | nil => simp [pathCost, plainCost, weight, assignments]
  | cons e p ih =>
    have h1 : pathCost pen (e :: p) = (e.cost + e.penalty pen) + pathCost pen p := by
      simp [pathCost, weight]
    have h2 : plainCost (e :: p) = e.cost + plainCost p := by simp [plainCost, weight]
    rw [h1, h2, ih]
    cases hr : e.req with
    | none =>
      have : assignments (e :: p) = assignments p := by simp [assignments, hr]
      rw [this]
      simp [PackedEdge.penalty, hr, add_assoc]
    | some kv =>
      have : assignments (e :: p) = kv :: assignments p := by simp [assignments, hr]
      rw [this, List.map_cons, List.sum_cons]
      have hpen : e.penalty pen = pen kv.1 kv.2 := by simp [PackedEdge.penalty, hr]
      rw [hpen, add_add_add_comm]

theorem converted_cost (d : Dag S K V I) (ht : Topo Edge.source Edge.dest d.edges) (missing : V)
    (ordering : Option (List V)) (c : Conversion S K V) (h : d.convert missing ordering = .ok c)
    (pen : K → V → Cost) (q : List (Nat × PackedEdge)) (hi : IndexedPath c.packed q)
    (hq : Complete c.packed (q.map Prod.snd)) :
    pathCost (packedPenalties c pen) (q.map Prod.snd)
      = penalizedCost c.keys missing pen (c.originalPath d q) := by
  obtain ⟨-, b2, b3, b4⟩ := C26_backward d ht missing ordering c h q hi hq
  rw [pathCost_split, b2]
  unfold penalizedCost
  congr 1
  have e1 : (assignments (q.map Prod.snd)).map (fun kv => packedPenalties c pen kv.1 kv.2)
      = ((assignments (q.map Prod.snd)).map (fun kv => (c.keys[kv.1]?, c.values[kv.2]?))).map
        (fun (o : Option K × Option V) => match o.1, o.2 with
          | some k, some v => pen k v
          | _, _ => 0) := by
    rw [List.map_map]
    rfl
  rw [e1, b4, b3, List.map_map, List.map_map]
  rfl

omit [LinearOrder K] [LinearOrder V] in
theorem prune_topo (d : Dag S K V I) (ht : Topo Edge.source Edge.dest d.edges) :
    Topo Edge.source Edge.dest d.prune.edges :=
  ⟨ht.1.sublist List.filter_sublist, fun e he => ht.2 e (List.filter_sublist.subset he)⟩

/-- C54: pruning and packing keep the minimal penalised cost, whatever the penalties. -/
theorem C54_minimum (d : Dag S K V I) (ht : Topo Edge.source Edge.dest d.edges) (missing : V)
    (ordering : Option (List V)) (c : Conversion S K V)
    (h : d.prune.convert missing ordering = .ok c) (pen : K → V → Cost) (x : Cost) :
    IsMinimum (Complete c.packed) (pathCost (packedPenalties c pen)) x
      ↔ IsMinimum (DagSolution d) (penalizedCost c.keys missing pen) x := by
  have htp := prune_topo d ht
  have fwd : ∀ p, DagSolution d p → ∃ q, Complete c.packed q
      ∧ pathCost (packedPenalties c pen) q = penalizedCost c.keys missing pen p := by
    intro p hp
    obtain ⟨q, h1, h2, h3⟩ := C26_forward d.prune htp missing ordering c h p
      ((C23_solutions d ht.1 p).2 hp)
    exact ⟨_, h2, by rw [converted_cost d.prune htp missing ordering c h pen q h1 h2, h3]⟩
  have bwd : ∀ q, Complete c.packed q → ∃ p, DagSolution d p
      ∧ pathCost (packedPenalties c pen) q = penalizedCost c.keys missing pen p := by
    intro q hq
    obtain ⟨q', h1, rfl⟩ := exists_indexed _ hq
    obtain ⟨b1, -⟩ := C26_backward d.prune htp missing ordering c h q' h1 hq
    exact ⟨_, (C23_solutions d ht.1 _).1 b1,
      converted_cost d.prune htp missing ordering c h pen q' h1 hq⟩
  constructor
  · rintro ⟨h1, h2⟩
    refine ⟨fun p hp => ?_, ?_⟩
    · obtain ⟨q, hq, hc⟩ := fwd p hp
      rw [← hc]; exact h1 q hq
    · rcases h2 with h2 | ⟨q, hq, hc⟩
      · exact .inl h2
      · obtain ⟨p, hp, hc'⟩ := bwd q hq
        exact .inr ⟨p, hp, by rw [← hc', hc]⟩
  · rintro ⟨h1, h2⟩
    refine ⟨fun q hq => ?_, ?_⟩
    · obtain ⟨p, hp, hc⟩ := bwd q hq
      rw [hc]; exact h1 p hp
    · rcases h2 with h2 | ⟨p, hp, hc⟩
      · exact .inl h2
      · obtain ⟨q, hq, hc'⟩ := fwd p hp
        exact .inr ⟨q, hq, by rw [hc', hc]⟩

/-- C54: packing a pruned DAG succeeds if there is a solution, every solution assigns variables in
increasing order, and the value ordering (if given) contains all values. -/
theorem C54_succeeds (d : Dag S K V I) (ht : Topo Edge.source Edge.dest d.edges) (missing : V)
    (ordering : Option (List V)) (hne : d.initial ≠ d.final) (hex : ∃ p, DagSolution d p)
    (hord : ∀ p, DagSolution d p → (assignedKeys p).Pairwise (· < ·))
    (ho : ∀ o, ordering = some o → missing ∈ o ∧ ∀ e ∈ d.edges, ∀ k x, e.req = some (k, x) → x ∈ o) :
    ∃ c, d.prune.convert missing ordering = .ok c := by
  have htp := prune_topo d ht
  have hp : Pruned d.prune := by
    intro e he
    obtain ⟨p, hs, hep⟩ := ((C23_keeps_exactly d ht.1).1 e).1 he
    obtain ⟨hw, -⟩ := (C23_solutions d ht.1 p).2 hs
    obtain ⟨p1, p2, rfl⟩ := List.append_of_mem hep
    obtain ⟨b, w1, w2⟩ := Walk.append_iff.1 hw
    obtain ⟨-, rfl, g2⟩ := Walk.cons_iff.1 w2
    exact ⟨hs.2 e (by simp), ⟨p1, w1⟩, ⟨p2, g2⟩⟩
  have hn : d.prune.edges ≠ [] := by
    intro hc
    obtain ⟨p, hs⟩ := hex
    obtain ⟨hw, -⟩ := (C23_solutions d ht.1 p).2 hs
    cases p with
    | nil =>
      rw [DagWalk, Walk.nil_iff] at hw
      exact hne hw
    | cons e p =>
      rw [DagWalk, Walk.cons_iff, hc] at hw
      simp at hw
  refine (C28_accept d.prune htp hp hn missing ordering ?_).1 ?_
  · intro o hoo
    exact ⟨(ho o hoo).1, fun e he => (ho o hoo).2 e (List.filter_sublist.subset he)⟩
  · intro s p hw
    rcases List.eq_nil_or_concat p with rfl | ⟨p', e, rfl⟩
    · simp [assignedKeys]
    · obtain ⟨b, w1, w2⟩ := Walk.append_iff.1 (by simpa using hw)
      obtain ⟨g1, rfl, g3⟩ := Walk.cons_iff.1 w2
      obtain ⟨hf, -, ⟨q, hq⟩⟩ := hp e g1
      have hcomp : DagWalk d.prune d.prune.initial d.prune.final (p' ++ e :: q) :=
        w1.append (.cons g1 hq)
      have hs : DagSolution d (p' ++ e :: q) := by
        refine (C23_solutions d ht.1 _).1 ⟨hcomp, ?_⟩
        intro e' he'
        have : e' ∈ d.prune.edges := by
          have := hcomp
          exact Walk.mem this e' he'
        exact (hp e' this).1
      have := hord _ hs
      refine this.sublist ?_
      unfold assignedKeys
      apply List.Sublist.filterMap
      simp

/-- C54: hence the minimal cost reported for the packed form of a pruned DAG, after any history of
operations on its table, is the minimal penalised cost of the solutions of the original DAG, and an
extracted path is translated back to a solution attaining it. -/
theorem C54_end_to_end (d : Dag S K V I) (ht : Topo Edge.source Edge.dest d.edges) (missing : V)
    (ordering : Option (List V)) (c : Conversion S K V)
    (h : d.prune.convert missing ordering = .ok c) (invalid : Cost) (pen₀ : Penalties)
    (history : List MemoOp) (pen : K → V → Cost)
    (hpen : penaltiesAfter c.packed pen₀ history = packedPenalties c pen) :
    (∀ s : Strategy, (s = .fromMiddle → c.keys ≠ []) →
      ∃ m x, (memoAfter invalid c.packed pen₀ history).minimalCost s = some (m, x)
        ∧ IsMinimum (DagSolution d) (penalizedCost c.keys missing pen) x)
    ∧ ((∃ p, DagSolution d p ∧ penalizedCost c.keys missing pen p < ⊤) →
      ∃ m q asg, (memoAfter invalid c.packed pen₀ history).extractPath = some (m, q, asg)
        ∧ DagSolution d (c.originalPath d.prune q)
        ∧ ∀ p, DagSolution d p → penalizedCost c.keys missing pen (c.originalPath d.prune q)
            ≤ penalizedCost c.keys missing pen p) := by
  have htp := prune_topo d ht
  obtain ⟨wf, hk, -⟩ := C27_convert d.prune htp missing ordering c h
  constructor
  · intro s hs
    obtain ⟨m, x, h1, h2⟩ := C31_minimal_cost c.packed wf invalid pen₀ history s (by
      intro hc
      rw [hk]
      exact List.length_pos_iff.2 (hs hc))
    rw [hpen, C54_minimum d ht missing ordering c h] at h2
    exact ⟨m, x, h1, h2⟩
  · rintro ⟨p0, hp0, hlt⟩
    have fwd : ∀ p, DagSolution d p → ∃ q, Complete c.packed q
        ∧ pathCost (packedPenalties c pen) q = penalizedCost c.keys missing pen p := by
      intro p hp
      obtain ⟨q, h1, h2, h3⟩ := C26_forward d.prune htp missing ordering c h p
        ((C23_solutions d ht.1 p).2 hp)
      exact ⟨_, h2, by rw [converted_cost d.prune htp missing ordering c h pen q h1 h2, h3]⟩
    obtain ⟨m, q, h1, h2, h3, h4⟩ := C32_extract c.packed wf invalid pen₀ history (by
      obtain ⟨q, g1, g2⟩ := fwd p0 hp0
      exact ⟨q, g1, by rw [hpen, g2]; exact hlt⟩)
    rw [hpen] at h4
    obtain ⟨b1, -⟩ := C26_backward d.prune htp missing ordering c h q h2 h3
    refine ⟨m, q, _, h1, (C23_solutions d ht.1 _).1 b1, ?_⟩
    intro p hp
    obtain ⟨q', g1, g2⟩ := fwd p hp
    rw [← converted_cost d.prune htp missing ordering c h pen q h2 h3, ← g2]
    exact h4 q' g1

end

/-- A DAG with a dead end and an edge of infinite cost; one solution assigns variable 3, one does
not. -/
def pipelineDag : Dag Nat Nat Nat Unit :=
  ⟨0, [⟨0, 1, 2, some (3, 10), ()⟩, ⟨0, 2, 1, none, ()⟩, ⟨0, 3, 1, none, ()⟩, ⟨1, 4, 1, none, ()⟩,
    ⟨2, 4, 5, none, ()⟩, ⟨0, 4, ⊤, none, ()⟩], 4⟩

theorem pipelineDag_topo : Topo Edge.source Edge.dest pipelineDag.edges := by
  simp [pipelineDag, Topo, TopoWeak]

/-- The hypotheses of the theorems above are met. -/
theorem pipelineDag_converts : ∃ c, pipelineDag.prune.convert 0 none = .ok c
    ∧ ∃ p, DagSolution pipelineDag p ∧ weight Edge.cost p < ⊤ := by
  have hsol : DagSolution pipelineDag [⟨0, 1, 2, some (3, 10), ()⟩, ⟨1, 4, 1, none, ()⟩] := by
    constructor
    · rw [DagWalk, Walk.cons_iff, Walk.cons_iff, Walk.nil_iff]
      simp [pipelineDag]
    · simp only [List.mem_cons, List.not_mem_nil, or_false, forall_eq_or_imp, forall_eq]
      exact ⟨WithTop.coe_lt_top (2 : ℚ), WithTop.coe_lt_top (1 : ℚ)⟩
  obtain ⟨c, hc⟩ := C54_succeeds pipelineDag pipelineDag_topo 0 none (by simp [pipelineDag]) ⟨_, hsol⟩
    (by
      intro p hp
      have : ∀ (a b : Nat) (p : List (Edge Nat Nat Nat Unit)), DagWalk pipelineDag a b p →
          (assignedKeys p).length ≤ 1 ∧ (a ≠ 0 → assignedKeys p = []) := by
        intro a b p hw
        induction hw with
        | nil => simp [assignedKeys]
        | @cons e b p he hw ih =>
          simp only [pipelineDag, List.mem_cons, List.not_mem_nil, or_false] at he
          rcases he with rfl | rfl | rfl | rfl | rfl | rfl <;> simp [assignedKeys] at ih ⊢ <;>
            simp_all
      have h1 := (this _ _ p hp.1).1
      match h : assignedKeys p, h1 with
      | [], _ => simp
      | [x], _ => simp)
    (by simp)
  refine ⟨c, hc, _, hsol, ?_⟩
  have : weight Edge.cost ([⟨0, 1, 2, some (3, 10), ()⟩, ⟨1, 4, 1, none, ()⟩] :
      List (Edge Nat Nat Nat Unit)) = ((2 + 1 : ℚ) : Cost) := by
    simp [weight]
  rw [this]
  exact WithTop.coe_lt_top _

end RUSure.Props
