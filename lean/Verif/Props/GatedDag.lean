import Verif.Lemmas.Rewrite

/-!
# C22-C25: building, pruning and renumbering gated state DAGs
-/

namespace RUSure.Props
open RUSure RUSure.Spec RUSure.Lemmas
variable {S K V I : Type} [DecidableEq S]

/-- C22: after every history of attempted additions, the builder holds a sublist of the attempted
edges in topological order (up to self loops). -/
theorem C22_topological (start : S) (history : List (Edge S K V I)) (final : S) :
    DagTopo ((attemptAll start history).finish final)
    ∧ ((attemptAll start history).finish final).edges.Sublist history
    ∧ ((attemptAll start history).finish final).initial = start := by
  obtain ⟨_, h2, h3, h4⟩ := attemptAll_inv start history
  exact ⟨h2, h3, h4⟩

/-- C22: at every point of such a history, the next edge is accepted exactly when no edge accepted
before leaves its destination; acceptance appends exactly that edge, and rejection is a `ValueError`
or (when no edge leaves the source either, a slip in formatting the message) a `KeyError`. -/
theorem C22_accepts_iff (start : S) (history : List (Edge S K V I)) (e : Edge S K V I) :
    let d := attemptAll start history
    ((∃ d', d.addEdge e = .ok d') ↔ ∀ x ∈ d.edges, x.source ≠ e.dest)
    ∧ (∀ d', d.addEdge e = .ok d' → d'.edges = d.edges ++ [e] ∧ d'.initial = d.initial)
    ∧ (d.addEdge e = .error .valueError ↔
        (∃ x ∈ d.edges, x.source = e.dest) ∧ ∃ x ∈ d.edges, x.source = e.source)
    ∧ (d.addEdge e = .error .keyError ↔
        (∃ x ∈ d.edges, x.source = e.dest) ∧ ∀ x ∈ d.edges, x.source ≠ e.source) := by
  intro d
  obtain ⟨h1, _⟩ := attemptAll_inv start history
  change ∀ s, (d.seen.lookup s).isSome ↔ ∃ e ∈ d.edges, e.source = s at h1
  have hneg : ∀ s, (∀ x ∈ d.edges, x.source ≠ s) ↔ ¬ ∃ e ∈ d.edges, e.source = s := by
    intro s; simp
  simp only [hneg, ← h1, PartialDag.addEdge]
  by_cases hd : (d.seen.lookup e.dest).isSome <;> by_cases hs : (d.seen.lookup e.source).isSome <;>
    simp [hd, hs]

/-- C22: consequently a DAG built this way has no cycles except repetitions of self loops. -/
theorem C22_acyclic (start : S) (history : List (Edge S K V I)) (final a : S)
    (p : List (Edge S K V I))
    (h : DagWalk ((attemptAll start history).finish final) a a p) :
    ∀ e ∈ p, e.source = a ∧ e.dest = a :=
  closed_walk (C22_topological start history final).1 h

/-- C22: the deviation: an edge from a state to itself is accepted, so a built DAG can have a
cycle. -/
theorem C22_self_loop_accepted :
    ∃ (history : List (Edge Nat Unit Unit Unit)) (p : List (Edge Nat Unit Unit Unit)),
      p ≠ [] ∧ DagWalk ((attemptAll 0 history).finish 0) 0 0 p := by
  refine ⟨[⟨0, 0, 0, none, ()⟩], [⟨0, 0, 0, none, ()⟩], by simp, ?_⟩
  rw [DagWalk, Walk.cons_iff, Walk.nil_iff]
  simp [attemptAll, PartialDag.addEdge, PartialDag.start, PartialDag.finish]

/-- C23: pruning preserves the set of solutions (as lists of edges, so with their costs, assignments
and infos), for DAGs whose edges are in topological order. -/
theorem C23_solutions (d : Dag S K V I) (ht : DagTopo d) (p : List (Edge S K V I)) :
    DagSolution d.prune p ↔ DagSolution d p := by
  constructor
  · rintro ⟨h1, h2⟩
    exact ⟨h1.mono' List.filter_sublist.subset, h2⟩
  · rintro ⟨h1, h2⟩
    refine ⟨?_, h2⟩
    have hw := solution_iff_relevant.1 ⟨h1, h2⟩
    refine h1.mono ?_
    intro e he
    rw [mem_prune ht]
    obtain ⟨p1, p2, rfl⟩ := List.append_of_mem he
    obtain ⟨b, w1, w2⟩ := Walk.append_iff.1 hw
    obtain ⟨g1, rfl, g2⟩ := Walk.cons_iff.1 w2
    exact ⟨g1, ⟨_, w1⟩, ⟨_, g2⟩⟩

/-- C23: pruning keeps an edge exactly when it lies on some solution; order and multiplicity of the
kept edges and the end states do not change. -/
theorem C23_keeps_exactly (d : Dag S K V I) (ht : DagTopo d) :
    (∀ e, e ∈ d.prune.edges ↔ ∃ p, DagSolution d p ∧ e ∈ p)
    ∧ d.prune.edges.Sublist d.edges ∧ d.prune.initial = d.initial ∧ d.prune.final = d.final
    ∧ (∃ keep : Edge S K V I → Bool, d.prune.edges = d.edges.filter keep) := by
  refine ⟨?_, List.filter_sublist, rfl, rfl, ⟨_, rfl⟩⟩
  intro e
  rw [mem_prune ht]
  constructor
  · rintro ⟨h1, ⟨p, hp⟩, ⟨q, hq⟩⟩
    have hw := solution_iff_relevant.2 (hp.append (.cons h1 hq))
    exact ⟨p ++ e :: q, hw, by simp⟩
  · rintro ⟨p, ⟨h1, h2⟩, he⟩
    have hw := solution_iff_relevant.1 ⟨h1, h2⟩
    obtain ⟨p1, p2, rfl⟩ := List.append_of_mem he
    obtain ⟨b, w1, w2⟩ := Walk.append_iff.1 hw
    obtain ⟨g1, rfl, g2⟩ := Walk.cons_iff.1 w2
    exact ⟨g1, ⟨_, w1⟩, ⟨_, g2⟩⟩

/-- C24: the compiled and the interpreted pruning return the same DAG. -/
theorem C24_agree (d : Dag S K V I) (ht : DagTopo d) : d.pruneJit = d.prune :=
  (prune_eq_pruneJit ht).symm

/-- C24: the hypothesis is needed: on an edge list which is not in topological order the two
disagree. -/
theorem C24_order_needed :
    ∃ d : Dag Nat Unit Unit Unit, ¬ DagTopo d ∧ d.pruneJit.edges.length ≠ d.prune.edges.length := by
  refine ⟨⟨0, [⟨1, 2, 0, none, ()⟩, ⟨0, 1, 0, none, ()⟩], 2⟩, ?_, ?_⟩
  · simp [TopoWeak]
  · simp [Dag.pruneJit, Dag.prune, Dag.relevant, Edge.isFinite, Dag.isReachable,
      Dag.forwardReachable, Dag.backwardReachable, forwardStep, backwardStep]

/-- C25 (for histories in which no state evicted from its scratch table slot is requested again):
renumbering fails exactly when there is no solution, and otherwise returns the pruned DAG with its
states renamed by a map that is injective on the states of solutions and uses exactly the numbers
`0..n-1` for them. Hash collisions are included as long as no evicted state is requested again;
`C25_collision_loses_solutions` shows why that case has to be left out. -/
theorem C25_rename_partial (h : S → Nat) (d : Dag S K V I) (ht : DagTopo d)
    (hW : NoReturn h (createdOrder d)) :
    (d.pruneRewrite h = none ↔ ¬ ∃ p, DagSolution d p)
    ∧ ∀ d', d.pruneRewrite h = some d' → ∃ (f : S → Nat) (n : Nat),
        d' = renameStates f d.prune
        ∧ (∀ s s', OnSolution d s → OnSolution d s' → f s = f s' → s = s')
        ∧ ∀ k, k < n ↔ ∃ s, OnSolution d s ∧ f s = k := by
  obtain ⟨h1, h2⟩ := pruneRewrite_spec ht hW
  constructor
  · constructor
    · intro hn hs
      obtain ⟨f, n, h3, _⟩ := h2 hs
      rw [hn] at h3
      simp at h3
    · exact h1
  · intro d' hd
    by_cases hs : ∃ p, DagSolution d p
    · obtain ⟨f, n, h3, h4, h5⟩ := h2 hs
      rw [h3, Option.some.injEq] at hd
      subst hd
      rw [prune_eq_pruneJit ht]
      exact ⟨f, n, rfl, h4, h5⟩
    · rw [h1 hs] at hd
      simp at hd

omit [DecidableEq S] in
/-- In particular the hypothesis holds for every DAG when the scratch table has no collisions. -/
theorem noReturn_of_injective (h : S → Nat) (hinj : ∀ s s', h s = h s' → s = s') (l : List S) :
    NoReturn h l := fun s s' hne he _ => hne (hinj s s' he)

/-- Two states share a slot and the evicted one is looked up again as a source: the fallback table
is used, and the hypothesis of `C25_rename_partial` holds. -/
def fallbackDag : Dag Nat Unit Unit Nat :=
  ⟨0, [⟨0, 1, 5, none, 0⟩, ⟨0, 2, 0, none, 1⟩, ⟨1, 3, 0, none, 2⟩, ⟨2, 3, 0, none, 3⟩], 3⟩

example : NoReturn (fun s : Nat => if s = 2 then 1 else s) (createdOrder fallbackDag) := by
  have hsub : (createdOrder fallbackDag).Sublist [0, 1, 2, 3, 3, 3] := by
    have : ([0, 1, 2, 3, 3, 3] : List Nat)
      = fallbackDag.initial :: fallbackDag.edges.map Edge.dest ++ [fallbackDag.final] := rfl
    rw [this, createdOrder]
    exact ((List.filter_sublist.map _).cons_cons _).append (List.Sublist.refl _)
  intro s s' hne he hs
  have h3 := hs.trans hsub
  have hmem : ∀ x ∈ [s, s', s], x ∈ ([0, 1, 2, 3, 3, 3] : List Nat) := fun x hx => h3.subset hx
  have hs1 := hmem s (by simp)
  have hs2 := hmem s' (by simp)
  simp only [List.mem_cons, List.not_mem_nil, or_false] at hs1 hs2
  revert h3
  rcases hs1 with rfl | rfl | rfl | rfl | rfl | rfl <;>
    rcases hs2 with rfl | rfl | rfl | rfl | rfl | rfl <;> simp_all
  all_goals decide

/-- The DAG of the collision witness: `0 → 1 → 3` and `0 → 2 → 1`: state `1` is numbered, evicted
from the scratch table by `2`, and then numbered again. -/
def collisionDag : Dag Nat Unit Unit Nat :=
  ⟨0, [⟨0, 1, 5, none, 0⟩, ⟨0, 2, 0, none, 1⟩, ⟨2, 1, 0, none, 2⟩, ⟨1, 3, 0, none, 3⟩], 3⟩

/-- C25: the deviation: when two states share a scratch table slot, a state that was evicted and is
reached again receives a second number, and solutions are lost: here the DAG has solutions with
edge infos `[0, 3]` and `[1, 2, 3]`, but the renumbered DAG has lost the first. -/
theorem C25_collision_loses_solutions :
    let h : Nat → Nat := fun s => if s = 2 then 1 else s
    DagTopo collisionDag
    ∧ (∃ p, DagSolution collisionDag p ∧ p.map Edge.info = [0, 3])
    ∧ ∃ d', collisionDag.pruneRewrite h = some d'
      ∧ ¬ ∃ p, DagSolution d' p ∧ p.map Edge.info = [0, 3] := by
  intro h
  refine ⟨by simp [collisionDag, TopoWeak], ?_, ?_⟩
  · refine ⟨[⟨0, 1, 5, none, 0⟩, ⟨1, 3, 0, none, 3⟩], ⟨?_, ?_⟩, rfl⟩
    · rw [DagWalk, Walk.cons_iff, Walk.cons_iff, Walk.nil_iff]
      simp [collisionDag]
    · intro e he
      simp only [List.mem_cons, List.not_mem_nil, or_false] at he
      rcases he with rfl | rfl
      · exact WithTop.coe_lt_top (5 : ℚ)
      · exact WithTop.coe_lt_top (0 : ℚ)
  · have hf : (5 : Cost) < ⊤ := WithTop.coe_lt_top (5 : ℚ)
    have hval : collisionDag.pruneRewrite h = some
        ⟨0, [⟨0, 1, 0, none, 1⟩, ⟨1, 2, 0, none, 2⟩, ⟨2, 3, 0, none, 3⟩], 3⟩ := by
      simp [collisionDag, Dag.pruneRewrite, IdTable.create, IdTable.empty, rewriteStep,
        IdTable.lookup, Edge.isFinite, h, endStep, compactIndex, List.range_succ,
        List.filter_cons, hf]
    refine ⟨_, hval, ?_⟩
    rintro ⟨p, ⟨hw, _⟩, hp⟩
    have hm := Walk.mem hw
    match p, hp with
    | e :: p', hp =>
      have := hm e (by simp)
      simp only [List.map_cons, List.cons.injEq] at hp
      simp only [List.mem_cons, List.not_mem_nil, or_false] at this
      rcases this with rfl | rfl | rfl <;> simp at hp

/-- C25, for every hash function and every table size, whatever collides and whatever is evicted:
when renumbering returns a DAG, its edges are in topological order, every edge of it lies on a
solution, its states are exactly the numbers `0..n-1`, and reading every number as the state it was
created for gives back the initial state, the final state and a sublist of the finite edges of the
original, in order, with their costs, required assignments and infos. So every solution of the result
is a solution of the original with the same cost, assignments and infos, and the cheapest solution
of the result is never cheaper than the cheapest of the original. When the original has no solution,
it never returns a DAG. -/
theorem C25_sound (h : S → Nat) (d : Dag S K V I) (ht : DagTopo d) {d' : Dag Nat K V I}
    (hd : d.pruneRewrite h = some d') :
    DagTopo d'
    ∧ (∃ p, DagSolution d' p)
    ∧ (∀ e ∈ d'.edges, ∃ p, DagSolution d' p ∧ e ∈ p)
    ∧ (∃ n, ∀ k, k < n ↔ DagState d' k)
    ∧ ∃ label : Nat → S,
        label d'.initial = d.initial ∧ label d'.final = d.final
        ∧ (renameStates label d').edges.Sublist d.edges
        ∧ ∀ p, DagSolution d' p → DagSolution d
            (p.map fun e => ⟨label e.source, label e.dest, e.cost, e.req, e.info⟩) := by
  obtain ⟨h1, h2, h3, h4, label, l1, l2, l3⟩ := pruneRewrite_sound ht hd
  refine ⟨h1, h2, h3, h4, label, l1, l2, l3.trans List.filter_sublist, ?_⟩
  rintro p ⟨hw, hfin⟩
  refine ⟨?_, ?_⟩
  · rw [← l1, ← l2]
    have hsub : ∀ e ∈ (renameStates label d').edges, e ∈ d.edges := fun e he =>
      (List.mem_filter.1 (l3.subset he)).1
    generalize d'.initial = a at hw
    generalize d'.final = b at hw
    induction hw with
    | nil a => exact .nil _
    | @cons e b p he hw ih =>
      rw [List.map_cons]
      exact Walk.cons (src := Edge.source) (dst := Edge.dest)
        (e := ⟨label e.source, label e.dest, e.cost, e.req, e.info⟩)
        (hsub _ (List.mem_map.2 ⟨e, he, rfl⟩)) (ih fun x hx => hfin x (by simp [hx]))
  · intro e he
    obtain ⟨x, hx, rfl⟩ := List.mem_map.1 he
    exact hfin x hx

/-- The cheapest solution of the renumbered DAG costs at least as much as the cheapest solution of
the original. -/
theorem C25_never_cheaper (h : S → Nat) (d : Dag S K V I) (ht : DagTopo d) {d' : Dag Nat K V I}
    (hd : d.pruneRewrite h = some d') {c c' : Cost}
    (hc : IsMinimum (DagSolution d) (weight Edge.cost) c)
    (hc' : IsMinimum (DagSolution d') (weight Edge.cost) c') : c ≤ c' := by
  obtain ⟨-, -, -, -, label, -, -, -, hs⟩ := C25_sound h d ht hd
  rcases hc'.attained with rfl | ⟨p, hp, rfl⟩
  · exact le_top
  · refine (hc.le _ (hs p hp)).trans (le_of_eq ?_)
    simp only [weight, List.map_map]
    rfl

/-- C25: the other deviation: the final state `1` is evicted by `2` before the second pass asks for
it, so it is given a number past the end of the array of flags: the DAG has a solution, but no
renumbered DAG is returned (with bounds checking an `IndexError`, without it a stray write). -/
theorem C25_collision_fails :
    let h : Nat → Nat := fun s => if s = 2 then 1 else s
    let d : Dag Nat Unit Unit Nat := ⟨0, [⟨0, 1, 0, none, 0⟩, ⟨0, 2, 0, none, 1⟩], 1⟩
    DagTopo d ∧ (∃ p, DagSolution d p) ∧ d.pruneRewrite h = none := by
  intro h d
  refine ⟨by simp [d, TopoWeak], ⟨[⟨0, 1, 0, none, 0⟩], ?_, ?_⟩, ?_⟩
  · rw [DagWalk, Walk.cons_iff, Walk.nil_iff]
    simp [d]
  · intro e he
    simp only [List.mem_singleton] at he
    subst he
    exact WithTop.coe_lt_top (0 : ℚ)
  · simp [d, Dag.pruneRewrite, IdTable.create, IdTable.empty, rewriteStep,
        IdTable.lookup, Edge.isFinite, h]

/-- `C25_sound` speaks about the collision above: the result exists, and it has lost a solution. -/
example : ∃ d', collisionDag.pruneRewrite (fun s => if s = 2 then 1 else s) = some d' := by
  obtain ⟨-, -, d', h, -⟩ := C25_collision_loses_solutions
  exact ⟨d', h⟩

/-! Hypotheses are met by a DAG with a dead end, an infinite edge and a solution. -/

def sampleDag : Dag Nat Nat Nat Unit :=
  ⟨0, [⟨0, 1, 1, some (0, 5), ()⟩, ⟨0, 2, 2, none, ()⟩, ⟨1, 3, ⊤, none, ()⟩, ⟨1, 4, 0, none, ()⟩,
    ⟨2, 5, 0, none, ()⟩], 4⟩

example : DagTopo sampleDag := by simp [sampleDag, TopoWeak]

example : ∃ p, DagSolution sampleDag p := by
  refine ⟨[⟨0, 1, 1, some (0, 5), ()⟩, ⟨1, 4, 0, none, ()⟩], ?_, ?_⟩
  · rw [DagWalk, Walk.cons_iff, Walk.cons_iff, Walk.nil_iff]
    simp [sampleDag]
  · intro e he
    simp only [List.mem_cons, List.not_mem_nil, or_false] at he
    rcases he with rfl | rfl
    · exact WithTop.coe_lt_top (1 : ℚ)
    · exact WithTop.coe_lt_top (0 : ℚ)

example : ∀ s s', DagState sampleDag s → DagState sampleDag s' → id s = id s' → s = s' :=
  fun _ _ _ _ h => h

example : (attemptAll 0 [(⟨0, 1, 1, none, ()⟩ : Edge Nat Unit Unit Unit), ⟨1, 0, 1, none, ()⟩,
    ⟨2, 0, 1, none, ()⟩, ⟨1, 2, 1, none, ()⟩]).edges.length = 2 := by
  simp [attemptAll, PartialDag.addEdge, PartialDag.start, List.lookup]

end RUSure.Props
