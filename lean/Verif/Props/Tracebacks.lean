import Verif.Spec.Tracebacks

/-!
# C75: edge tracebacks can be removed again, and change nothing but metadata
-/

namespace RUSure.Props
open RUSure.Trace

section
variable {X F : Type}

theorem key_ne : originalKey ≠ tracebackKey := by decide +kernel

theorem lookup_put (k : Text) (v : Obj X F) (d : List (Text × Obj X F)) :
    (put k v d).lookup k = some v := by
  induction d with
  | nil => simp [put, List.lookup]
  | cons x d ih =>
    obtain ⟨k', w⟩ := x
    rw [put]
    split
    · rename_i h
      rw [List.lookup_cons, h, beq_self_eq_true]
    · rename_i h
      rw [List.lookup_cons, beq_eq_false_iff_ne.mpr fun e => h e.symm]
      exact ih

theorem lookup_put_ne {k j : Text} (h : j ≠ k) (v : Obj X F) (d : List (Text × Obj X F)) :
    (put k v d).lookup j = d.lookup j := by
  induction d with
  | nil =>
    rw [put, List.lookup_cons, beq_eq_false_iff_ne.mpr h]
  | cons x d ih =>
    obtain ⟨k', w⟩ := x
    rw [put]
    split
    · rename_i h'
      rw [List.lookup_cons, List.lookup_cons, beq_eq_false_iff_ne.mpr (h' ▸ h)]
    · rw [List.lookup_cons, List.lookup_cons, ih]

theorem delete_put {k : Text} (v : Obj X F) (d : List (Text × Obj X F)) (h : (d.lookup k).isNone) :
    delete k (put k v d) = d := by
  induction d with
  | nil => simp [put, delete]
  | cons x d ih =>
    obtain ⟨k', w⟩ := x
    rw [List.lookup_cons] at h
    by_cases e : k = k'
    · rw [e, beq_self_eq_true] at h
      cases h
    · rw [beq_eq_false_iff_ne.mpr e] at h
      rw [put, if_neg fun e' => e e'.symm, delete, if_neg fun e' => e e'.symm, ih h]

/-- C75: stripping gives back the metadata an edge had before the traceback was added, with the entries
of dictionaries in their order, unless it was a dictionary with one of the two reserved keys. Edges
without traceback are left as they are. -/
theorem C75_strip (f : F) (o : Obj X F) (h : CleanInfo o) :
    stripInfo (withTraceback f o) = o ∧ stripInfo o = o := by
  cases o with
  | atom x =>
    refine ⟨?_, rfl⟩
    rw [withTraceback, stripInfo, List.lookup_cons, beq_self_eq_true]
    exact nofun
  | frame x =>
    refine ⟨?_, rfl⟩
    rw [withTraceback, stripInfo, List.lookup_cons, beq_self_eq_true]
    exact nofun
  | dict d =>
    obtain ⟨h1, h2⟩ := h
    rw [Option.isNone_iff_eq_none] at h1
    constructor
    · rw [withTraceback, stripInfo, lookup_put_ne key_ne, h1]
      simp only [lookup_put, Option.isSome_some, if_true]
      rw [delete_put _ _ h2]
    · rw [stripInfo, h1]
      rw [Option.isNone_iff_eq_none] at h2
      simp [h2]

/-- C75: metadata with a reserved key is lost: with a key for the original metadata, stripping returns the
value of that key, also if no traceback has been added. -/
theorem C75_reserved (f : F) (d : List (Text × Obj X F)) (o : Obj X F) (h : d.lookup originalKey = some o) :
    stripInfo (withTraceback f (.dict d)) = o ∧ stripInfo (.dict d) = o := by
  constructor
  · rw [withTraceback, stripInfo, lookup_put_ne key_ne, h]
  · rw [stripInfo, h]

/-- C75: annotators see the metadata without the traceback, if it is not a dictionary. -/
theorem C75_annotators (f : F) (o : Obj X F) (h : ∀ d, o ≠ .dict d) :
    readInfo (withTraceback f o) = o ∧ readInfo o = o := by
  cases o with
  | dict d => exact (h d rfl).elim
  | atom x =>
    refine ⟨?_, rfl⟩
    rw [withTraceback, readInfo, List.lookup_cons, beq_self_eq_true]
    · rfl
    · exact nofun
  | frame x =>
    refine ⟨?_, rfl⟩
    rw [withTraceback, readInfo, List.lookup_cons, beq_self_eq_true]
    · rfl
    · exact nofun

end

section
variable {S K V X F : Type} [DecidableEq S]

theorem strip_add (flag : Bool) (d : PartialDag S K V (Obj X F)) (e : Edge S K V (Obj X F)) (caller : F)
    (h : CleanInfo e.info) :
    (stripped d).addEdge e = (addEdge flag d e caller).map stripped := by
  have key : stripEdge (if flag then traceEdge caller e else e) = e := by
    obtain ⟨h1, h2⟩ := C75_strip caller e.info h
    cases flag
    · rw [if_neg (by decide), stripEdge, h2]
    · rw [if_pos rfl, stripEdge, traceEdge, h1]
  have hs : (if flag then traceEdge caller e else e).source = e.source ∧
      (if flag then traceEdge caller e else e).dest = e.dest := by
    cases flag <;> exact ⟨rfl, rfl⟩
  unfold PartialDag.addEdge addEdge
  change (if (List.lookup e.dest d.seen).isSome = true then _ else _) = _
  by_cases h1 : (List.lookup e.dest d.seen).isSome = true
  · by_cases h2 : (List.lookup e.source d.seen).isSome = true
    · rw [if_pos h1, if_pos h1, if_pos h2]
      exact if_pos h2
    · rw [if_pos h1, if_pos h1, if_neg h2]
      exact if_neg h2
  · rw [if_neg h1, if_neg h1]
    simp only [Except.map, stripped, hs.1, hs.2, List.map_append, List.map_cons, List.map_nil, key]

mutual
theorem run_strip (flag : Bool) (d : PartialDag S K V (Obj X F)) : ∀ (p : Prog S K V X F), Clean p →
    replay (fun _ e => e) (stripped d) p = (stripped (run flag d p).2.1, (run flag d p).2.2)
  | .add e caller, h => by
    cases h with
    | add h =>
      rw [replay, run, strip_add flag d e caller h]
      cases addEdge flag d e caller <;> rfl
  | .raise, _ => by rw [replay, run]
  | .within body, h => by
    cases h with
    | within h =>
      rw [replay, run, runs_strip true d body h]
  | .caught body, h => by
    cases h with
    | caught h =>
      rw [replay, run, runs_strip flag d body h]
theorem runs_strip (flag : Bool) (d : PartialDag S K V (Obj X F)) : ∀ (ps : List (Prog S K V X F)),
    (∀ p ∈ ps, Clean p) →
    replays (fun _ e => e) (stripped d) ps = (stripped (runs flag d ps).2.1, (runs flag d ps).2.2)
  | [], _ => by rw [replays, runs]
  | p :: ps, h => by
    rw [replays, runs, run_strip flag d p (h p (List.mem_cons_self ..))]
    simp only
    split
    · rfl
    · exact runs_strip _ _ ps fun q hq => h q (List.mem_cons_of_mem _ hq)
end

/-- C75: however blocks, exceptions and handlers are nested, and whether tracebacks are on or not, edges
are accepted and rejected as without tracebacks, and stripping all edges gives the DAG that would have been
built without. -/
theorem C75_same_dag (flag : Bool) (d : PartialDag S K V (Obj X F)) (ps : List (Prog S K V X F))
    (h : ∀ p ∈ ps, Clean p) :
    replays (fun _ e => e) (stripped d) ps = (stripped (runs flag d ps).2.1, (runs flag d ps).2.2) :=
  runs_strip flag d ps h

mutual
theorem run_off (d : PartialDag S K V (Obj X F)) : ∀ (p : Prog S K V X F), (run false d p).1 = false
  | .add e caller => by
    rw [run]
    cases addEdge false d e caller <;> rfl
  | .raise => by rw [run]
  | .within body => by rw [run]
  | .caught body => by
    rw [run]
    exact runs_off d body
theorem runs_off (d : PartialDag S K V (Obj X F)) : ∀ (ps : List (Prog S K V X F)), (runs false d ps).1 = false
  | [] => by rw [runs]
  | p :: ps => by
    rw [runs]
    split
    · exact run_off d p
    · rw [run_off d p]
      exact runs_off _ ps
end

/-- C75: a block leaves tracebacks off, also if an exception leaves it, so programs that start with
tracebacks off end so. -/
theorem C75_off_again (flag : Bool) (d : PartialDag S K V (Obj X F)) (body ps : List (Prog S K V X F)) :
    (run flag d (.within body)).1 = false ∧ (runs false d ps).1 = false :=
  ⟨by rw [run], runs_off d ps⟩

theorem add_as (flag : Bool) (d : PartialDag S K V (Obj X F)) (e : Edge S K V (Obj X F)) (caller : F) :
    addEdge flag d e caller = d.addEdge (if flag then traceEdge caller e else e) := by
  have hs : (if flag then traceEdge caller e else e).source = e.source ∧
      (if flag then traceEdge caller e else e).dest = e.dest := by
    cases flag <;> exact ⟨rfl, rfl⟩
  unfold PartialDag.addEdge addEdge
  simp only [hs.1, hs.2]

mutual
theorem run_plain (flag : Bool) (d : PartialDag S K V (Obj X F)) : ∀ (p : Prog S K V X F), NoBlocks p →
    run flag d p = (flag, replay (fun f e => if flag then traceEdge f e else e) d p)
  | .add e caller, _ => by
    rw [replay, run, add_as]
    cases d.addEdge (if flag then traceEdge caller e else e) <;> rfl
  | .raise, _ => by rw [replay, run]
  | .within body, h => by cases h
  | .caught body, h => by
    cases h with
    | caught h =>
      rw [replay, run, runs_plain flag d body h]
theorem runs_plain (flag : Bool) (d : PartialDag S K V (Obj X F)) : ∀ (ps : List (Prog S K V X F)),
    (∀ p ∈ ps, NoBlocks p) →
    runs flag d ps = (flag, replays (fun f e => if flag then traceEdge f e else e) d ps)
  | [], _ => by rw [replays, runs]
  | p :: ps, h => by
    rw [replays, runs, run_plain flag d p (h p (List.mem_cons_self ..))]
    simp only
    generalize replay (fun f e => if flag = true then traceEdge f e else e) d p = r
    by_cases e : r.2 = true
    · rw [if_pos e, if_pos e]
    · rw [if_neg e, if_neg e]
      exact runs_plain _ _ ps fun q hq => h q (List.mem_cons_of_mem _ hq)
end

/-- C75: in a block that has no other block in it, all edges get the tracebacks of their callers; outside
of blocks no edge gets one. -/
theorem C75_traced (flag : Bool) (d : PartialDag S K V (Obj X F)) (body : List (Prog S K V X F))
    (h : ∀ p ∈ body, NoBlocks p) :
    run flag d (.within body) = (false, replays traceEdge d body)
      ∧ runs false d body = (false, replays (fun _ e => e) d body) := by
  constructor
  · rw [run, runs_plain true d body h]
    rfl
  · rw [runs_plain false d body h]
    rfl

/-- C75: blocks do not nest: after an inner block, the rest of the outer block adds edges without
tracebacks. -/
theorem C75_nested (flag : Bool) (d d' : PartialDag S K V (Obj X F)) (inner rest : List (Prog S K V X F))
    (hi : ∀ p ∈ inner, NoBlocks p) (hr : ∀ p ∈ rest, NoBlocks p)
    (h : replays traceEdge d inner = (d', false)) :
    run flag d (.within (.within inner :: rest)) = (false, replays (fun _ e => e) d' rest) := by
  rw [run, runs, (C75_traced true d inner hi).1, h]
  simp only [Bool.false_eq_true, if_false]
  rw [(C75_traced false d' rest hr).2]

end

section
variable {S K V I J : Type} [DecidableEq S]

/-- C75: what can be reached, and what pruning keeps, does not depend on metadata. -/
theorem C75_metadata_unused (g : I → J) (d : Dag S K V I) :
    (mapInfo g d).prune = mapInfo g d.prune ∧ (mapInfo g d).pruneJit = mapInfo g d.pruneJit
      ∧ (mapInfo g d).stateList = d.stateList ∧ ∀ s, (mapInfo g d).isReachable s = d.isReachable s := by
  let ge : Edge S K V I → Edge S K V J := fun e =>
    { source := e.source, dest := e.dest, cost := e.cost, req := e.req, info := g e.info }
  have rel : (mapInfo g d).relevant = d.relevant.map ge := by
    unfold Dag.relevant mapInfo
    rw [List.filter_map]
    rfl
  have fw : (mapInfo g d).forwardReachable = d.forwardReachable := by
    unfold Dag.forwardReachable
    rw [rel, List.foldl_map]
    rfl
  have bw : (mapInfo g d).backwardReachable = d.backwardReachable := by
    unfold Dag.backwardReachable
    rw [rel, ← List.map_reverse, List.foldl_map]
    rfl
  have re : ∀ s, (mapInfo g d).isReachable s = d.isReachable s := by
    intro s
    unfold Dag.isReachable
    rw [fw, bw]
  refine ⟨?_, ?_, ?_, re⟩
  · unfold Dag.prune
    simp only [re]
    unfold mapInfo
    simp only [List.filter_map]
    rfl
  · unfold Dag.pruneJit
    simp only [fw, bw, rel]
    unfold mapInfo
    simp only [List.filter_map]
    rfl
  · unfold Dag.stateList mapInfo
    rw [List.foldl_map]

end

namespace TraceExamples

/-- An edge between numbers. -/
def edge (a b : Nat) (o : Obj Nat Nat) : Edge Nat Nat Nat (Obj Nat Nat) := ⟨a, b, 0, none, o⟩

/-- Two edges in a block, then one outside; the middle one has a dictionary. -/
def program : List (Prog Nat Nat Nat Nat Nat) :=
  [.within [.add (edge 0 1 (.atom 7)) 100, .add (edge 1 2 (.dict [(['k'], .atom 8)])) 101],
    .add (edge 2 3 (.atom 9)) 102]

example : ∀ p ∈ program, Clean p := by
  intro p hp
  rcases List.mem_cons.mp hp with rfl | hp
  · refine .within fun q hq => ?_
    rcases List.mem_cons.mp hq with rfl | hq
    · exact .add trivial
    · rcases List.mem_singleton.mp hq with rfl
      exact .add ⟨by decide +kernel, by decide +kernel⟩
  · rcases List.mem_singleton.mp hp with rfl
    exact .add trivial

example : ((runs false (.start 0) program).2.1.edges.map Edge.info)
    = [.dict [(originalKey, .atom 7), (tracebackKey, .frame 100)],
      .dict [(['k'], .atom 8), (tracebackKey, .frame 101)], .atom 9] := by
  have h : tracebackKey ≠ ['k'] := by decide +kernel
  simp [program, runs, run, addEdge, PartialDag.start, List.lookup, edge, traceEdge, withTraceback, put, h.symm]

-- A block in a block: the edge after the inner block has no traceback.
example : run false (.start 0) (.within [.within [.add (edge 0 1 (.atom 7)) 100], .add (edge 1 2 (.atom 8)) 101])
    = (false, replays (fun _ e => e)
        (⟨0, [traceEdge 100 (edge 0 1 (.atom 7))], [(0, 1)]⟩ : PartialDag Nat Nat Nat (Obj Nat Nat))
        [.add (edge 1 2 (.atom 8)) 101]) := by
  apply C75_nested
  · intro p hp
    rcases List.mem_singleton.mp hp with rfl
    exact .add
  · intro p hp
    rcases List.mem_singleton.mp hp with rfl
    exact .add
  · simp [replays, replay, PartialDag.addEdge, PartialDag.start, edge, traceEdge]

-- A dictionary with a reserved key is not given back.
example : stripInfo (.dict [(originalKey, .atom 1), (['k'], .atom 2)] : Obj Nat Nat) = .atom 1 :=
  (C75_reserved 0 _ _ (by rw [List.lookup_cons, beq_self_eq_true])).2

end TraceExamples

end RUSure.Props
