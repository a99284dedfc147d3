import Mathlib.Algebra.Order.Monoid.WithTop
import Mathlib.Algebra.Order.Ring.Rat

/-!
# Model of `r_u_sure/decision_diagrams/gated_state_dag.py`

States, variable keys, values and edge metadata are `Any` in Python and type parameters here.
Sets/dictionaries whose iteration order is never observed are modelled as lists with membership
tests. Edge tracebacks (a debugging aid, off by default: lines 232-269, 327-345) are in Model/Tracebacks.
-/

namespace RUSure

/-- `gated_state_dag.py:48-55`: costs. Simplification: floats are idealised as exact rationals
extended with `+inf` (`⊤`); NaN (`INVALID_COST`) is never read by the functions modelled (see the
packed tables) and `-inf` does not occur. -/
abbrev Cost := WithTop ℚ

/-- `gated_state_dag.py:58-72` `SharedVariableAssignment`, `Edge`. -/
structure Edge (S K V I : Type) where
  source : S
  dest : S
  cost : Cost
  req : Option (K × V)
  info : I

/-- `gated_state_dag.py:75-80` `CompleteStateDAG`. -/
structure Dag (S K V I : Type) where
  initial : S
  edges : List (Edge S K V I)
  final : S

section
variable {S K V I : Type} [DecidableEq S]

/-- `edge.cost < math.inf`. -/
def Edge.isFinite (e : Edge S K V I) : Bool := decide (e.cost < ⊤)

/-- `gated_state_dag.py:83-106` `extract_state_list` (`seen_states` always has the same elements as
`result`). -/
def Dag.stateList (d : Dag S K V I) : List S :=
  d.edges.foldl
    (fun result e =>
      let r := if e.source ∈ result then result else result ++ [e.source]
      if e.dest ∈ r then r else r ++ [e.dest])
    []

/-- `gated_state_dag.py:126-130`: the forward walk. -/
def forwardStep (reach : List S) (e : Edge S K V I) : List S :=
  if e.source ∈ reach then e.dest :: reach else reach

/-- `gated_state_dag.py:132-136`: the backward walk. -/
def backwardStep (reach : List S) (e : Edge S K V I) : List S :=
  if e.dest ∈ reach then e.source :: reach else reach

/-- `gated_state_dag.py:124`: `relevant_edges`. -/
def Dag.relevant (d : Dag S K V I) : List (Edge S K V I) := d.edges.filter Edge.isFinite

/-- `gated_state_dag.py:127-130`. -/
def Dag.forwardReachable (d : Dag S K V I) : List S := d.relevant.foldl forwardStep [d.initial]

/-- `gated_state_dag.py:133-136`. -/
def Dag.backwardReachable (d : Dag S K V I) : List S :=
  d.relevant.reverse.foldl backwardStep [d.final]

/-- `gated_state_dag.py:109-138` `compute_reachable_states` (membership test of the result). -/
def Dag.isReachable (d : Dag S K V I) (s : S) : Bool :=
  decide (s ∈ d.forwardReachable) && decide (s ∈ d.backwardReachable)

/-- `gated_state_dag.py:141-158` `prune_to_reachable`. -/
def Dag.prune (d : Dag S K V I) : Dag S K V I :=
  let keep := fun e : Edge S K V I =>
    e.isFinite && d.isReachable e.source && d.isReachable e.dest
  { d with edges := d.edges.filter keep }

/-- `gated_state_dag.py:161-203`: the Numba overload of `prune_to_reachable`. -/
def Dag.pruneJit (d : Dag S K V I) : Dag S K V I :=
  let keep := fun e : Edge S K V I =>
    decide (e.source ∈ d.forwardReachable) && decide (e.dest ∈ d.backwardReachable)
  { d with edges := d.relevant.filter keep }

/-! ## Incremental construction -/

/-- `gated_state_dag.py:206-222` `PartialStateDAG`; `seen_outgoing` is an association list, most
recent binding first. -/
structure PartialDag (S K V I : Type) where
  initial : S
  edges : List (Edge S K V I)
  seen : List (S × S)

/-- `gated_state_dag.py:225-229` `partial_state_dag_starting_from`. -/
def PartialDag.start (s : S) : PartialDag S K V I := ⟨s, [], []⟩

/-- The exceptions `partial_state_dag_add_edge` can raise. -/
inductive AddError where
  | valueError
  | keyError
  deriving DecidableEq, Repr

/-- `gated_state_dag.py:246-272` `partial_state_dag_add_edge`. The error message is an f-string that
looks up `dag.seen_outgoing[edge.source]` (line 252), which is a `KeyError` when the source has no
outgoing edge yet. -/
def PartialDag.addEdge (d : PartialDag S K V I) (e : Edge S K V I) :
    Except AddError (PartialDag S K V I) :=
  if (d.seen.lookup e.dest).isSome then
    if (d.seen.lookup e.source).isSome then .error .valueError else .error .keyError
  else .ok { d with seen := (e.source, e.dest) :: d.seen, edges := d.edges ++ [e] }

/-- `gated_state_dag.py:307-311`: the Numba overload (ordering checks disabled). -/
def PartialDag.addEdgeJit (d : PartialDag S K V I) (e : Edge S K V I) : PartialDag S K V I :=
  { d with edges := d.edges ++ [e] }

/-- `gated_state_dag.py:316-324` `partial_state_dag_finish`. -/
def PartialDag.finish (d : PartialDag S K V I) (final : S) : Dag S K V I :=
  ⟨d.initial, d.edges, final⟩

end

/-! ## Rewriting states as integers -/

section
variable {S K V I : Type} [DecidableEq S]

/-- The mutable tables of `prune_unreachable_and_rewrite_states` (`gated_state_dag.py:382-387`):
`table` is the scratch table (`-1` is `none`), `states` is `states_by_index`, `fallback` the
fallback dictionary (most recent binding first). -/
structure IdTable (S : Type) where
  table : Nat → Option Nat
  states : List S
  fallback : List (S × Nat)

/-- `gated_state_dag.py:384-387`. -/
def IdTable.empty : IdTable S := ⟨fun _ => none, [], []⟩

/-- `gated_state_dag.py:394-410` `lookup_id_for_state`; `h` is `hash(state) % scratch_space_size`. -/
def IdTable.lookup (h : S → Nat) (t : IdTable S) (s : S) : Option Nat :=
  match t.table (h s) with
  | none => none
  | some i =>
    if t.states[i]? = some s then some i
    else t.fallback.lookup s

/-- `gated_state_dag.py:412-434` `lookup_or_create_id_for_state`. -/
def IdTable.create (h : S → Nat) (t : IdTable S) (s : S) : IdTable S × Nat :=
  let next := t.states.length
  let fresh : IdTable S :=
    { t with states := t.states ++ [s]
             table := fun b => if b = h s then some next else t.table b }
  match t.table (h s) with
  | none => (fresh, next)
  | some i =>
    match t.states[i]? with
    | none => (fresh, next) -- index error; cannot happen
    | some s' =>
      if s = s' then (t, i)
      else ({ fresh with fallback := (s', i) :: t.fallback }, next)

/-- `gated_state_dag.py:440-449`: one iteration of the first pass. The triple's original edge index
is replaced by the edge itself. -/
def rewriteStep (h : S → Nat) (acc : IdTable S × List (Nat × Nat × Edge S K V I))
    (e : Edge S K V I) : IdTable S × List (Nat × Nat × Edge S K V I) :=
  if e.isFinite then
    match acc.1.lookup h e.source with
    | none => acc
    | some src =>
      let r := acc.1.create h e.dest
      (r.1, acc.2 ++ [(src, r.2, e)])
  else acc

/-- `gated_state_dag.py:455-458`: the second pass over the triples in reverse. -/
def endStep (reach : List Nat) (x : Nat × Nat × Edge S K V I) : List Nat :=
  if x.2.1 ∈ reach then x.1 :: reach else reach

/-- `gated_state_dag.py:467` `np.cumsum(reachable_from_end) - 1` at position `i`. -/
def compactIndex (reach : List Nat) (i : Nat) : Nat :=
  ((List.range (i + 1)).filter (fun j => decide (j ∈ reach))).length - 1

/-- `gated_state_dag.py:348-490` `prune_unreachable_and_rewrite_states`; `none` is an exception
(or, for an unreachable final state, the out-of-bounds write of line 454). -/
def Dag.pruneRewrite (h : S → Nat) (d : Dag S K V I) : Option (Dag Nat K V I) :=
  let t0 := (IdTable.empty.create h d.initial).1
  let r := d.edges.foldl (rewriteStep h) (t0, [])
  let f := r.1.create h d.final
  if f.2 ≥ r.1.states.length then none
  else
    let reach := r.2.reverse.foldl endStep [f.2]
    match f.1.lookup h d.initial, f.1.lookup h d.final with
    | some i0, some i1 =>
      if i0 ∈ reach then
        some {
          initial := compactIndex reach i0
          edges := (r.2.filter (fun x => decide (x.2.1 ∈ reach))).map
            (fun x => ⟨compactIndex reach x.1, compactIndex reach x.2.1, x.2.2.cost, x.2.2.req,
              x.2.2.info⟩)
          final := compactIndex reach i1 }
      else none
    | _, _ => none

end

end RUSure
