import Mathlib.Data.List.Dedup
import Mathlib.Order.Defs.LinearOrder
import Verif.Model.PackedDag

/-!
# Model of `convert_dag_to_packed` (`r_u_sure/decision_diagrams/packed_dags.py:343-899`)

Conventions and simplifications:
* Tags are shifted by one as in `Model/PackedDag.lean`: `(X, τ)` is the copy of `X` tagged with
  variable index `τ - 1`; the values of `largest_possible_before` and `largest_guaranteed_before` are
  shifted too, those of `largest_immediately_after` are not.
* Dictionaries from states to integers are functions into `Option`.
* Appending edges to an array of lists is modelled as emitting a list of pairs (list number, edge)
  and picking out the pairs of each list afterwards.
* Tagged edges store the index of the variable key instead of the key (keys are distinct).
* Exceptions are values of `ConvertError`.
-/

namespace RUSure

/-- What `convert_dag_to_packed` can raise: a failed `assert`, a `KeyError`/`IndexError`, the
`ValueError` for an unreachable source (lines 561-572), and the `ValueError` for a variable ordering
violation (lines 629-640). -/
inductive ConvertError where
  | assertion
  | keyError
  | unreachable
  | ordering
  deriving DecidableEq, Repr

/-- `packed_dags.py:532-533`, `541-543`: the dictionary from the elements of a list to their indices
(later occurrences overwrite earlier ones). -/
def dictIndex {α : Type} [DecidableEq α] : List α → α → Option Nat
  | [], _ => none
  | x :: xs, a =>
    match dictIndex xs a with
    | some i => some (i + 1)
    | none => if x = a then some 0 else none

/-- The values of `f` along a list in the order of their first occurrence: the pattern of
`packed_dags.py:513-515` and `790-794`. -/
def firstSeen {σ ε : Type} [DecidableEq σ] (f : ε → σ) (es : List ε) : List σ :=
  es.foldl (fun acc e => if f e ∈ acc then acc else acc ++ [f e]) []

/-- Edges between tagged states (`packed_dags.py:691-706`, `729-767`); `info` is the index of the
original edge, `none` (`-1` in the code) for edges assigning the missing value. -/
structure TaggedEdge (S V : Type) where
  source : S × Nat
  dest : S × Nat
  cost : Cost
  req : Option (Nat × V)
  info : Option Nat

section
variable {S K V I : Type} [DecidableEq S] [LinearOrder K] [LinearOrder V]

/-- `packed_dags.py:508-510`, `529-530` `ordered_variable_keys`. -/
def Dag.orderedKeys (d : Dag S K V I) : List K :=
  (d.edges.filterMap (fun e => e.req.map Prod.fst)).dedup.mergeSort (· ≤ ·)

/-- `packed_dags.py:504`, `511`, `535-539` `ordered_variable_values`. -/
def Dag.orderedValues (d : Dag S K V I) (missing : V) (ordering : Option (List V)) : List V :=
  match ordering with
  | none => (missing :: d.edges.filterMap (fun e => e.req.map Prod.snd)).dedup.mergeSort (· ≤ ·)
  | some l => l

/-- `packed_dags.py:507-517`, before the final state is added. -/
def Dag.sourcesInOrder (d : Dag S K V I) : List S :=
  firstSeen Edge.source d.edges

/-- `edges_by_source[state]`: the edges leaving a state with their indices (lines 506-517). -/
def Dag.edgesBySource (d : Dag S K V I) (s : S) : List (Edge S K V I × Nat) :=
  d.edges.zipIdx.filter (fun x => x.1.source = s)

/-- The index of the variable an edge assigns; `none` if it assigns nothing. -/
def Edge.keyIndex (keys : List K) (e : Edge S K V I) : Option Nat :=
  match e.req with
  | none => none
  | some (k, _) => dictIndex keys k

/-- `packed_dags.py:575-580`: storing the larger value. -/
def tableMax (t : S → Option Nat) (s : S) (u : Nat) : S → Option Nat :=
  fun x => if x = s then some (match t s with | none => u | some c => max c u) else t x

/-- `packed_dags.py:600-613`: storing the smaller value. -/
def tableMin (t : S → Option Nat) (s : S) (u : Nat) : S → Option Nat :=
  fun x => if x = s then some (match t s with | none => u | some c => min c u) else t x

/-- The dictionary with one entry. -/
def tableSingle (s : S) (u : Nat) : S → Option Nat := fun x => if x = s then some u else none

/-- `packed_dags.py:552-580`: one iteration; `none` is the `ValueError` of lines 561-572. -/
def possibleStep (keys : List K) (t : S → Option Nat) (e : Edge S K V I) :
    Option (S → Option Nat) :=
  match e.keyIndex keys with
  | some i => some (tableMax t e.dest (i + 1))
  | none =>
    match t e.source with
    | some u => some (tableMax t e.dest u)
    | none => none

/-- `packed_dags.py:552-580`: the loop. -/
def possibleLoop (keys : List K) :
    List (Edge S K V I) → (S → Option Nat) → Option (S → Option Nat)
  | [], t => some t
  | e :: es, t =>
    match possibleStep keys t e with
    | none => none
    | some t' => possibleLoop keys es t'

/-- `packed_dags.py:595-598`: the tag an edge leads to, given `largest_possible_before`. (The lookup
on line 598 cannot fail after the loop computing it succeeded; a missing entry reads as `0` here.) -/
def Edge.arrivalTag (keys : List K) (lpb : S → Option Nat) (e : Edge S K V I) : Nat :=
  match e.keyIndex keys with
  | some i => i + 1
  | none => (lpb e.source).getD 0

/-- `packed_dags.py:587-613` `largest_guaranteed_before`. -/
def guaranteedLoop (keys : List K) (lpb : S → Option Nat) (es : List (Edge S K V I))
    (t : S → Option Nat) : S → Option Nat :=
  es.foldl (fun t e => tableMin t e.dest (e.arrivalTag keys lpb)) t

/-- `packed_dags.py:619-646` `largest_immediately_after`, with the ordering check. -/
def afterLoop (keys : List K) (lpb : S → Option Nat) :
    List (Edge S K V I) → (S → Option Nat) → Except ConvertError (S → Option Nat)
  | [], t => .ok t
  | e :: es, t =>
    match e.keyIndex keys with
    | none => afterLoop keys lpb es t
    | some i =>
      match lpb e.source with
      | none => .error .keyError
      | some τ =>
        if i + 1 ≤ τ then .error .ordering
        else afterLoop keys lpb es (tableMax t e.source i)

/-- The tables used when edges are emitted. -/
structure ConvertTables (S : Type) where
  lpb : S → Option Nat
  guaranteed : S → Option Nat
  after : S → Option Nat

/-- `packed_dags.py:672-681` `largest_tag_for_state`, shifted by one. -/
def ConvertTables.largest (T : ConvertTables S) (s : S) : Nat :=
  match T.after s with
  | some i => i
  | none => (T.lpb s).getD 0

/-- `packed_dags.py:686-707`: the edge assigning the missing value to variable `τ` at a state. -/
def missingEdge (missing : V) (s : S) (τ : Nat) : Nat × TaggedEdge S V :=
  (2 * τ + 1, ⟨(s, τ), (s, τ + 1), 0, some (τ, missing), none⟩)

/-- `packed_dags.py:712-767`: the copy of an edge, if it is kept. Groups of edges between
assignments have even numbers, groups assigning a variable odd ones, as after lines 771-776. -/
def copyEdge (keys : List K) (T : ConvertTables S) (kept : S → Bool) (e : Edge S K V I) (i : Nat) :
    Option (Nat × TaggedEdge S V) :=
  if !kept e.dest then none
  else if !e.isFinite then none
  else
    match e.keyIndex keys, e.req with
    | some v, some (_, x) =>
      some (2 * v + 1, ⟨(e.source, v), (e.dest, v + 1), e.cost, some (v, x), some i⟩)
    | _, _ =>
      let τ := (T.lpb e.source).getD 0
      some (2 * τ, ⟨(e.source, τ), (e.dest, τ), e.cost, none, some i⟩)

/-- `packed_dags.py:662-767`: what one iteration over the states appends, in order. -/
def Dag.emitState (d : Dag S K V I) (keys : List K) (missing : V) (T : ConvertTables S)
    (kept : S → Bool) (s : S) : List (Nat × TaggedEdge S V) :=
  let lo := (T.guaranteed s).getD 0
  (List.range' lo (T.largest s - lo)).map (missingEdge missing s)
    ++ (d.edgesBySource s).filterMap (fun x => copyEdge keys T kept x.1 x.2)

/-- The edges of one group. -/
def groupEdges (emitted : List (Nat × TaggedEdge S V)) (g : Nat) : List (TaggedEdge S V) :=
  (emitted.filter (fun x => x.1 = g)).map Prod.snd

/-- `packed_dags.py:783-795` `tagged_states_in_table_order` before the final state is added. -/
def tableOrder (es : List (TaggedEdge S V)) : List (S × Nat) :=
  firstSeen TaggedEdge.source es

/-- `packed_dags.py:816-825`: the loop computing `state_variable_boundary_indices`; `i` is the
position of the first state of the list, `last` the previous tag. -/
def boundaryLoop (n : Nat) : List (S × Nat) → Nat → Nat → (Nat → Nat) → (Nat → Nat)
  | [], i, last, b => fun j => if last < j ∧ j ≤ n + 1 then i else b j
  | s :: ss, i, last, b =>
    boundaryLoop n ss (i + 1) s.2 (fun j => if last < j ∧ j ≤ s.2 then i else b j)

/-- `packed_dags.py:834-859`: packing one edge; `none` is a `KeyError`. -/
def packEdge (states : List (S × Nat)) (values : List V) (e : TaggedEdge S V) :
    Option PackedEdge :=
  match dictIndex states e.source, dictIndex states e.dest with
  | some s, some t =>
    match e.req with
    | none => some ⟨s, t, e.cost, none⟩
    | some (k, x) =>
      match dictIndex values x with
      | some v => some ⟨s, t, e.cost, some (k, v)⟩
      | none => none
  | _, _ => none

/-- A loop whose body may raise. -/
def mapAll {α β : Type} (f : α → Option β) : List α → Option (List β)
  | [] => some []
  | a :: as =>
    match f a, mapAll f as with
    | some b, some bs => some (b :: bs)
    | _, _ => none

/-- `packed_dags.py:160-199` `PackedStateDAGConversionData`, as far as used here. -/
structure Conversion (S K V : Type) where
  packed : PackedDag
  keys : List K
  values : List V
  taggedStates : List (S × Nat)
  taggedEdges : List (TaggedEdge S V)

/-- `packed_dags.py:769-899`: grouping, numbering and packing of the emitted edges. -/
def assemble (initial final : S) (keys : List K) (values : List V)
    (emitted : List (Nat × TaggedEdge S V)) : Except ConvertError (Conversion S K V) :=
  let n := keys.length
  let groups := (List.range (2 * n + 1)).map (groupEdges emitted)
  let edges := groups.flatten
  let order := tableOrder edges
  match order with
  | [] => .error .keyError
  | s :: _ =>
    if s ≠ (initial, 0) then .error .assertion
    else if (final, n) ∈ order then .error .assertion
    else
      let states := order ++ [(final, n)]
      let bounds := boundaryLoop n states 0 0 (fun _ => 0)
      match mapAll (packEdge states values) edges with
      | none => .error .keyError
      | some packedEdges =>
        .ok {
          packed := {
            numStates := states.length
            numKeys := n
            numValues := values.length
            edges := packedEdges
            edgeBounds := (List.range (2 * n + 2)).map fun g =>
              ((groups.take g).map List.length).sum
            stateBounds := (List.range (n + 2)).map bounds }
          keys := keys
          values := values
          taggedStates := states
          taggedEdges := edges }

/-- `packed_dags.py:343-899` `convert_dag_to_packed`. -/
def Dag.convert (d : Dag S K V I) (missing : V) (ordering : Option (List V)) :
    Except ConvertError (Conversion S K V) :=
  let sources := d.sourcesInOrder
  match sources with
  | [] => .error .keyError
  | s :: _ =>
    if s ≠ d.initial then .error .assertion
    else if d.final ∈ sources then .error .assertion
    else
      let states := sources ++ [d.final]
      let keys := d.orderedKeys
      let values := d.orderedValues missing ordering
      match possibleLoop keys d.edges (tableSingle d.initial 0) with
      | none => .error .unreachable
      | some lpb =>
        let guaranteed := guaranteedLoop keys lpb d.edges (tableSingle d.initial 0)
        match afterLoop keys lpb d.edges (fun _ => none) with
        | .error err => .error err
        | .ok after =>
          if states.any (fun s => (lpb s).isNone) then .error .keyError
          else
            let T : ConvertTables S := ⟨lpb, guaranteed, after⟩
            assemble d.initial d.final keys values
              (states.flatMap (d.emitState keys missing T (fun s => decide (s ∈ states))))

/-- `packed_dags.py:1437-1511`: translation of an extracted path to the original edges
(`tagged=False`). -/
def Conversion.originalPath (c : Conversion S K V) (d : Dag S K V I)
    (path : List (Nat × PackedEdge)) : List (Edge S K V I) :=
  path.filterMap fun x => (c.taggedEdges[x.1]?).bind fun e => e.info.bind fun i => d.edges[i]?

/-- `packed_dags.py:1496-1499`: the assignments reported for an extracted path; keys and values are
looked up in the conversion data. -/
def Conversion.pathAssignments (c : Conversion S K V)
    (path : List (Nat × PackedEdge)) : List (K × V) :=
  path.filterMap fun x => (c.taggedEdges[x.1]?).bind fun e => e.req.bind fun kv =>
    (c.keys[kv.1]?).map fun k => (k, kv.2)

end

end RUSure
