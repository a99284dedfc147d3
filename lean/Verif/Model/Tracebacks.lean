import Verif.Model.Tree
import Verif.Model.GatedDag

/-!
# Model of edge tracebacks (`gated_state_dag.py:232-272, 327-345`)

The flag `EDGE_TRACEBACKS_ENABLED` is global state: programs that add edges, use the context manager,
raise and catch exceptions are run with it.
-/

namespace RUSure.Trace

/-- What edge metadata can be: a dictionary, a stack frame, or another object. Dictionaries have string
keys and keep the order of insertion. -/
inductive Obj (X F : Type) where
  | atom (x : X)
  | frame (f : F)
  | dict (entries : List (Text × Obj X F))

/-- The key of tracebacks. -/
def tracebackKey : Text := "traceback".toList

/-- The key of other metadata. -/
def originalKey : Text := "original_info".toList

section
variable {X F : Type}

/-- `{**d, k: v}`. -/
def put (k : Text) (v : Obj X F) : List (Text × Obj X F) → List (Text × Obj X F)
  | [] => [(k, v)]
  | (k', w) :: d => if k' = k then (k', v) :: d else (k', w) :: put k v d

/-- `del d[k]`. -/
def delete (k : Text) : List (Text × Obj X F) → List (Text × Obj X F)
  | [] => []
  | (k', w) :: d => if k' = k then d else (k', w) :: delete k d

/-- `gated_state_dag.py:259-262`: `new_info`. -/
def withTraceback (f : F) : Obj X F → Obj X F
  | .dict d => .dict (put tracebackKey (.frame f) d)
  | o => .dict [(originalKey, o), (tracebackKey, .frame f)]

/-- `gated_state_dag.py:329-338`: `original_info`, or the metadata of the edge that is returned. -/
def stripInfo : Obj X F → Obj X F
  | .dict d =>
    match d.lookup originalKey with
    | some o => o
    | none => if (d.lookup tracebackKey).isSome then .dict (delete tracebackKey d) else .dict d
  | o => o

/-- `edit_dags.py:2411-2415`, `constraint_dags.py:1128-1132`: the metadata annotators use. -/
def readInfo : Obj X F → Obj X F
  | .dict d => (d.lookup originalKey).getD (.dict d)
  | o => o

end

section
variable {S K V X F : Type}

/-- `gated_state_dag.py:263-269`: the edge with a traceback. -/
def traceEdge (f : F) (e : Edge S K V (Obj X F)) : Edge S K V (Obj X F) :=
  { e with info := withTraceback f e.info }

/-- `gated_state_dag.py:327-345` `strip_traceback_from_edge`. -/
def stripEdge (e : Edge S K V (Obj X F)) : Edge S K V (Obj X F) := { e with info := stripInfo e.info }

/-- Programs that add edges. -/
inductive Prog (S K V X F : Type) where
  /-- `partial_state_dag_add_edge(dag, e)`, called from `caller`. -/
  | add (e : Edge S K V (Obj X F)) (caller : F)
  /-- An exception. -/
  | raise
  /-- `with adding_edge_tracebacks(): body`. -/
  | within (body : List (Prog S K V X F))
  /-- `try: body except: pass`. -/
  | caught (body : List (Prog S K V X F))

variable [DecidableEq S]

/-- `gated_state_dag.py:246-272` `partial_state_dag_add_edge` with the flag. -/
def addEdge (flag : Bool) (d : PartialDag S K V (Obj X F)) (e : Edge S K V (Obj X F)) (caller : F) :
    Except AddError (PartialDag S K V (Obj X F)) :=
  if (d.seen.lookup e.dest).isSome then
    if (d.seen.lookup e.source).isSome then .error .valueError else .error .keyError
  else
    let e' := if flag then traceEdge caller e else e
    .ok { d with seen := (e'.source, e'.dest) :: d.seen, edges := d.edges ++ [e'] }

mutual
/-- Runs a program on the flag and a DAG; the last component tells whether an exception is raised.
For blocks this is `gated_state_dag.py:235-243` `adding_edge_tracebacks`. -/
def run (flag : Bool) (d : PartialDag S K V (Obj X F)) :
    Prog S K V X F → Bool × PartialDag S K V (Obj X F) × Bool
  | .add e caller =>
    match addEdge flag d e caller with
    | .ok d' => (flag, d', false)
    | .error _ => (flag, d, true)
  | .raise => (flag, d, true)
  | .within body =>
    let r := runs true d body
    (false, r.2.1, r.2.2)
  | .caught body =>
    let r := runs flag d body
    (r.1, r.2.1, false)

/-- Runs statements until one raises. -/
def runs (flag : Bool) (d : PartialDag S K V (Obj X F)) :
    List (Prog S K V X F) → Bool × PartialDag S K V (Obj X F) × Bool
  | [] => (flag, d, false)
  | p :: ps =>
    let r := run flag d p
    if r.2.2 then r else runs r.1 r.2.1 ps
end

end

end RUSure.Trace
