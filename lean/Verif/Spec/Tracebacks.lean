import Verif.Model.Tracebacks

/-!
# What tracebacks should be
-/

namespace RUSure.Trace

section
variable {S K V X F : Type}

/-- Metadata without the two reserved keys. -/
def CleanInfo : Obj X F → Prop
  | .dict d => (d.lookup originalKey).isNone ∧ (d.lookup tracebackKey).isNone
  | _ => True

/-- Programs in which all edges have metadata without the reserved keys. -/
inductive Clean : Prog S K V X F → Prop
  | add {e : Edge S K V (Obj X F)} {caller : F} (h : CleanInfo e.info) : Clean (.add e caller)
  | raise : Clean .raise
  | within {body : List (Prog S K V X F)} (h : ∀ p ∈ body, Clean p) : Clean (.within body)
  | caught {body : List (Prog S K V X F)} (h : ∀ p ∈ body, Clean p) : Clean (.caught body)

/-- Programs that do not use the context manager. -/
inductive NoBlocks : Prog S K V X F → Prop
  | add {e : Edge S K V (Obj X F)} {caller : F} : NoBlocks (.add e caller)
  | raise : NoBlocks .raise
  | caught {body : List (Prog S K V X F)} (h : ∀ p ∈ body, NoBlocks p) : NoBlocks (.caught body)

variable [DecidableEq S]

mutual
/-- What a program does if the context manager does nothing, where `change` is what is done to edges. -/
def replay (change : F → Edge S K V (Obj X F) → Edge S K V (Obj X F)) (d : PartialDag S K V (Obj X F)) :
    Prog S K V X F → PartialDag S K V (Obj X F) × Bool
  | .add e caller =>
    match d.addEdge (change caller e) with
    | .ok d' => (d', false)
    | .error _ => (d, true)
  | .raise => (d, true)
  | .within body => replays change d body
  | .caught body => ((replays change d body).1, false)

/-- Statements. -/
def replays (change : F → Edge S K V (Obj X F) → Edge S K V (Obj X F)) (d : PartialDag S K V (Obj X F)) :
    List (Prog S K V X F) → PartialDag S K V (Obj X F) × Bool
  | [] => (d, false)
  | p :: ps =>
    let r := replay change d p
    if r.2 then r else replays change r.1 ps
end

/-- A DAG whose edges are stripped. -/
def stripped (d : PartialDag S K V (Obj X F)) : PartialDag S K V (Obj X F) :=
  { d with edges := d.edges.map stripEdge }

end

/-- A DAG with other metadata. -/
def mapInfo {S K V I J : Type} (g : I → J) (d : Dag S K V I) : Dag S K V J :=
  { initial := d.initial, final := d.final,
    edges := d.edges.map fun e =>
      { source := e.source, dest := e.dest, cost := e.cost, req := e.req, info := g e.info } }

end RUSure.Trace
