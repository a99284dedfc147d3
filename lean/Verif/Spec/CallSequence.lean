import Verif.Spec.Tree
import Verif.Spec.PrefixBaselines
import Verif.Model.CallSequence

/-!
# Specification of the extraction of calls and of its baselines
-/

namespace RUSure.Spec
open RUSure

/-- A call: the nodes before the parentheses, and the node between them. -/
structure FoundCall where
  name : List (Node MatchName)
  args : Node MatchName

/-- A sibling list is a call: after some decorations comes a name, which starts neither with a decoration
nor with the keyword of a definition, contains no group and ends with a token; then parentheses; then
anything. -/
structure IsCall (cs : List (Node MatchName)) (call : FoundCall) (after : List (Node MatchName)) : Prop where
  split : ∃ decos right, cs = decos ++ call.name
      ++ .group [.tok ['('] (.nodeType .matchLeft), call.args, right] (.nodeType .matched) :: after
    ∧ ∀ n ∈ decos, ∃ t, n = .deco t
  flat : ∀ n ∈ call.name, ∀ cs mt, n ≠ .group cs mt
  first : ∀ n, call.name.head? = some n → (∀ t, n ≠ .deco t)
    ∧ n ≠ .tok ['d', 'e', 'f'] (.nodeType .contentLeaf)
    ∧ n ≠ .tok ['c', 'l', 'a', 's', 's'] (.nodeType .contentLeaf)
  last : ∃ t mt, call.name.getLast? = some (.tok t mt)

mutual
/-- The calls of a sibling list: if it is a call, that call and those in what follows it; otherwise, those in
its groups. -/
inductive CallsIn : List (Node MatchName) → List FoundCall → Prop
  | call {cs call after fs} : IsCall cs call after → CallsBelow after fs → CallsIn cs (call :: fs)
  | other {cs fs} : (∀ call after, ¬ IsCall cs call after) → CallsBelow cs fs → CallsIn cs fs

/-- The calls in the groups among some nodes, in order. -/
inductive CallsBelow : List (Node MatchName) → List FoundCall → Prop
  | nil : CallsBelow [] []
  | leaf {n ns fs} : (∀ cs mt, n ≠ .group cs mt) → CallsBelow ns fs → CallsBelow (n :: ns) fs
  | group {cs mt ns fs fs'} : CallsIn cs fs → CallsBelow ns fs' → CallsBelow (.group cs mt :: ns) (fs ++ fs')
end

/-- The text is white space, and not empty. -/
def IsWhite (cc : CharClass) (t : Text) : Prop := t ≠ [] ∧ ∀ c ∈ t, cc.isSpace c = true

instance (cc : CharClass) (t : Text) : Decidable (IsWhite cc t) := by unfold IsWhite; infer_instance

/-- What a node of the name becomes: regions may start before periods and after white space; tokens are
expected or novel. -/
def callPart (cc : CharClass) (expected : List Text) : Node MatchName → List (Node CallType)
  | .tok t mt =>
    if t = ['.'] ∧ mt = .nodeType .contentLeaf then [.rstart, .tok ['.'] .attributeDot]
    else [.tok t (if t ∈ expected then .expected else .novel)]
  | .deco t => if IsWhite cc t then [.deco t, .rstart] else [.deco t]
  | _ => []

/-- The nodes of a call: regions may start at its beginning and end after either parenthesis; the
arguments are one token. -/
def callNodes (cc : CharClass) (expected : List Text) (f : FoundCall) : List (Node CallType) :=
  .rstart :: (f.name.flatMap (callPart cc expected)
    ++ [.tok ['('] .startCall, .rend, .tok (text [f.args]) (if text [f.args] = [] then .emptyArgs else .args),
        .tok [')'] .endCall, .rend])

/-- The tree of some calls. -/
def callTree (cc : CharClass) (expected : List Text) (fs : List FoundCall) : List (Node CallType) :=
  fs.flatMap fun f => [.group (callNodes cc expected f) .apiCall, .deco ['\n']]

/-- `k` is the position of the last newline of the text, or 0. -/
def LastNewlineAt (t : Text) (k : Nat) : Prop :=
  (t[k]? = some '\n' ∧ ∀ j, k < j → t[j]? ≠ some '\n') ∨ (k = 0 ∧ '\n' ∉ t)

/-- All decorations in the names of the calls are white space. -/
def WhiteNames (cc : CharClass) (fs : List FoundCall) : Prop :=
  ∀ f ∈ fs, ∀ t, .deco t ∈ f.name → IsWhite cc t

/-! ### Baselines -/

/-- The texts of the nodes of a name. -/
def nodeTexts (ns : List (Node MatchName)) : List Text :=
  ns.filterMap fun n => match n with
    | .tok t _ => some t
    | .deco t => some t
    | _ => none

/-- The name up to its last decoration. -/
def FoundCall.before (f : FoundCall) : List (Node MatchName) := (f.name.reverse.dropWhile (!isDecoNode ·)).reverse

/-- The name after its last decoration. -/
def FoundCall.part (f : FoundCall) : List (Node MatchName) := (f.name.reverse.takeWhile (!isDecoNode ·)).reverse

/-- There is a token that is not expected after the last decoration of the name. -/
def FoundCall.isNovel (expected : List Text) (f : FoundCall) : Bool :=
  f.part.any fun n => match n with
    | .tok t mt => !(t = ['.'] && mt = .nodeType .contentLeaf) && !expected.contains t
    | _ => false

/-- Texts in a region, or not. -/
def flagged (b : Bool) (ts : List Text) : List MarkedToken := ts.map fun t => ⟨t, b⟩

/-- The whole call is in a region. -/
def FoundCall.showFull (f : FoundCall) : List MarkedToken :=
  flagged true (nodeTexts f.name ++ [['('], text [f.args], [')']]) ++ flagged false [['\n']]

/-- What comes after the last decoration of the name is in a region, with the opening parenthesis. -/
def FoundCall.showShorter (f : FoundCall) : List MarkedToken :=
  flagged false (nodeTexts f.before) ++ flagged true (nodeTexts f.part ++ [['(']])
    ++ flagged false [text [f.args], [')'], ['\n']]

/-- Nothing is in a region. -/
def FoundCall.showNone (f : FoundCall) : List MarkedToken :=
  flagged false (nodeTexts f.name ++ [['('], text [f.args], [')'], ['\n']])

/-- The decisions can be completed in exactly one way to decisions that the constraints of the prototype
accept, this gives the annotated sequence `out`, and all decisions about regions are recorded. -/
def Determines {M : Type} (proto : List (Node M)) (d : Decisions) (out : List MarkedToken) : Prop :=
  ∀ dag, constructConstraintDag proto = .ok dag → ∃ α, Accepts dag (seqKeys 0 proto) α ∧ AgreesWith d α
    ∧ (∀ β, Accepts dag (seqKeys 0 proto) β → AgreesWith d β → ∀ k ∈ seqKeys 0 proto, β k = α k)
    ∧ (∀ asg marker, (∀ k ∈ seqKeys 0 proto, k.cat ≠ .inRegion → asg k = some (α k)) →
      extractRegions (pack proto) asg marker = .ok out)
    ∧ Records proto α d

end RUSure.Spec
