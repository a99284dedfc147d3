import Verif.Model.Pack
import Verif.Spec.Tree

/-!
# Specification vocabulary for packed storage
-/

namespace RUSure.Spec
open RUSure
variable {M : Type}

mutual
/-- The storage `S` holds at id `id` exactly the node `n` (category, contents and, recursively,
children). -/
def Represents (S : Storage M) (id : NodeId) : Node M → Prop
  | .deco t => id.cat = .deco ∧ pyGet S.decos id.idx = some t
  | .tok t mt => id.cat = .tok ∧ pyGet S.toks id.idx = some (t, mt)
  | .rstart => id.cat = .rstart
  | .rend => id.cat = .rend
  | .exit => id.cat = .exit
  | .group cs mt =>
      id.cat = .group ∧ ∃ ids, pyGet S.groups id.idx = some ⟨ids, mt⟩ ∧ RepresentsL S ids cs
/-- Pointwise `Represents`. -/
def RepresentsL (S : Storage M) : List NodeId → List (Node M) → Prop
  | ids, [] => ids = []
  | ids, n :: ns => ∃ id rest, ids = id :: rest ∧ Represents S id n ∧ RepresentsL S rest ns
end

/-- Bracketed linearisation of a tree: the events of reading it left to right. -/
inductive Event (M : Type) where
  | leaf (n : Node M)
  | opening (n : Node M)
  | closing (n : Node M)

mutual
/-- Events of one node. -/
def eventsN : Node M → List (Event M)
  | .group cs mt => [.opening (.group cs mt)] ++ events cs ++ [.closing (.group cs mt)]
  | .deco t => [.leaf (.deco t)]
  | .tok t mt => [.leaf (.tok t mt)]
  | .rstart => [.leaf .rstart]
  | .rend => [.leaf .rend]
  | .exit => [.leaf .exit]
/-- Events of a sequence: leaves once, groups bracketing their children, in document order. -/
def events : List (Node M) → List (Event M)
  | [] => []
  | n :: ns => eventsN n ++ events ns
end

/-- Is this the event of a decoration leaf? -/
def Event.isDeco : Event M → Bool
  | .leaf (.deco _) => true
  | _ => false

/-- A traversal item of storage `S` denotes an event. -/
def ItemDenotes (S : Storage M) (x : TravItem) : Event M → Prop
  | .leaf n => x.cat = .leaf ∧ Represents S x.id n
  | .opening n => x.cat = .beforeGroup ∧ Represents S x.id n
  | .closing n => x.cat = .afterGroup ∧ Represents S x.id n

/-- Number of nodes. -/
def numNodes (seq : List (Node M)) : Nat := (walkWithPaths seq true false []).length

mutual
/-- Deepest nesting of groups at a node (0 for leaves). -/
def nestingN : Node M → Nat
  | .group cs _ => 1 + nesting cs
  | .deco _ => 0
  | .tok _ _ => 0
  | .rstart => 0
  | .rend => 0
  | .exit => 0
/-- Deepest nesting of groups in a sequence. -/
def nesting : List (Node M) → Nat
  | [] => 0
  | n :: ns => max (nestingN n) (nesting ns)
end

end RUSure.Spec
