import Verif.Model.NodeHeap

/-!
# Trees that linked nodes represent
-/

namespace RUSure.NodeHeap

/-- Trees whose nodes have addresses. -/
inductive LTree where
  | mk (id lo : Nat) (hi : Option Nat) (ann : PAnn) (children : List LTree)

namespace LTree

/-- The address of the root. -/
def id : LTree → Nat
  | mk id _ _ _ _ => id

/-- Start of the range. -/
def lo : LTree → Nat
  | mk _ lo _ _ _ => lo

/-- End of the range. -/
def hi : LTree → Option Nat
  | mk _ _ hi _ _ => hi

/-- The annotation. -/
def ann : LTree → PAnn
  | mk _ _ _ ann _ => ann

/-- The children. -/
def children : LTree → List LTree
  | mk _ _ _ _ cs => cs

/-- The tree without addresses. -/
def erase : LTree → PNode
  | mk _ lo hi ann cs => .mk lo hi ann (cs.map erase)

/-- All addresses. -/
def ids : LTree → List Nat
  | mk id _ _ _ cs => id :: cs.flatMap ids

/-- The number of levels. -/
def depth : LTree → Nat
  | mk _ _ _ _ cs => (cs.map depth).foldr max 0 + 1

end LTree

/-- The node at the root of `t` is an object with these attributes and the given parent, and the same
holds of the nodes below: parents point to children and children to parents. -/
inductive Rep (h : Heap) : Option Nat → LTree → Prop
  | mk {par : Option Nat} {id lo : Nat} {hi : Option Nat} {ann : PAnn} {cs : List LTree}
    (cell : h.get id = ⟨lo, hi, par, ann, cs.map LTree.id⟩) (below : ∀ c ∈ cs, Rep h (some id) c) :
    Rep h par (.mk id lo hi ann cs)

/-- A tree of linked nodes: all nodes are different objects that exist. -/
structure Tree (h : Heap) (t : LTree) : Prop where
  rep : Rep h none t
  nodup : t.ids.Nodup
  exist : ∀ a ∈ t.ids, a < h.next

/-- Nodes that can be reached through children. -/
inductive Below (h : Heap) (root : Nat) : Nat → Prop
  | root : Below h root root
  | child {a c : Nat} : Below h root a → c ∈ (h.get a).children → Below h root c

/-- `t` is a tree of new objects, and the objects that there were before are unchanged. -/
structure NewTree (h h' : Heap) (par : Option Nat) (t : LTree) : Prop where
  rep : Rep h' par t
  nodup : t.ids.Nodup
  fresh : ∀ a ∈ t.ids, h.next ≤ a ∧ a < h'.next
  more : h.next ≤ h'.next
  unchanged : ∀ a < h.next, h'.get a = h.get a

/-- A function on linked nodes does what the function on values does: it raises the same exception, or it
returns the root of a new tree with the same nodes. -/
def Agrees (h : Heap) (par : Option Nat) (linked : Except Fail (Heap × Nat)) (value : Except ParseFail PNode) : Prop :=
  match value with
  | .error e => linked = .error (.py e)
  | .ok s => ∃ (h' : Heap) (t : LTree), linked = .ok (h', t.id) ∧ t.erase = s ∧ NewTree h h' par t

end RUSure.NodeHeap
