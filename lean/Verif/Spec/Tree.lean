import Verif.Model.Tree

/-!
# Specification vocabulary for node sequences

Independent of the model's traversals: navigation by child-index paths, leaves, sibling lists.
-/

namespace RUSure.Spec

open RUSure

variable {M : Type}

/-- The node reached from a sequence by a (nonempty) path of child indices. -/
def nodeAt : List (Node M) → List Nat → Option (Node M)
  | _, [] => none
  | seq, [i] => seq[i]?
  | seq, i :: j :: p =>
    match seq[i]? with
    | some (.group cs _) => nodeAt cs (j :: p)
    | _ => none

/-- `n` occurs somewhere (at any depth) in `seq`. -/
def Occurs (seq : List (Node M)) (n : Node M) : Prop := ∃ path, nodeAt seq path = some n

/-- `l` is a list of siblings of the tree: the root sequence or the children of some group. -/
def Siblings (seq l : List (Node M)) : Prop :=
  l = seq ∨ ∃ mt, Occurs seq (.group l mt)

/-- No region start, region end or early exit at any depth. -/
def DecisionFree (seq : List (Node M)) : Prop := ∀ n, Occurs seq n → n.isDecision = false

mutual
/-- The leaves (nodes that are not groups) below a node, left to right. -/
def leavesN : Node M → List (Node M)
  | .group cs _ => leaves cs
  | .deco t => [.deco t]
  | .tok t mt => [.tok t mt]
  | .rstart => [.rstart]
  | .rend => [.rend]
  | .exit => [.exit]
/-- The leaves of a sequence, left to right. -/
def leaves : List (Node M) → List (Node M)
  | [] => []
  | n :: ns => leavesN n ++ leaves ns
end

/-- The text of a leaf. -/
def leafText : Node M → Text
  | .deco t => t
  | .tok t _ => t
  | _ => []

/-- The leaf carries text (it is a token or a decoration). -/
def IsTextLeaf : Node M → Prop
  | .deco _ => True
  | .tok _ _ => True
  | _ => False

/-- The same leaf with another text. -/
def withText (t : Text) : Node M → Node M
  | .deco _ => .deco t
  | .tok _ mt => .tok t mt
  | n => n

/-- The text of a sequence: the concatenation of the texts of its leaves. -/
def text (seq : List (Node M)) : Text := (leaves seq).flatMap leafText

/-- Document order on (path, tag) pairs: a group's "before" event precedes everything inside it,
its "after" event follows everything inside it, and siblings are ordered by index. -/
def DocLt (a b : List Nat × WalkTag) : Prop :=
  (∃ c i j r s, a.1 = c ++ i :: r ∧ b.1 = c ++ j :: s ∧ i < j)
  ∨ (∃ i r, b.1 = a.1 ++ i :: r ∧ a.2 = .groupBefore)
  ∨ (∃ i r, a.1 = b.1 ++ i :: r ∧ b.2 = .groupAfter)
  ∨ (a.1 = b.1 ∧ a.2 = .groupBefore ∧ b.2 = .groupAfter)

end RUSure.Spec

namespace RUSure.Spec
open RUSure
variable {M : Type}

/-- In the sibling list `l`, every token and group is immediately followed by an early exit, every
early exit other than a leading one immediately follows a token or group, and there is a leading
early exit iff `start`. -/
def ExitsPlaced (start : Bool) (l : List (Node M)) : Prop :=
  (∀ i n, l[i]? = some n → n.isTokOrGroup = true → l[i + 1]? = some .exit)
  ∧ (∀ i, l[i + 1]? = some .exit → ∃ n, l[i]? = some n ∧ n.isTokOrGroup = true)
  ∧ (l[0]? = some .exit ↔ start = true)

mutual
/-- Removes early exits (only) at every depth. -/
def removeExitsN : Node M → List (Node M)
  | .group cs mt => [.group (removeExits cs) mt]
  | .exit => []
  | .deco t => [.deco t]
  | .tok t mt => [.tok t mt]
  | .rstart => [.rstart]
  | .rend => [.rend]
/-- Removes early exits (only) at every depth. -/
def removeExits : List (Node M) → List (Node M)
  | [] => []
  | n :: ns => removeExitsN n ++ removeExits ns
end

/-- No early exit at any depth. -/
def ExitFree (seq : List (Node M)) : Prop := ¬ Occurs seq .exit

/-- Number of region starts among the siblings `l` (not counting inside groups). -/
def countStarts (l : List (Node M)) : Nat := (l.filter (fun n => n matches .rstart)).length

/-- Number of region ends among the siblings `l`. -/
def countEnds (l : List (Node M)) : Nat := (l.filter (fun n => n matches .rend)).length

/-- `SingleWrapped scope l r`: `r` is `l` with each token and each group, at every depth, replaced by
a group of kind `scope` that holds a region start, the node (with the nodes inside it wrapped in the
same way) and a region end; all other nodes are unchanged. -/
inductive SingleWrapped (scope : M) : List (Node M) → List (Node M) → Prop
  | nil : SingleWrapped scope [] []
  | tok (t : Text) (mt : M) {l r : List (Node M)} : SingleWrapped scope l r →
      SingleWrapped scope (.tok t mt :: l) (.group [.rstart, .tok t mt, .rend] scope :: r)
  | group (mt : M) {inner inner' l r : List (Node M)} : SingleWrapped scope inner inner' →
      SingleWrapped scope l r →
      SingleWrapped scope (.group inner mt :: l) (.group [.rstart, .group inner' mt, .rend] scope :: r)
  | other {n : Node M} {l r : List (Node M)} : n.isTokOrGroup = false → SingleWrapped scope l r →
      SingleWrapped scope (n :: l) (n :: r)

/-- Which tags a node gets in a walk with the given flags. -/
def TagFor (before after : Bool) (n : Node M) (tag : WalkTag) : Prop :=
  match tag with
  | .leaf => n.isGroup = false
  | .groupBefore => n.isGroup = true ∧ before = true
  | .groupAfter => n.isGroup = true ∧ after = true

end RUSure.Spec
