import Verif.Spec.Tree

/-!
# A tree as a list of marks
-/

namespace RUSure.Spec
open RUSure
variable {M : Type}

/-- What is met when a tree is read from left to right. -/
inductive Mark (M : Type) where
  | leaf (n : Node M)
  | opening (mt : M)
  | closing

mutual
/-- The marks of one node. -/
def marksN : Node M → List (Mark M)
  | .group cs mt => .opening mt :: (marks cs ++ [.closing])
  | n => [.leaf n]
/-- The marks of a sequence: its leaves in order, and where groups begin and end. -/
def marks : List (Node M) → List (Mark M)
  | [] => []
  | n :: ns => marksN n ++ marks ns
end

/-- The leaf of a mark. -/
def Mark.leaf? : Mark M → Option (Node M)
  | .leaf n => some n
  | _ => none

/-- The groups that are open at the end of a list of marks, outermost first, if `st` are open at its start. -/
def openGroups (st : List M) : List (Mark M) → List M
  | [] => st
  | .leaf _ :: r => openGroups st r
  | .opening mt :: r => openGroups (st ++ [mt]) r
  | .closing :: r => openGroups st.dropLast r

end RUSure.Spec
