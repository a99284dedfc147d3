import Verif.Model.ParseView
import Verif.Model.Drawing

/-!
# What the view of a pseudo parse tree shows
-/

namespace RUSure.Spec
open RUSure

mutual
/-- The nodes of a tree with their depths, parents before children and from left to right. -/
def nodesWithDepth (depth : Nat) : PNode → List (Nat × PNode)
  | .mk lo hi ann cs => (depth, .mk lo hi ann cs) :: forestWithDepth (depth + 1) cs

def forestWithDepth (depth : Nat) : List PNode → List (Nat × PNode)
  | [] => []
  | n :: ns => nodesWithDepth depth n ++ forestWithDepth depth ns
end

/-- A printable ASCII character that is neither a quotation mark nor a backslash. -/
def Plain (c : Char) : Prop := 32 ≤ c.toNat ∧ c.toNat < 127 ∧ c ≠ '\\' ∧ c ≠ '\'' ∧ c ≠ '"'

/-- The tokens from `lo` to `hi`, and underscores instead of the others, where `i` is the index of the first token. -/
def masked (lo hi : Nat) : Nat → List Text → Text
  | _, [] => []
  | i, t :: ts => (if lo ≤ i ∧ i < hi then t else t.map fun _ => '_') ++ masked lo hi (i + 1) ts

end RUSure.Spec
