import Verif.Model.Constraint
import Verif.Spec.Paths
import Verif.Spec.Convert

/-!
# Specification of valid region decisions
-/

namespace RUSure.Spec
open RUSure
variable {M : Type}

/-- A decision that has been made. -/
abbrev Decision := DecisionKey × DecisionValue

/-- Whether a node is in a region, as a decision value. -/
def inValue (inside : Bool) : DecisionValue := if inside then .yes else .no

/-- `RegionSeq inside exits i ns ds`: reading the sibling nodes `ns`, whose first node has preorder
index `i`, the decisions `ds` are made, in order. `inside` tells whether the whole sequence lies
inside a region that was started before it and ends after it (or contains the early exit);
otherwise regions may start and end within it. `exits` tells whether reading stops at an early exit
somewhere within the sequence. -/
inductive RegionSeq : Bool → Bool → Nat → List (Node M) → List Decision → Prop
  /-- the sequence is over -/
  | nil (b : Bool) (i : Nat) : RegionSeq b false i [] []
  /-- decorations involve no decisions -/
  | deco {b x i t ns ds} : RegionSeq b x (i + 1) ns ds → RegionSeq b x i (.deco t :: ns) ds
  /-- a token is flagged iff it is in a region -/
  | tok {b x i t mt ns ds} : RegionSeq b x (i + 1) ns ds →
      RegionSeq b x i (.tok t mt :: ns) ((⟨i, .inRegion⟩, inValue b) :: ds)
  /-- a group is flagged iff it is in a region, and then so is everything in it; otherwise regions
  may start and end within it -/
  | group {b x i cs mt ns ds ds'} : RegionSeq b false (i + 1) cs ds →
      RegionSeq b x (i + 1 + seqSize cs) ns ds' →
      RegionSeq b x i (.group cs mt :: ns) ((⟨i, .inRegion⟩, inValue b) :: ds ++ ds')
  /-- a region start that is not used (outside regions) or not available (inside) -/
  | skipStart {b x i ns ds} : RegionSeq b x (i + 1) ns ds →
      RegionSeq b x i (.rstart :: ns) ((⟨i, .start⟩, if b then .na else .no) :: ds)
  /-- a region end that is not available (outside regions) or not used (inside) -/
  | skipEnd {b x i ns ds} : RegionSeq b x (i + 1) ns ds →
      RegionSeq b x i (.rend :: ns) ((⟨i, .stop⟩, if b then .no else .na) :: ds)
  /-- an early exit that is not taken -/
  | skipExit {b x i ns ds} : RegionSeq b x (i + 1) ns ds →
      RegionSeq b x i (.exit :: ns) ((⟨i, .exit⟩, .no) :: ds)
  /-- a region: it starts and ends among the same siblings -/
  | region {x i mid ns ds ds'} : RegionSeq true false (i + 1) mid ds →
      RegionSeq false x (i + 1 + seqSize mid + 1) ns ds' →
      RegionSeq false x i (.rstart :: mid ++ .rend :: ns)
        ((⟨i, .start⟩, .yes) :: ds ++ (⟨i + 1 + seqSize mid, .stop⟩, .yes) :: ds')
  /-- an early exit that is taken -/
  | exit {b i ns} : RegionSeq b true i (.exit :: ns) [(⟨i, .exit⟩, .yes)]
  /-- an early exit is taken within a group -/
  | exitGroup {b i cs mt ns ds} : RegionSeq b true (i + 1) cs ds →
      RegionSeq b true i (.group cs mt :: ns) ((⟨i, .inRegion⟩, inValue b) :: ds)
  /-- an early exit is taken within a region that is not over -/
  | exitRegion {i ns ds} : RegionSeq true true (i + 1) ns ds →
      RegionSeq false true i (.rstart :: ns) ((⟨i, .start⟩, .yes) :: ds)

mutual
/-- The decisions there are for a node with preorder index `i`. -/
def nodeKeys (i : Nat) : Node M → List DecisionKey
  | .deco _ => []
  | .tok _ _ => [⟨i, .inRegion⟩]
  | .group cs _ => ⟨i, .inRegion⟩ :: seqKeys (i + 1) cs
  | .rstart => [⟨i, .start⟩]
  | .rend => [⟨i, .stop⟩]
  | .exit => [⟨i, .exit⟩]
/-- The decisions there are for a sequence whose first node has preorder index `i`. -/
def seqKeys (i : Nat) : List (Node M) → List DecisionKey
  | [] => []
  | n :: ns => nodeKeys i n ++ seqKeys (i + nodeSize n) ns
end

/-- The value of a decision: not applicable if it was not made. -/
def decided (ds : List Decision) (k : DecisionKey) : DecisionValue := (ds.lookup k).getD .na

/-- `α` describes valid regions of the prototype. -/
def ValidRegions (proto : List (Node M)) (α : DecisionKey → DecisionValue) : Prop :=
  ∃ x ds, RegionSeq false x 0 proto ds ∧ ∀ k ∈ seqKeys 0 proto, α k = decided ds k

/-- The DAG has a solution that assigns the values `α` to its variables, where variables that a path
does not assign are not applicable (`constraint_dags.py:823-833`). -/
def Accepts {S I : Type} (d : Dag S DecisionKey DecisionValue I) (keys : List DecisionKey)
    (α : DecisionKey → DecisionValue) : Prop :=
  ∃ p, DagSolution d p ∧ ∀ k ∈ keys, α k = (valueOn p k).getD .na

end RUSure.Spec
