import Verif.Model.Edit
import Verif.Spec.Constraint
import Verif.Spec.Tree

/-!
# Specification of edit scripts
-/

namespace RUSure.Spec
open RUSure
variable {M : Type}

/-- What a step of an edit script shows: the decision it makes, the edit it reports, its cost. -/
structure EditStep where
  decision : Option Decision
  edit : Option EditInfo
  cost : Cost

/-- Steps that make no decision and report no edit are not part of the script. -/
def editLabel (e : EditEdge) : List EditStep :=
  if e.req = none ∧ e.info = none then [] else [⟨e.req, e.info, e.cost⟩]

/-- The script of a path. -/
def scriptOf (p : List EditEdge) : List EditStep := p.flatMap editLabel

/-! ### The steps -/

/-- Cost per character of deleting at a confidence. -/
def deletePrice (prm : Params) : Conf → ℚ
  | .high => prm.highDelete
  | .low => prm.lowDelete

/-- Utility per character of keeping at a confidence. -/
def keepPrize (prm : Params) : Conf → ℚ
  | .high => prm.highMatch
  | .low => prm.lowMatch

/-- Cost of starting to edit at a confidence. -/
def startPrice (prm : Params) : Conf → ℚ
  | .high => prm.highStart
  | .low => prm.lowStart

/-- The decision that node `i` is seen at confidence `c`. -/
def seenAt (i : Nat) (c : Conf) : Decision := (⟨i, .inRegion⟩, inValue (decide (c = .low)))

/-- Prototype token `i` is kept as target token `j`. -/
def keepStep (prm : Params) (c : Conf) (i j len : Nat) : EditStep :=
  ⟨some (seenAt i c), some ⟨some i, some j, .keep, some c⟩, ((-(keepPrize prm c * len) : ℚ))⟩

/-- Prototype token `i` is deleted. -/
def deleteStep (prm : Params) (c : Conf) (i len : Nat) : EditStep :=
  ⟨some (seenAt i c), some ⟨some i, none, .delete, some c⟩, ((deletePrice prm c * len : ℚ))⟩

/-- Target token `j` is inserted. -/
def insertStep (prm : Params) (j len : Nat) : EditStep :=
  ⟨none, some ⟨none, some j, .insert, none⟩, ((prm.insertCost * len : ℚ))⟩

/-- A decoration of the target is passed. -/
def targetDecoStep (c : Conf) (j : Nat) : EditStep :=
  ⟨none, some ⟨none, some j, .targetDeco, some c⟩, 0⟩

/-- Prototype group `i` is entered, to delete or to match what is in it. -/
def enterStep (c : Conf) (i : Nat) : EditStep := ⟨some (seenAt i c), none, 0⟩

/-- Editing starts. -/
def startEditStep (prm : Params) (c : Conf) : EditStep :=
  ⟨none, some ⟨none, none, .startEditing, some c⟩, (startPrice prm c : ℚ)⟩

/-- An early exit is taken. -/
def exitStep (c : Conf) (i : Nat) : EditStep :=
  ⟨some (⟨i, .exit⟩, .yes), some ⟨some i, none, .earlyExit, some c⟩, 0⟩

/-- `Pass prm c i n s c'`: the prototype node `n` with index `i`, which is a decoration or a control
node, is passed at confidence `c` with the step `s`; the confidence is `c'` afterwards. -/
inductive Pass (prm : Params) : Conf → Nat → Node M → EditStep → Conf → Prop
  | deco (c i t) : Pass prm c i (.deco t) ⟨none, some ⟨some i, none, .protoDeco, some c⟩, 0⟩ c
  /-- no low-confidence region starts here -/
  | noStart (i) : Pass prm .high i .rstart ⟨some (⟨i, .start⟩, .no), none, 0⟩ .high
  /-- a low-confidence region starts here -/
  | start (i) : Pass prm .high i .rstart
      ⟨some (⟨i, .start⟩, .yes), some ⟨some i, none, .startLow, none⟩, (prm.regionCost : ℚ)⟩ .low
  /-- a low-confidence region cannot start here, as there is one already -/
  | inStart (i) : Pass prm .low i .rstart ⟨some (⟨i, .start⟩, .na), none, 0⟩ .low
  /-- the low-confidence region does not end here -/
  | noStop (i) : Pass prm .low i .rend ⟨some (⟨i, .stop⟩, .no), none, 0⟩ .low
  /-- the low-confidence region ends here -/
  | stop (i) : Pass prm .low i .rend ⟨some (⟨i, .stop⟩, .yes), none, 0⟩ .high
  /-- there is no low-confidence region that could end here -/
  | outStop (i) : Pass prm .high i .rend ⟨some (⟨i, .stop⟩, .na), none, 0⟩ .high
  /-- an early exit is not taken -/
  | noExit (c i) : Pass prm c i .exit ⟨some (⟨i, .exit⟩, .no), none, 0⟩ c

/-- `Deletes prm c i ns ss r`: all of the prototype nodes `ns`, whose first node has index `i`, are
deleted with the steps `ss`, starting at confidence `c`; `r` is the confidence afterwards, or `none`
if an early exit was taken. -/
inductive Deletes (prm : Params) : Conf → Nat → List (Node M) → List EditStep → Option Conf → Prop
  | nil (c i) : Deletes prm c i [] [] (some c)
  | pass {c i n s c' ns ss r} : Pass prm c i n s c' → Deletes prm c' (i + 1) ns ss r →
      Deletes prm c i (n :: ns) (s :: ss) r
  | exit (c i ns) : Deletes prm c i (.exit :: ns) [exitStep c i] none
  | tok {c i t mt ns ss r} : Deletes prm c (i + 1) ns ss r →
      Deletes prm c i (.tok t mt :: ns) (deleteStep prm c i t.length :: ss) r
  | group {c c' i cs mt ns ss ss' r} : Deletes prm c (i + 1) cs ss (some c') →
      Deletes prm c' (i + 1 + seqSize cs) ns ss' r →
      Deletes prm c i (.group cs mt :: ns) (enterStep c i :: ss ++ ss') r
  | groupExit {c i cs mt ns ss} : Deletes prm c (i + 1) cs ss none →
      Deletes prm c i (.group cs mt :: ns) (enterStep c i :: ss) none

/-- `Inserts prm c j ms ss`: all of the target nodes `ms`, whose first node has index `j`, are
inserted with the steps `ss`, at confidence `c`. -/
inductive Inserts (prm : Params) (c : Conf) : Nat → List (Node M) → List EditStep → Prop
  | nil (j) : Inserts prm c j [] []
  | deco {j t ms ss} : Inserts prm c (j + 1) ms ss →
      Inserts prm c j (.deco t :: ms) (targetDecoStep c j :: ss)
  | tok {j t mt ms ss} : Inserts prm c (j + 1) ms ss →
      Inserts prm c j (.tok t mt :: ms) (insertStep prm j t.length :: ss)
  | group {j cs mt ms ss ss'} : Inserts prm c (j + 1) cs ss →
      Inserts prm c (j + 1 + seqSize cs) ms ss' →
      Inserts prm c j (.group cs mt :: ms) (ss ++ ss')

/-- Between two matches a script first passes control nodes and decorations of the prototype; if it
starts editing then, it deletes, and after that inserts; finally something is matched. -/
inductive Phase where
  | advancing
  | deleting
  | inserting
  | matching
  deriving DecidableEq

/-- `Edits prm ph c i ns j ms ss r`: the prototype nodes `ns` (first index `i`) are edited into the
target nodes `ms` (first index `j`) with the steps `ss`, starting in phase `ph` at confidence `c`;
`r` is the confidence afterwards, or `none` if an early exit was taken. -/
inductive Edits (prm : Params) : Phase → Conf → Nat → List (Node M) → Nat → List (Node M) →
    List EditStep → Option Conf → Prop
  /-- control nodes and decorations of the prototype -/
  | pass {ph c i n s c' ns j ms ss r} : ph = .advancing ∨ ph = .deleting → Pass prm c i n s c' →
      Edits prm ph c' (i + 1) ns j ms ss r → Edits prm ph c i (n :: ns) j ms (s :: ss) r
  /-- an early exit is taken: nothing else is edited -/
  | exit {ph} (c i ns j ms) : ph = .advancing ∨ ph = .deleting →
      Edits prm ph c i (.exit :: ns) j ms [exitStep c i] none
  /-- editing starts -/
  | startEditing {c i ns j ms ss r} : Edits prm .deleting c i ns j ms ss r →
      Edits prm .advancing c i ns j ms (startEditStep prm c :: ss) r
  /-- no edits here -/
  | noEditing {c i ns j ms ss r} : Edits prm .matching c i ns j ms ss r →
      Edits prm .advancing c i ns j ms ss r
  /-- a token of the prototype is deleted -/
  | delete {c i t mt ns j ms ss r} : Edits prm .deleting c (i + 1) ns j ms ss r →
      Edits prm .deleting c i (.tok t mt :: ns) j ms (deleteStep prm c i t.length :: ss) r
  /-- a group of the prototype is deleted, with everything in it -/
  | deleteGroup {c c' i cs mt ns j ms ss ss' r} : Deletes prm c (i + 1) cs ss (some c') →
      Edits prm .deleting c' (i + 1 + seqSize cs) ns j ms ss' r →
      Edits prm .deleting c i (.group cs mt :: ns) j ms (enterStep c i :: ss ++ ss') r
  | deleteGroupExit {c i cs mt ns j ms ss} : Deletes prm c (i + 1) cs ss none →
      Edits prm .deleting c i (.group cs mt :: ns) j ms (enterStep c i :: ss) none
  /-- no more deletions -/
  | stopDeleting {c i ns j ms ss r} : Edits prm .inserting c i ns j ms ss r →
      Edits prm .deleting c i ns j ms ss r
  /-- a decoration of the target -/
  | targetDeco {ph c i ns j t ms ss r} : ph = .inserting ∨ ph = .matching →
      Edits prm ph c i ns (j + 1) ms ss r →
      Edits prm ph c i ns j (.deco t :: ms) (targetDecoStep c j :: ss) r
  /-- a token of the target is inserted -/
  | insert {c i ns j t mt ms ss r} : Edits prm .inserting c i ns (j + 1) ms ss r →
      Edits prm .inserting c i ns j (.tok t mt :: ms) (insertStep prm j t.length :: ss) r
  /-- a group of the target is inserted, with everything in it -/
  | insertGroup {c i ns j cs mt ms ss ss' r} : Inserts prm c (j + 1) cs ss →
      Edits prm .inserting c i ns (j + 1 + seqSize cs) ms ss' r →
      Edits prm .inserting c i ns j (.group cs mt :: ms) (ss ++ ss') r
  /-- no more insertions -/
  | stopInserting {c i ns j ms ss r} : Edits prm .matching c i ns j ms ss r →
      Edits prm .inserting c i ns j ms ss r
  /-- a token is kept -/
  | keep {c i t mt ns j ms ss r} : Edits prm .advancing c (i + 1) ns (j + 1) ms ss r →
      Edits prm .matching c i (.tok t mt :: ns) j (.tok t mt :: ms)
        (keepStep prm c i j t.length :: ss) r
  /-- two groups of the same type are matched: what is in one is edited into what is in the other -/
  | matchGroup {c c' i cs mt ns j cs' ms ss ss' r} :
      Edits prm .advancing c (i + 1) cs (j + 1) cs' ss (some c') →
      Edits prm .advancing c' (i + 1 + seqSize cs) ns (j + 1 + seqSize cs') ms ss' r →
      Edits prm .matching c i (.group cs mt :: ns) j (.group cs' mt :: ms)
        (enterStep c i :: ss ++ ss') r
  | matchGroupExit {c i cs mt ns j cs' ms ss} :
      Edits prm .advancing c (i + 1) cs (j + 1) cs' ss none →
      Edits prm .matching c i (.group cs mt :: ns) j (.group cs' mt :: ms) (enterStep c i :: ss) none
  /-- both sequences are over -/
  | done (c i j) : Edits prm .matching c i [] j [] [] (some c)

/-! ### What a script says about tokens -/

/-- The tokens of a sequence with their preorder indices. -/
def tokens (i : Nat) : List (Node M) → List (Nat × Text × M)
  | [] => []
  | .tok t mt :: ns => (i, t, mt) :: tokens (i + 1) ns
  | .group cs _ :: ns => tokens (i + 1) cs ++ tokens (i + 1 + seqSize cs) ns
  | .deco _ :: ns => tokens (i + 1) ns
  | .rstart :: ns => tokens (i + 1) ns
  | .rend :: ns => tokens (i + 1) ns
  | .exit :: ns => tokens (i + 1) ns

/-- The prototype token that is kept or deleted by an edit. -/
def EditInfo.usesProto (x : EditInfo) : Option Nat :=
  match x.action with
  | .keep => x.proto
  | .delete => x.proto
  | _ => none

/-- The target token that is kept or inserted by an edit. -/
def EditInfo.usesTarget (x : EditInfo) : Option Nat :=
  match x.action with
  | .keep => x.target
  | .insert => x.target
  | _ => none

/-- The pair of tokens that is kept by an edit. -/
def EditInfo.keptPair (x : EditInfo) : Option (Nat × Nat) :=
  match x with
  | ⟨some i, some j, .keep, _⟩ => some (i, j)
  | _ => none

/-- The edits a path reports, in order. -/
def editsOf (p : List EditEdge) : List EditInfo := p.filterMap fun e => e.info

/-- The decisions a path makes, in order. -/
def decisionsOf (p : List EditEdge) : List Decision := p.filterMap fun e => e.req

/-- An early exit is among the decisions. -/
def TakesExit (ds : List Decision) : Prop := ∃ i, ((⟨i, .exit⟩, .yes) : Decision) ∈ ds

/-- `Decides prm c i ns ds c'`: going through the prototype nodes `ns` (first index `i`), without an
early exit, starting at confidence `c`, the decisions `ds` can be made; the confidence is `c'`
afterwards. -/
inductive Decides (prm : Params) : Conf → Nat → List (Node M) → List Decision → Conf → Prop
  | nil (c i) : Decides prm c i [] [] c
  /-- decorations and control nodes -/
  | pass {c i n s c' ns ds r} : Pass prm c i n s c' → Decides prm c' (i + 1) ns ds r →
      Decides prm c i (n :: ns) (s.decision.toList ++ ds) r
  /-- tokens are seen at the current confidence -/
  | tok {c i t mt ns ds r} : Decides prm c (i + 1) ns ds r →
      Decides prm c i (.tok t mt :: ns) (seenAt i c :: ds) r
  /-- groups are seen at the current confidence before what is in them -/
  | group {c c' i cs mt ns ds ds' r} : Decides prm c (i + 1) cs ds c' →
      Decides prm c' (i + 1 + seqSize cs) ns ds' r →
      Decides prm c i (.group cs mt :: ns) (seenAt i c :: ds ++ ds') r

/-- `Aligns i ns j ms K`: `K` are the pairs of tokens kept by some alignment of the prototype nodes
`ns` with the target nodes `ms` (first indices `i` and `j`) that respects order and nesting. -/
inductive Aligns : Nat → List (Node M) → Nat → List (Node M) → List (Nat × Nat) → Prop
  | nil (i j) : Aligns i [] j [] []
  /-- decorations and control nodes of the prototype play no role -/
  | passProto {i n ns j ms K} : n = .rstart ∨ n = .rend ∨ n = .exit ∨ (∃ t, n = .deco t) →
      Aligns (i + 1) ns j ms K → Aligns i (n :: ns) j ms K
  /-- decorations of the target play no role -/
  | passTarget {i ns j t ms K} : Aligns i ns (j + 1) ms K → Aligns i ns j (.deco t :: ms) K
  /-- a token or a whole group of the prototype has no counterpart -/
  | delete {i n ns j ms K} : (∃ t mt, n = .tok t mt) ∨ (∃ cs mt, n = .group cs mt) →
      Aligns (i + nodeSize n) ns j ms K → Aligns i (n :: ns) j ms K
  /-- a token of the target has no counterpart -/
  | insert {i ns j t mt ms K} : Aligns i ns (j + 1) ms K → Aligns i ns j (.tok t mt :: ms) K
  /-- a whole group of the target (without control nodes) has no counterpart -/
  | insertGroup {i ns j cs mt ms K} : DecisionFree cs →
      Aligns i ns (j + nodeSize (.group cs mt : Node M)) ms K → Aligns i ns j (.group cs mt :: ms) K
  /-- equal tokens of equal type may be kept -/
  | keep {i t mt ns j ms K} : Aligns (i + 1) ns (j + 1) ms K →
      Aligns i (.tok t mt :: ns) j (.tok t mt :: ms) ((i, j) :: K)
  /-- groups of equal type may be matched, then what is in one is aligned with what is in the other
  -/
  | group {i cs mt ns j cs' ms K K'} : Aligns (i + 1) cs (j + 1) cs' K →
      Aligns (i + 1 + seqSize cs) ns (j + 1 + seqSize cs') ms K' →
      Aligns i (.group cs mt :: ns) j (.group cs' mt :: ms) (K ++ K')

/-! ### Prices -/

/-- Number of characters of the token with an index. -/
def lenAt (toks : List (Nat × Text × M)) (i : Nat) : Nat :=
  match toks.lookup i with
  | some (t, _) => t.length
  | none => 0

/-- The price of an edit: characters of deleted, inserted and kept tokens, starting to edit, starting
a low-confidence region. -/
def editPrice (prm : Params) (proto target : List (Node M)) (x : EditInfo) : ℚ :=
  match x with
  | ⟨some i, some _, .keep, some c⟩ => -(keepPrize prm c * lenAt (tokens 0 proto) i)
  | ⟨some i, none, .delete, some c⟩ => deletePrice prm c * lenAt (tokens 0 proto) i
  | ⟨none, some j, .insert, _⟩ => prm.insertCost * lenAt (tokens 0 target) j
  | ⟨_, _, .startEditing, some c⟩ => startPrice prm c
  | ⟨_, _, .startLow, _⟩ => prm.regionCost
  | _ => 0

/-- Number of characters of the tokens of a sequence. -/
def chars (ns : List (Node M)) : ℕ := ((tokens 0 ns).map fun x => x.2.1.length).sum

/-- Parameters for which no edit pays off better than keeping tokens at high confidence. -/
structure Sensible (prm : Params) : Prop where
  highMatch : 0 ≤ prm.highMatch
  lowMatch : prm.lowMatch ≤ prm.highMatch
  highDelete : -prm.highMatch ≤ prm.highDelete
  lowDelete : -prm.highMatch ≤ prm.lowDelete
  insertCost : 0 ≤ prm.insertCost
  regionCost : 0 ≤ prm.regionCost
  highStart : 0 ≤ prm.highStart
  lowStart : 0 ≤ prm.lowStart

/-- A sequence without its control nodes, at any depth. -/
def withoutControl : List (Node M) → List (Node M)
  | [] => []
  | .rstart :: ns => withoutControl ns
  | .rend :: ns => withoutControl ns
  | .exit :: ns => withoutControl ns
  | .group cs mt :: ns => .group (withoutControl cs) mt :: withoutControl ns
  | .deco t :: ns => .deco t :: withoutControl ns
  | .tok t mt :: ns => .tok t mt :: withoutControl ns

end RUSure.Spec
