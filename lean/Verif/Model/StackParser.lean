/-!
# Model of `r_u_sure/parsing/pseudo_parser/stack_parser.py`: trees, bracket matching, splitting

Tokens range over any type `T` with decidable equality (integers or strings in the code).
-/

namespace RUSure

/-- Exceptions of the parser: `ParseError`, failed assertions, and the built-in `IndexError`,
`TypeError` (a missing `hi` in arithmetic), `ValueError` (`list.remove`, negative `__len__`),
`ZeroDivisionError`, `KeyError`. -/
inductive ParseFail where
  | parse
  | assertion
  | index
  | type
  | value
  | zeroDivision
  | key
  deriving DecidableEq, Repr

/-- `stack_parser.py:224-239`, the annotations that occur. (Simplification: `annotation` is an
arbitrary string in the code; others make `Node.type` fail an assertion.) -/
inductive PAnn where
  | root
  | sibling
  | paired
  | left
  | right
  | middle
  | split
  deriving DecidableEq, Repr

/-- `stack_parser.py:224-239` `Node`. (Simplifications: `lo` and `hi` are not negative; the parent
pointer is left out: a node's parent is the node it is a child of.) -/
inductive PNode where
  | mk (lo : Nat) (hi : Option Nat) (ann : PAnn) (children : List PNode)
  deriving Repr

namespace PNode

/-- `Node.lo` -/
def lo : PNode → Nat
  | mk lo _ _ _ => lo

/-- `Node.hi` -/
def hi : PNode → Option Nat
  | mk _ hi _ _ => hi

/-- `Node.annotation` -/
def ann : PNode → PAnn
  | mk _ _ ann _ => ann

/-- `Node.children` -/
def children : PNode → List PNode
  | mk _ _ _ cs => cs

/-- `stack_parser.py:327-328` `Node.__len__`: an error if `hi` is missing or smaller than `lo`. -/
def len (n : PNode) : Except ParseFail Nat :=
  match n.hi with
  | none => .error .type
  | some h => if h < n.lo then .error .value else .ok (h - n.lo)

end PNode

variable {T : Type} [DecidableEq T]

/-! ### Bracket tables -/

/-- `stack_parser.py:566-574`, `640-641`: `token in openers`. -/
def isOpener (pairs : List (T × T)) (t : T) : Bool := (pairs.map Prod.fst).contains t

/-- `stack_parser.py:570`, `641` `closer_to_opener = dict(zip(closers, openers))`: later pairs
overwrite earlier ones. `none` if the token is not a closer. -/
def openerOf (pairs : List (T × T)) (t : T) : Option T :=
  (pairs.reverse.find? fun p => p.2 == t).map Prod.fst

/-- `stack_parser.py:642` `opener_to_closer = dict(zip(openers, closers))`. -/
def closerOf (pairs : List (T × T)) (t : T) : Option T :=
  (pairs.reverse.find? fun p => p.1 == t).map Prod.snd

/-! ### `stack_parser.py:539-622` `stack_based_bracket_match` -/

/-- An open bracket: the opener, its position, and the children its parent has so far. -/
structure OpenGroup (T : Type) where
  opener : T
  lo : Nat
  before : List PNode

/-- The state of the loop: open brackets (innermost first; the code's `opener_stack` and the chain of
`parent` pointers) and the children of the current parent. -/
structure MatchState (T : Type) where
  stack : List (OpenGroup T)
  children : List PNode

/-- `stack_parser.py:606-610`, `592-597`: a bracket pair from `lo` to `i`. -/
def pairedNode (lo i : Nat) (inner : List PNode) : PNode :=
  .mk lo (some (i + 1)) .paired [.mk lo (some (lo + 1)) .left [], .mk (lo + 1) (some i) .middle inner,
    .mk i (some (i + 1)) .right []]

/-- `stack_parser.py:616`: the leaf of a token. -/
def leafNode (i : Nat) : PNode := .mk i (some (i + 1)) .sibling []

/-- `stack_parser.py:572-617`: one token. A closer that meets an empty stack is left out of the
tree. -/
def matchStep (pairs : List (T × T)) (tolerant : Bool) (i : Nat) (t : T) (st : MatchState T) :
    Except ParseFail (MatchState T) :=
  if isOpener pairs t then .ok ⟨⟨t, i, st.children⟩ :: st.stack, []⟩
  else
    match openerOf pairs t, st.stack with
    | none, _ => .ok ⟨st.stack, st.children ++ [leafNode i]⟩
    | some _, [] => .ok st
    | some o, g :: gs =>
      if g.opener = o then .ok ⟨gs, g.before ++ [pairedNode g.lo i st.children]⟩
      else if tolerant then .ok ⟨st.stack, st.children ++ [leafNode i]⟩
      else .error .parse

/-- `stack_parser.py:572`: the loop over the tokens from position `i` on. -/
def matchLoop (pairs : List (T × T)) (tolerant : Bool) (i : Nat) :
    List T → MatchState T → Except ParseFail (MatchState T)
  | [], st => .ok st
  | t :: ts, st =>
    match matchStep pairs tolerant i t st with
    | .error e => .error e
    | .ok st' => matchLoop pairs tolerant (i + 1) ts st'

/-- The children of the root when the loop ends: brackets that are still open have two children and
no upper bounds. -/
def closeUp : List (OpenGroup T) → List PNode → List PNode
  | [], cs => cs
  | g :: gs, cs => closeUp gs (g.before ++ [.mk g.lo none .paired
      [.mk g.lo (some (g.lo + 1)) .left [], .mk (g.lo + 1) none .middle cs]])

/-- `stack_parser.py:539-622` `stack_based_bracket_match`. -/
def bracketMatch (pairs : List (T × T)) (tolerant : Bool) (tokens : List T) :
    Except ParseFail PNode :=
  match matchLoop pairs tolerant 0 tokens ⟨[], []⟩ with
  | .error e => .error e
  | .ok st =>
    if st.stack ≠ [] ∧ tolerant = false then .error .parse
    else .ok (.mk 0 (some tokens.length) .root (closeUp st.stack st.children))

/-! ### `stack_parser.py:625-689` `error_correcting_prefix_and_suffix` -/

/-- `stack_parser.py:650-678`: one token; the opener stack (innermost first) and the prefix (last
added first). -/
def correctStep (pairs : List (T × T)) (t : T) (st : List T × List T) : List T × List T :=
  if isOpener pairs t then (t :: st.1, st.2)
  else
    match openerOf pairs t, st.1 with
    | none, _ => st
    | some o, [] => ([], o :: st.2)
    | some o, o' :: os => if o' = o then (os, st.2) else st

/-- `stack_parser.py:650`: the loop. -/
def correctLoop (pairs : List (T × T)) : List T → List T × List T → List T × List T
  | [], st => st
  | t :: ts, st => correctLoop pairs ts (correctStep pairs t st)

/-- `stack_parser.py:625-689` `error_correcting_prefix_and_suffix`: prefix and suffix, both reversed
by the code. (Openers on the stack are keys of `opener_to_closer`, so nothing is left out here.) -/
def correction (pairs : List (T × T)) (tokens : List T) : List T × List T :=
  let st := correctLoop pairs tokens ([], [])
  (st.2, st.1.filterMap (closerOf pairs))

/-! ### `stack_parser.py:499-536` `valid_parse_ranges` -/

mutual
/-- `stack_parser.py:517-534` `_check`. (The check of parent pointers is left out.) -/
def PNode.check : PNode → Bool
  | .mk lo hi _ cs =>
    match cs with
    | [] => true
    | c :: cs' =>
      lo == c.lo && (some hi == (c :: cs').getLast?.map PNode.hi) && hi.isSome
        && (cs'.map fun n => some n.lo) == ((c :: cs').dropLast.map PNode.hi)
        && PNode.checkList (c :: cs')

/-- `stack_parser.py:529-533`: the check of all children. -/
def PNode.checkList : List PNode → Bool
  | [] => true
  | c :: cs => c.check && PNode.checkList cs
end

/-- `stack_parser.py:499-536` `valid_parse_ranges`. -/
def validParseRanges (root : PNode) (n : Nat) : Bool :=
  root.lo == 0 && root.hi == some n && root.check

/-! ### `stack_parser.py:381-496` `split_parse` -/

/-- Python indexing `tokens[i]` for `i ≥ 0`. -/
def tokenAt (tokens : List T) (i : Nat) : Except ParseFail T :=
  match tokens[i]? with
  | some t => .ok t
  | none => .error .index

/-- `tokens[hi - 1]`; the last token if `hi` is zero (Python's negative index). -/
def tokenBefore (tokens : List T) (hi : Option Nat) : Except ParseFail T :=
  match hi with
  | none => .error .type
  | some 0 => match tokens.getLast? with
    | some t => .ok t
    | none => .error .index
  | some (i + 1) => tokenAt tokens i

/-- `stack_parser.py:455-456`, `419-422`: the tokens of the left and right child of a `paired`
node, which must have three children. -/
def pairTokens (tokens : List T) (cs : List PNode) : Except ParseFail (T × T) :=
  match cs with
  | [a, _, b] => do
    let l ← tokenAt tokens a.lo
    let r ← tokenBefore tokens b.hi
    return (l, r)
  | _ => .error .assertion

/-- `stack_parser.py:418-424`: whether splitting stops at a `paired` node. The closer is only looked
up if the opener is unsplittable. -/
def unsplittable (tokens : List T) (pairs : List (T × T)) (cs : List PNode) :
    Except ParseFail Bool :=
  match cs with
  | [a, _, b] => do
    let l ← tokenAt tokens a.lo
    match pairs.find? fun p => p.1 == l with
    | none => return false
    | some p =>
      let r ← tokenBefore tokens b.hi
      return r == p.2
  | _ => .error .assertion

/-- `stack_parser.py:430`: whether a child ends a group. -/
def isSplitter (tokens : List T) (splitters : List T) (c : PNode) : Except ParseFail Bool := do
  if (← c.len) = 1 then return splitters.contains (← tokenAt tokens c.lo) else return false

/-- `stack_parser.py:427-431`: the nonempty groups; each ends with a splitter, except possibly the
last one. `acc` is the group that is being collected. -/
def groupChildren (acc : List PNode) : List (PNode × Bool) → List (List PNode)
  | [] => if acc.isEmpty then [] else [acc]
  | (c, false) :: cs => groupChildren (acc ++ [c]) cs
  | (c, true) :: cs => (acc ++ [c]) :: groupChildren [] cs

/-- `stack_parser.py:437-442`: the node of a group. -/
def splitNode (group : List PNode) : PNode :=
  .mk (group.head?.elim 0 PNode.lo) (group.getLast?.elim none PNode.hi) .split group

/-- `stack_parser.py:433-443`: the new children of a node. -/
def regroup (ann : PAnn) (marks : List Bool) (cs : List PNode) : List PNode :=
  if marks.contains true ∧ ann ≠ .paired then (groupChildren [] (cs.zip marks)).map splitNode else cs

mutual
/-- `stack_parser.py:414-446` `_split`. The children are split before they are grouped; in the code
it is the other way round, which makes no difference because splitting a node changes neither its
range nor its annotation. -/
def PNode.splitWith (tokens splitters : List T) (unsplit : List (T × T)) :
    PNode → Except ParseFail PNode
  | .mk lo hi ann cs => do
    if ann = .paired then
      if ← unsplittable tokens unsplit cs then
        return .mk lo hi ann cs
    let marks ← cs.mapM (isSplitter tokens splitters)
    let cs' ← PNode.splitList tokens splitters unsplit cs
    return .mk lo hi ann (regroup ann marks cs')

/-- `stack_parser.py:444-446`: the children with more than one token. -/
def PNode.splitList (tokens splitters : List T) (unsplit : List (T × T)) :
    List PNode → Except ParseFail (List PNode)
  | [] => .ok []
  | c :: cs => do
    let c' ← if 1 < (← c.len) then PNode.splitWith tokens splitters unsplit c else .ok c
    let cs' ← PNode.splitList tokens splitters unsplit cs
    return c' :: cs'
end

/-- `stack_parser.py:454-468`: how often the child `c` is to be moved under its left sibling: once
for each of its children that is a bracket pair `sub`. -/
def subHits (tokens : List T) (sub : T × T) : List PNode → Except ParseFail Nat
  | [] => .ok 0
  | p :: ps => do
    let n ← subHits tokens sub ps
    if p.ann = .paired then
      if (← pairTokens tokens p.children) = sub then return n + 1
    return n

/-- `stack_parser.py:461-468`: the moves among the children of a node: child `j` goes under child
`j - 1` (the last child if `j` is zero: Python's index -1) if both are split groups and adjacent. -/
def subMoves (cs : List PNode) (hits : List Nat) : List (Nat × Nat) :=
  (List.range cs.length).flatMap fun j =>
    let k := if j = 0 then cs.length - 1 else j - 1
    match cs[j]?, cs[k]?, hits[j]? with
    | some c, some p, some h =>
      if c.ann = .split ∧ p.ann = .split ∧ p.hi = some c.lo then List.replicate h (j, k) else []
    | _, _, _ => []

/-- `stack_parser.py:472-488` `_sub_match_transplant`, on the siblings that are still in place, with
their original indices. Removing a node from a list it is not in raises. (If a node is to be moved
under itself, which is only possible for an empty range, the code ties a knot; here it fails.) -/
def transplant (move : Nat × Nat) (cs : List (Nat × PNode)) : Except ParseFail (List (Nat × PNode)) :=
  match cs.lookup move.1, cs.lookup move.2 with
  | some c, some (.mk lo hi ann old) =>
    if move.1 = move.2 then .error .value
    else .ok ((cs.filter fun x => x.1 != move.1).map fun x =>
      if x.1 = move.2 then (x.1, .mk lo c.hi ann [.mk lo hi .split old, c]) else x)
  | _, _ => .error .value

/-- `stack_parser.py:493-494`: the moves one after the other. -/
def transplants : List (Nat × Nat) → List (Nat × PNode) → Except ParseFail (List (Nat × PNode))
  | [], cs => .ok cs
  | m :: ms, cs => do transplants ms (← transplant m cs)

mutual
/-- `stack_parser.py:448-488`, `493-494`: the moves in the whole tree. (Simplification: the code
collects all moves before it makes them, in depth-first order; moves below different nodes do not
affect each other, so here they are made bottom up.) -/
def PNode.subMatch (tokens : List T) (sub : T × T) : PNode → Except ParseFail PNode
  | .mk lo hi ann cs => do
    if ann = .paired then
      let _ ← pairTokens tokens cs
    let hits ← cs.mapM fun c => subHits tokens sub c.children
    let cs' ← PNode.subMatchList tokens sub cs
    let ps ← transplants (subMoves cs hits) ((List.range cs'.length).zip cs')
    return .mk lo hi ann (ps.map Prod.snd)

/-- The moves in a list of trees. -/
def PNode.subMatchList (tokens : List T) (sub : T × T) : List PNode → Except ParseFail (List PNode)
  | [] => .ok []
  | c :: cs => do
    let c' ← PNode.subMatch tokens sub c
    let cs' ← PNode.subMatchList tokens sub cs
    return c' :: cs'
end

/-- `stack_parser.py:381-496` `split_parse`. (Copying the tree has no effect here.) -/
def splitParse (root : PNode) (tokens splitters : List T) (unsplit : List (T × T))
    (sub : Option (T × T)) : Except ParseFail PNode :=
  if splitters.isEmpty then .ok root
  else do
    let root' ← root.splitWith tokens splitters unsplit
    match sub with
    | none => return root'
    | some p => root'.subMatch tokens p

end RUSure
