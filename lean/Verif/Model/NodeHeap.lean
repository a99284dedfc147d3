import Verif.Model.StackParser

/-!
# Model of `stack_parser.py` with linked nodes

`Model/StackParser` has trees as values. Here nodes are mutable objects with pointers to parent and
children, as in the code. (Simplification: the list of the children of a node is part of the node; in the
code it is an object, but two nodes never share one.) Recursive functions take a bound on the depth of
the recursion; Python has one too.
-/

namespace RUSure.NodeHeap

/-- Exceptions, and exceeding the depth of the recursion. -/
inductive Fail where
  | py (e : ParseFail)
  | recursion
  deriving DecidableEq, Repr

/-- `stack_parser.py:224-239` `Node`: the attributes of an object. -/
structure Cell where
  lo : Nat
  hi : Option Nat
  parent : Option Nat
  ann : PAnn
  children : List Nat

/-- Objects by address; those from `next` on do not exist yet. -/
structure Heap where
  get : Nat → Cell
  next : Nat

/-- Sets the attributes of an object. -/
def Heap.set (h : Heap) (a : Nat) (c : Cell) : Heap := { h with get := fun b => if b = a then c else h.get b }

/-- A new object. -/
def Heap.alloc (h : Heap) (c : Cell) : Heap := ⟨fun b => if b = h.next then c else h.get b, h.next + 1⟩

/-- `child.parent = n` -/
def setParent (h : Heap) (n child : Nat) : Heap := h.set child { h.get child with parent := some n }

/-- `for child in children: child.parent = n` -/
def setParents (h : Heap) (n : Nat) (children : List Nat) : Heap :=
  children.foldl (fun h c => setParent h n c) h

/-- `node.children = children` -/
def setChildren (h : Heap) (a : Nat) (children : List Nat) : Heap :=
  h.set a { h.get a with children := children }

/-- Range and annotation of an object. -/
def shallow (h : Heap) (a : Nat) : PNode := .mk (h.get a).lo (h.get a).hi (h.get a).ann []

/-- Exceptions of Python. -/
def lift {α : Type} : Except ParseFail α → Except Fail α
  | .ok a => .ok a
  | .error e => .error (.py e)

/-! ### `stack_parser.py:539-622` `stack_based_bracket_match` -/

/-- `parent.children.append(n)` -/
def appendChild (h : Heap) (parent n : Nat) : Heap :=
  setChildren h parent ((h.get parent).children ++ [n])

/-- The variables of the loop: `opener_stack` (innermost first) and `parent`. -/
structure MatchState (T : Type) where
  heap : Heap
  stack : List T
  parent : Nat

section
variable {T : Type} [DecidableEq T]

/-- `stack_parser.py:586-597`: an opener at position `i`. -/
def openPair (i : Nat) (t : T) (st : MatchState T) : MatchState T :=
  let n := st.heap.next
  let h1 := st.heap.alloc ⟨i, none, some st.parent, .paired, []⟩
  let left := h1.next
  let h2 := appendChild (h1.alloc ⟨i, some (i + 1), some n, .left, []⟩) n left
  let h3 := appendChild h2 st.parent n
  let contents := h3.next
  let h4 := appendChild (h3.alloc ⟨i + 1, none, some n, .middle, []⟩) n contents
  ⟨h4, t :: st.stack, contents⟩

/-- `stack_parser.py:598-612`: a matched closer at position `i`; `stack` is what remains of the stack. An
attribute of `None` would be a `TypeError` here. -/
def closePair (i : Nat) (stack : List T) (st : MatchState T) : Except Fail (MatchState T) :=
  match (st.heap.get st.parent).parent with
  | none => .error (.py .type)
  | some q =>
    match (st.heap.get q).children with
    | [_, middle] =>
      let h1 := st.heap.set middle { st.heap.get middle with hi := some i }
      let right := h1.next
      let h2 := appendChild (h1.alloc ⟨i, some (i + 1), some q, .right, []⟩) q right
      let h3 := h2.set q { h2.get q with hi := some (i + 1) }
      match (h3.get q).parent with
      | none => .error (.py .type)
      | some g => .ok ⟨h3, stack, g⟩
    | _ => .error (.py .assertion)

/-- `stack_parser.py:616-617`: a token that is a node of its own. -/
def addLeaf (i : Nat) (st : MatchState T) : MatchState T :=
  let n := st.heap.next
  ⟨appendChild (st.heap.alloc ⟨i, some (i + 1), some st.parent, .sibling, []⟩) st.parent n, st.stack, st.parent⟩

/-- `stack_parser.py:572-617`: one token. -/
def matchStep (pairs : List (T × T)) (tolerant : Bool) (i : Nat) (t : T) (st : MatchState T) :
    Except Fail (MatchState T) :=
  if isOpener pairs t then .ok (openPair i t st)
  else
    match openerOf pairs t, st.stack with
    | none, _ => .ok (addLeaf i st)
    | some _, [] => .ok st
    | some o, o' :: os =>
      if o' = o then closePair i os st
      else if tolerant then .ok (addLeaf i st)
      else .error (.py .parse)

/-- `stack_parser.py:572`: the loop over the tokens from position `i` on. -/
def matchLoop (pairs : List (T × T)) (tolerant : Bool) (i : Nat) :
    List T → MatchState T → Except Fail (MatchState T)
  | [], st => .ok st
  | t :: ts, st =>
    match matchStep pairs tolerant i t st with
    | .error e => .error e
    | .ok st' => matchLoop pairs tolerant (i + 1) ts st'

/-- `stack_parser.py:539-622` `stack_based_bracket_match`; the result is the address of the root. -/
def bracketMatch (pairs : List (T × T)) (tolerant : Bool) (h : Heap) (tokens : List T) :
    Except Fail (Heap × Nat) :=
  let root := h.next
  match matchLoop pairs tolerant 0 tokens ⟨h.alloc ⟨0, some tokens.length, none, .root, []⟩, [], root⟩ with
  | .error e => .error e
  | .ok st => if st.stack ≠ [] ∧ tolerant = false then .error (.py .parse) else .ok (st.heap, root)

end

/-! ### `stack_parser.py:331-352` `Node.copy` -/

/-- `[_copy(child) for child in ...]` -/
def copyList (copy : Heap → Nat → Except Fail (Heap × Nat)) : List Nat → Heap → Except Fail (Heap × List Nat)
  | [], h => .ok (h, [])
  | a :: as, h =>
    match copy h a with
    | .error e => .error e
    | .ok (h', n) =>
      match copyList copy as h' with
      | .error e => .error e
      | .ok (h'', ns) => .ok (h'', n :: ns)

/-- `stack_parser.py:341-352` `_copy`. -/
def copyNode : Nat → Heap → Nat → Except Fail (Heap × Nat)
  | 0, _, _ => .error .recursion
  | fuel + 1, h, a =>
    let n := h.next
    let h1 := h.alloc ⟨(h.get a).lo, (h.get a).hi, (h.get a).parent, (h.get a).ann, []⟩
    match copyList (copyNode fuel) (h.get a).children h1 with
    | .error e => .error e
    | .ok (h2, ns) => .ok (setParents (setChildren h2 n ns) n ns, n)

/-! ### `stack_parser.py:414-446` `_split` -/

/-- `stack_parser.py:427-431`: `groups`. `acc` is the last group. -/
def pyGroups {α : Type} (acc : List α) : List (α × Bool) → List (List α)
  | [] => [acc]
  | (c, false) :: cs => pyGroups (acc ++ [c]) cs
  | (c, true) :: cs => (acc ++ [c]) :: pyGroups [] cs

/-- `stack_parser.py:435-442`: the new nodes, with their addresses. -/
def makeGroups (node : Nat) : List (List Nat) → Heap → Heap × List Nat
  | [], h => (h, [])
  | g :: gs, h =>
    match g with
    | [] => makeGroups node gs h
    | first :: _ =>
      let n := h.next
      let h1 := h.alloc ⟨(h.get first).lo, (h.get (g.getLast?.getD first)).hi, some node, .split, g⟩
      let r := makeGroups node gs (setParents h1 n g)
      (r.1, n :: r.2)

/-- `stack_parser.py:444-446`: the loop over the original children. -/
def splitChildren (split : Heap → Nat → Except Fail Heap) : List Nat → Heap → Except Fail Heap
  | [], h => .ok h
  | a :: as, h =>
    match (shallow h a).len with
    | .error e => .error (.py e)
    | .ok n =>
      match if 1 < n then split h a else .ok h with
      | .error e => .error e
      | .ok h' => splitChildren split as h'

section
variable {T : Type} [DecidableEq T]

/-- `stack_parser.py:414-446` `_split`. -/
def splitNode (tokens splitters : List T) (unsplit : List (T × T)) : Nat → Heap → Nat → Except Fail Heap
  | 0, _, _ => .error .recursion
  | fuel + 1, h, a =>
    let cs := (h.get a).children
    match if (h.get a).ann = .paired then unsplittable tokens unsplit (cs.map (shallow h)) else .ok false with
    | .error e => .error (.py e)
    | .ok true => .ok h
    | .ok false =>
      match cs.mapM fun c => isSplitter tokens splitters (shallow h c) with
      | .error e => .error (.py e)
      | .ok marks =>
        let groups := pyGroups [] (cs.zip marks)
        let h1 :=
          if 1 < groups.length ∧ (h.get a).ann ≠ .paired then
            let r := makeGroups a groups h
            setChildren r.1 a r.2
          else h
        splitChildren (splitNode tokens splitters unsplit fuel) cs h1

end

/-! ### Comparison of nodes -/

/-- `==` of lists of the same length. -/
def listEq (eq : Nat → Nat → Except Fail Bool) : List Nat → List Nat → Except Fail Bool
  | a :: as, b :: bs =>
    match eq a b with
    | .ok true => listEq eq as bs
    | r => r
  | _, _ => .ok true

/-- `stack_parser.py:223` `dataclass`: nodes are compared attribute by attribute, parents and children
included; an object that is compared with itself as part of another comparison is equal. -/
def nodeEq : Nat → Heap → Nat → Nat → Except Fail Bool
  | 0, _, a, b => if a = b then .ok true else .error .recursion
  | fuel + 1, h, a, b =>
    let rest :=
      if (h.get a).ann = (h.get b).ann ∧ (h.get a).children.length = (h.get b).children.length then
        listEq (nodeEq fuel h) (h.get a).children (h.get b).children
      else .ok false
    if a = b then .ok true
    else if (h.get a).lo ≠ (h.get b).lo ∨ (h.get a).hi ≠ (h.get b).hi then .ok false
    else
      match (h.get a).parent, (h.get b).parent with
      | none, none => rest
      | some p, some q =>
        match nodeEq fuel h p q with
        | .ok true => rest
        | r => r
      | _, _ => .ok false

/-- `list.index` -/
def indexOf (fuel : Nat) (h : Heap) (x : Nat) : List Nat → Except Fail Nat
  | [] => .error (.py .value)
  | a :: as =>
    match nodeEq fuel h a x with
    | .error e => .error e
    | .ok true => .ok 0
    | .ok false =>
      match indexOf fuel h x as with
      | .error e => .error e
      | .ok i => .ok (i + 1)

/-- `list.remove` -/
def removeFirst (fuel : Nat) (h : Heap) (x : Nat) : List Nat → Except Fail (List Nat)
  | [] => .error (.py .value)
  | a :: as =>
    match nodeEq fuel h a x with
    | .error e => .error e
    | .ok true => .ok as
    | .ok false =>
      match removeFirst fuel h x as with
      | .error e => .error e
      | .ok l => .ok (a :: l)

/-! ### `stack_parser.py:448-488` `_sub_match`, `_sub_match_transplant` -/

/-- `yield from _sub_match(child)` for all children. -/
def collectList (collect : Nat → Except Fail (List (Nat × Nat))) : List Nat → Except Fail (List (Nat × Nat))
  | [] => .ok []
  | a :: as =>
    match collect a with
    | .error e => .error e
    | .ok l =>
      match collectList collect as with
      | .error e => .error e
      | .ok r => .ok (l ++ r)

/-- `stack_parser.py:461-468`: the move of the parent `b` of a bracket pair, whose parent is `g`. Python's
index -1 is that of the last child. -/
def moveFor (fuel : Nat) (h : Heap) (b g : Nat) : Except Fail (List (Nat × Nat)) :=
  match indexOf fuel h b (h.get g).children with
  | .error e => .error e
  | .ok i =>
    match (h.get g).children[if i = 0 then (h.get g).children.length - 1 else i - 1]? with
    | none => .error (.py .index)
    | some p =>
      .ok (if (h.get b).ann = .split ∧ (h.get p).ann = .split ∧ (h.get p).hi = some (h.get b).lo then [(b, p)]
        else [])

section
variable {T : Type} [DecidableEq T]

/-- `stack_parser.py:454-468`: what `_sub_match` yields before it comes to the children. -/
def ownMoves (eqFuel : Nat) (tokens : List T) (sub : T × T) (h : Heap) (a : Nat) : Except Fail (List (Nat × Nat)) :=
  if (h.get a).ann = .paired then
    match pairTokens tokens ((h.get a).children.map (shallow h)) with
    | .error e => .error (.py e)
    | .ok p =>
      if p = sub then
        match (h.get a).parent with
        | none => .ok []
        | some b =>
          match (h.get b).parent with
          | none => .ok []
          | some g => moveFor eqFuel h b g
      else .ok []
  else .ok []

/-- `stack_parser.py:448-470` `_sub_match`, and the `list` of what it yields. -/
def collect (eqFuel : Nat) (tokens : List T) (sub : T × T) : Nat → Heap → Nat → Except Fail (List (Nat × Nat))
  | 0, _, _ => .error .recursion
  | fuel + 1, h, a =>
    match ownMoves eqFuel tokens sub h a with
    | .error e => .error e
    | .ok l =>
      match collectList (collect eqFuel tokens sub fuel h) (h.get a).children with
      | .error e => .error e
      | .ok r => .ok (l ++ r)

end

/-- `stack_parser.py:472-488` `_sub_match_transplant`. -/
def transplant (eqFuel : Nat) (h : Heap) (c p : Nat) : Except Fail Heap :=
  let n := h.next
  let old := (h.get p).children
  let h1 := h.alloc ⟨(h.get p).lo, (h.get p).hi, some p, .split, []⟩
  let h2 := setParents h1 n old
  let h3 := setChildren h2 n old
  let h4 := setChildren h3 p [n, c]
  match (h4.get p).parent with
  | none => .error (.py .type)
  | some g =>
    match removeFirst eqFuel h4 c (h4.get g).children with
    | .error e => .error e
    | .ok l =>
      let h5 := setParent (setChildren h4 g l) p c
      .ok (h5.set p { h5.get p with hi := (h5.get c).hi })

/-- `stack_parser.py:493-494` -/
def transplants (eqFuel : Nat) : List (Nat × Nat) → Heap → Except Fail Heap
  | [], h => .ok h
  | (c, p) :: ms, h =>
    match transplant eqFuel h c p with
    | .error e => .error e
    | .ok h' => transplants eqFuel ms h'

section
variable {T : Type} [DecidableEq T]

/-- `stack_parser.py:381-496` `split_parse`; the result is the address of the new root. `fuel` bounds the
depth of the recursion. -/
def splitParse (fuel : Nat) (h : Heap) (root : Nat) (tokens splitters : List T) (unsplit : List (T × T))
    (sub : Option (T × T)) : Except Fail (Heap × Nat) :=
  match copyNode fuel h root with
  | .error e => .error e
  | .ok (h1, r) =>
    if splitters.isEmpty then .ok (h1, r)
    else
      match splitNode tokens splitters unsplit fuel h1 r with
      | .error e => .error e
      | .ok h2 =>
        match sub with
        | none => .ok (h2, r)
        | some s =>
          match collect fuel tokens s fuel h2 r with
          | .error e => .error e
          | .ok ms =>
            match transplants fuel ms h2 with
            | .error e => .error e
            | .ok h3 => .ok (h3, r)

end

/-! ### `stack_parser.py:499-536` `valid_parse_ranges` -/

/-- `stack_parser.py:529-533`: the loop over the children. -/
def checkList (eqFuel : Nat) (check : Nat → Except Fail Bool) (h : Heap) (node : Nat) : List Nat → Except Fail Bool
  | [] => .ok true
  | c :: cs =>
    match (h.get c).parent with
    | none => .ok false
    | some p =>
      match nodeEq eqFuel h p node with
      | .error e => .error e
      | .ok false => .ok false
      | .ok true =>
        match check c with
        | .ok true => checkList eqFuel check h node cs
        | r => r

/-- `stack_parser.py:517-534` `_check`. -/
def check (eqFuel : Nat) (h : Heap) : Nat → Nat → Except Fail Bool
  | 0, _ => .error .recursion
  | fuel + 1, a =>
    let x := h.get a
    match x.children with
    | [] => .ok true
    | c :: cs =>
      if x.lo ≠ (h.get c).lo then .ok false
      else if some x.hi ≠ (c :: cs).getLast?.map fun d => (h.get d).hi then .ok false
      else if x.hi = none then .ok false
      else if (cs.map fun d => some (h.get d).lo) ≠ ((c :: cs).dropLast.map fun d => (h.get d).hi) then .ok false
      else checkList eqFuel (check eqFuel h fuel) h a (c :: cs)

/-- `stack_parser.py:499-536` `valid_parse_ranges`. -/
def validParseRanges (fuel : Nat) (h : Heap) (root n : Nat) : Except Fail Bool :=
  if (h.get root).lo = 0 ∧ (h.get root).hi = some n then check fuel h fuel root else .ok false

end RUSure.NodeHeap
