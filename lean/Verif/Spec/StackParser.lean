import Verif.Model.StackParser

/-!
# Specification of bracket matching, error correction and splitting
-/

namespace RUSure.Spec
open RUSure
variable {T : Type}

/-- Bracket tables: closers are distinct, and no token is both an opener and a closer. -/
structure Table (pairs : List (T × T)) : Prop where
  closers : (pairs.map Prod.snd).Nodup
  disjoint : ∀ t ∈ pairs.map Prod.fst, t ∉ pairs.map Prod.snd

/-- Tokens that are no brackets. -/
def PlainTok (pairs : List (T × T)) (t : T) : Prop :=
  t ∉ pairs.map Prod.fst ∧ t ∉ pairs.map Prod.snd

/-- Balanced token streams, where closers of a different kind than the surrounding bracket are
tolerated as if they were no brackets. `ctx` is the opener of the surrounding bracket, if any; at the
top there are no stray closers. -/
inductive Balanced (pairs : List (T × T)) : Option T → List T → Prop
  | nil (ctx) : Balanced pairs ctx []
  | plain {ctx t ts} : PlainTok pairs t → Balanced pairs ctx ts → Balanced pairs ctx (t :: ts)
  | stray {o o' c ts} : (o', c) ∈ pairs → o' ≠ o → Balanced pairs (some o) ts →
      Balanced pairs (some o) (c :: ts)
  | bracket {ctx o c inner ts} : (o, c) ∈ pairs → Balanced pairs (some o) inner →
      Balanced pairs ctx ts → Balanced pairs ctx (o :: (inner ++ c :: ts))

/-- Balanced token streams in the usual sense: no stray closers. -/
inductive StrictlyBalanced (pairs : List (T × T)) : List T → Prop
  | nil : StrictlyBalanced pairs []
  | plain {t ts} : PlainTok pairs t → StrictlyBalanced pairs ts → StrictlyBalanced pairs (t :: ts)
  | bracket {o c inner ts} : (o, c) ∈ pairs → StrictlyBalanced pairs inner →
      StrictlyBalanced pairs ts → StrictlyBalanced pairs (o :: (inner ++ c :: ts))

/-- Streams that are balanced in the usual sense once the closers outside of all brackets are
removed. -/
inductive BalancedBesidesClosers (pairs : List (T × T)) : List T → Prop
  | nil : BalancedBesidesClosers pairs []
  | plain {t ts} : PlainTok pairs t → BalancedBesidesClosers pairs ts →
      BalancedBesidesClosers pairs (t :: ts)
  | closer {c ts} : c ∈ pairs.map Prod.snd → BalancedBesidesClosers pairs ts →
      BalancedBesidesClosers pairs (c :: ts)
  | bracket {o c inner ts} : (o, c) ∈ pairs → StrictlyBalanced pairs inner →
      BalancedBesidesClosers pairs ts → BalancedBesidesClosers pairs (o :: (inner ++ c :: ts))

/-! ### Trees over token ranges -/

mutual
/-- The ranges of children divide the range of their parent, at every node. -/
inductive RangeOk : PNode → Prop
  | leaf {lo hi ann} : lo ≤ hi → RangeOk (.mk lo (some hi) ann [])
  | inner {lo hi ann cs} : cs ≠ [] → RangesTile lo hi cs → RangeOk (.mk lo (some hi) ann cs)

/-- The ranges of the trees follow each other from `lo` to `hi`. -/
inductive RangesTile : Nat → Nat → List PNode → Prop
  | nil (lo) : RangesTile lo lo []
  | cons {lo mid hi ann cs ns} : RangeOk (.mk lo (some mid) ann cs) → RangesTile mid hi ns →
      RangesTile lo hi (.mk lo (some mid) ann cs :: ns)
end

mutual
/-- The ranges of the leaves, from left to right. -/
def leafRanges : PNode → List (Nat × Option Nat)
  | .mk lo hi _ cs =>
    match cs with
    | [] => [(lo, hi)]
    | c :: cs' => leafRangesList (c :: cs')

/-- The ranges of the leaves of several trees. -/
def leafRangesList : List PNode → List (Nat × Option Nat)
  | [] => []
  | c :: cs => leafRanges c ++ leafRangesList cs
end

/-- The leaves that cover some token. -/
def tokenLeaves (n : PNode) : List (Nat × Option Nat) :=
  (leafRanges n).filter fun r => r.2 != some r.1

mutual
/-- The tree without the nodes that splitting adds: their children take their places. -/
def unsplitNode : PNode → List PNode
  | .mk lo hi ann cs =>
    match ann with
    | .split => unsplitNodes cs
    | _ => [.mk lo hi ann (unsplitNodes cs)]

/-- Several trees without the nodes that splitting adds. -/
def unsplitNodes : List PNode → List PNode
  | [] => []
  | c :: cs => unsplitNode c ++ unsplitNodes cs
end

mutual
/-- `n` occurs in the tree. -/
inductive InTree (n : PNode) : PNode → Prop
  | self : InTree n n
  | child {lo hi ann cs} : InTrees n cs → InTree n (.mk lo hi ann cs)

/-- `n` occurs in one of the trees. -/
inductive InTrees (n : PNode) : List PNode → Prop
  | here {c cs} : InTree n c → InTrees n (c :: cs)
  | there {c cs} : InTrees n cs → InTrees n (c :: cs)
end

/-- A bracket node: three children, for the opener, what is in between, and the matching closer. -/
def IsBracket (pairs : List (T × T)) (tokens : List T) (n : PNode) : Prop :=
  ∃ lo hi o c inner, n = .mk lo (some (hi + 1)) .paired [.mk lo (some (lo + 1)) .left [],
      .mk (lo + 1) (some hi) .middle inner, .mk hi (some (hi + 1)) .right []]
    ∧ tokens[lo]? = some o ∧ tokens[hi]? = some c ∧ (o, c) ∈ pairs

/-- The trees of a balanced stream whose first token has position `i`: a leaf for each token outside
of brackets, and for each bracket pair a node with the opener, the trees in between and the closer. -/
inductive Forest (pairs : List (T × T)) : Option T → Nat → List T → List PNode → Prop
  | nil {ctx i} : Forest pairs ctx i [] []
  | plain {ctx i t ts ns} : PlainTok pairs t → Forest pairs ctx (i + 1) ts ns →
      Forest pairs ctx i (t :: ts) (.mk i (some (i + 1)) .sibling [] :: ns)
  | stray {o o' c i ts ns} : (o', c) ∈ pairs → o' ≠ o → Forest pairs (some o) (i + 1) ts ns →
      Forest pairs (some o) i (c :: ts) (.mk i (some (i + 1)) .sibling [] :: ns)
  | bracket {ctx o c i j inner ts ns ms} : (o, c) ∈ pairs → j = i + 1 + inner.length →
      Forest pairs (some o) (i + 1) inner ns → Forest pairs ctx (j + 1) ts ms →
      Forest pairs ctx i (o :: (inner ++ c :: ts))
        (.mk i (some (j + 1)) .paired [.mk i (some (i + 1)) .left [],
          .mk (i + 1) (some j) .middle ns, .mk j (some (j + 1)) .right []] :: ms)

/-! ### Splitting -/

/-- The node covers exactly one token, and it is a splitter. -/
def CoversSplitter (tokens splitters : List T) (n : PNode) : Prop :=
  n.hi = some (n.lo + 1) ∧ ∃ t, tokens[n.lo]? = some t ∧ t ∈ splitters

/-- Siblings are either left alone, or they are groups: nonempty sequences of nodes with at most one
splitter, at their end; only the last group need not have one. -/
def WellGrouped (tokens splitters : List T) (cs : List PNode) : Prop :=
  (∀ c ∈ cs, c.ann ≠ .split)
  ∨ (∀ c ∈ cs, c.ann = .split ∧ c.children ≠ []
      ∧ ∀ d ∈ c.children.dropLast, ¬ CoversSplitter tokens splitters d)
    ∧ ∀ c ∈ cs.dropLast, ∃ d, c.children.getLast? = some d ∧ CoversSplitter tokens splitters d

/-- A bracket node whose brackets are one of the given pairs. -/
def HasBrackets (pairs : List (T × T)) (tokens : List T) (n : PNode) : Prop :=
  n.ann = .paired ∧ ∃ a m b e l r, n.children = [a, m, b] ∧ tokens[a.lo]? = some l
    ∧ b.hi = some (e + 1) ∧ tokens[e]? = some r ∧ (l, r) ∈ pairs

/-- The node covers more than one token. -/
def Long (n : PNode) : Prop := ∃ h, n.hi = some h ∧ n.lo + 1 < h

/-- `x` can be reached from the tree through nodes with more than one token, without entering
brackets that must not be split. -/
inductive Reached (unsplit : List (T × T)) (tokens : List T) (x : PNode) : PNode → Prop
  | self : Reached unsplit tokens x x
  | child {n c} : c ∈ n.children → ¬ HasBrackets unsplit tokens n → Long c →
      Reached unsplit tokens x c → Reached unsplit tokens x n

/-! ### Moving groups under their left siblings -/

/-- `p` and `c` are neighbouring groups, and some child of `c` is a bracket pair `sub`. -/
def Moves (tokens : List T) (sub : T × T) (p c : PNode) : Prop :=
  p.ann = .split ∧ c.ann = .split ∧ ∃ d ∈ c.children, HasBrackets [sub] tokens d

/-- The siblings `cs`, which have become `cs'` below, become `r`: every group with a bracket pair
`sub` forms a new group with its left neighbour. -/
inductive Joined (tokens : List T) (sub : T × T) :
    List PNode → List PNode → List PNode → Prop
  | nil : Joined tokens sub [] [] []
  | single {c c'} : Joined tokens sub [c] [c'] [c']
  | move {p c p' c' cs cs' r} : Moves tokens sub p c → Joined tokens sub cs cs' r →
      Joined tokens sub (p :: c :: cs) (p' :: c' :: cs')
        (.mk p'.lo c'.hi .split [.mk p'.lo p'.hi .split p'.children, c'] :: r)
  | keep {p c p' c' cs cs' r} : ¬ Moves tokens sub p c → Joined tokens sub (c :: cs) (c' :: cs') r →
      Joined tokens sub (p :: c :: cs) (p' :: c' :: cs') (p' :: r)

mutual
/-- The siblings are joined everywhere in the tree. -/
inductive Nested (tokens : List T) (sub : T × T) : PNode → PNode → Prop
  | mk {lo hi ann cs cs' r} : NestedList tokens sub cs cs' → Joined tokens sub cs cs' r →
      Nested tokens sub (.mk lo hi ann cs) (.mk lo hi ann r)

/-- The same for several trees. -/
inductive NestedList (tokens : List T) (sub : T × T) : List PNode → List PNode → Prop
  | nil : NestedList tokens sub [] []
  | cons {c c' cs cs'} : Nested tokens sub c c' → NestedList tokens sub cs cs' →
      NestedList tokens sub (c :: cs) (c' :: cs')
end

/-- No group would have to be moved twice, and none of two neighbours are both to be moved. -/
structure Chainless (tokens : List T) (sub : T × T) (cs : List PNode) : Prop where
  once : ∀ p c l r, cs = l ++ p :: c :: r → Moves tokens sub p c →
    ∃ l' d r', c.children = l' ++ d :: r' ∧ ∀ x ∈ l' ++ r', ¬ HasBrackets [sub] tokens x
  apart : ∀ p c d l r, cs = l ++ p :: c :: d :: r → Moves tokens sub p c → ¬ Moves tokens sub c d

end RUSure.Spec
