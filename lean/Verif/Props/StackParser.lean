import Verif.Lemmas.StackWhole
import Verif.Lemmas.StackNest

/-!
# C15, C16, C17: error correction, bracket matching, splitting
-/

namespace RUSure.Props
open RUSure RUSure.Spec RUSure.Lemmas
variable {T : Type} [DecidableEq T]

/-! ### C15 -/

section
variable {pairs : List (T × T)}

/-- **C15.** For every token stream and well-formed bracket table: with the computed prefix before it
and the computed suffix after it, the stream is balanced; closers of a different kind than the
surrounding bracket count as plain tokens, as in the error tolerant matcher. -/
theorem C15_balanced (hT : Table pairs) (ts : List T) :
    Balanced pairs none ((correction pairs ts).1 ++ ts ++ (correction pairs ts).2) :=
  correction_balanced hT ts

/-- **C15.** The correction is empty exactly for streams that are balanced in this sense. -/
theorem C15_empty (hT : Table pairs) (ts : List T) :
    correction pairs ts = ([], []) ↔ Balanced pairs none ts := correction_empty hT ts

/-- **C15.** Streams that are balanced in the usual sense get no correction. -/
theorem C15_strict (hT : Table pairs) {ts : List T} (h : StrictlyBalanced pairs ts) :
    correction pairs ts = ([], []) := by
  rw [correction_empty hT]
  have h' : ∀ {ts : List T}, StrictlyBalanced pairs ts → ∀ ctx, Balanced pairs ctx ts := by
    intro ts h
    induction h with
    | nil => exact fun _ => .nil _
    | plain h1 _ ih => exact fun _ => .plain h1 (ih _)
    | bracket h1 _ _ ih1 ih2 => exact fun _ => .bracket h1 (ih1 _) (ih2 _)
  exact h' h none

/-- **C15.** Only openers are put in front and only closers are put at the end, for every table. -/
theorem C15_only_brackets (pairs : List (T × T)) (ts : List T) :
    (∀ t ∈ (correction pairs ts).1, t ∈ pairs.map Prod.fst)
      ∧ ∀ t ∈ (correction pairs ts).2, t ∈ pairs.map Prod.snd := by
  obtain ⟨h1, h2⟩ := correctLoop_openers (pairs := pairs) ts [] [] (by simp) (by simp)
  refine ⟨h2, fun t ht => ?_⟩
  obtain ⟨o, -, h⟩ := List.mem_filterMap.mp ht
  exact mem_closer (closerOf_mem h)

/-- The bracket table of all preset languages. -/
def presetPairs : List (Char × Char) := [('(', ')'), ('[', ']'), ('{', '}')]

/-- The preset table is well formed. -/
theorem preset_table : Table presetPairs where
  closers := by decide
  disjoint := by decide

-- The hypotheses can be met, and both sides of the correction occur.
example : correction presetPairs [']', 'a', '(', 'b', '{'] = (['['], ['}', ')']) := by decide
example : Balanced presetPairs none (['['] ++ [']', 'a', '(', 'b', '{'] ++ ['}', ')']) :=
  C15_balanced preset_table [']', 'a', '(', 'b', '{']
example : StrictlyBalanced presetPairs ['a', '(', 'b', ')'] :=
  .plain (by constructor <;> decide) (.bracket (o := '(') (c := ')') (inner := ['b']) (by decide)
    (.plain (by constructor <;> decide) .nil) .nil)

/-- **C15** (disagreement). A closer of the wrong kind inside of a bracket is not corrected, so
corrected streams need not be balanced in the usual sense. -/
theorem C15_wrong_closer_kept : correction presetPairs ['(', ']', ')'] = ([], [])
    ∧ ¬ StrictlyBalanced presetPairs ['(', ']', ')'] := by
  refine ⟨by decide, fun h => ?_⟩
  have h1 := (bal_iff_run preset_table).mp (strict_bal (drop := false) h none)
  revert h1
  decide

/-- **C15** (disagreement). If a token is both opener and closer, the correction need not balance:
the table has to be well formed. -/
theorem C15_table_needed :
    (correction [('|', '|')] ['|', '|']) = ([], ['|', '|']) := by decide

/-! ### C16 -/

/-- **C16.** The tree of a balanced stream, exactly: the root has the trees of `Forest` below it. -/
theorem C16_forest (hT : Table pairs) {ts : List T} (h : Balanced pairs none ts) :
    ∃ ns, bracketMatch pairs true ts = .ok (.mk 0 (some ts.length) .root ns)
      ∧ Forest pairs none 0 ts ns := bracketMatch_forest hT h

/-- **C16.** For every balanced stream, matching succeeds; the spans of the children of every node
divide its span; the leaves cover each token exactly once and in order (a bracket pair with nothing
inside has an empty leaf besides); the code's own check of the ranges accepts; and every bracket node
consists of an opener, the tree in between and the closer that belongs to the opener. -/
theorem C16_tree (hT : Table pairs) {ts : List T} (h : Balanced pairs none ts) :
    ∃ root, bracketMatch pairs true ts = .ok root
      ∧ root.lo = 0 ∧ root.hi = some ts.length ∧ RangeOk root
      ∧ tokenLeaves root = (List.range ts.length).map (fun i => (i, some (i + 1)))
      ∧ validParseRanges root ts.length = true
      ∧ ∀ n, InTree n root → n.ann = .paired → IsBracket pairs ts n := by
  obtain ⟨ns, h1, h2⟩ := bracketMatch_bal hT (bal_balanced.mpr h)
  refine ⟨_, h1, rfl, rfl, h2.root, ?_, valid_of_range h2.root rfl rfl, ?_⟩
  · have hl := h2.leaves
    cases ns with
    | nil =>
      have hn := h2.tile
      cases ts with
      | nil => simp [tokenLeaves, leafRanges]
      | cons t ts => 
        rw [Nat.zero_add] at hn
        cases hn
    | cons n ns =>
      rw [tokenLeaves, leafRanges]
      simpa [tokenLeavesList, singles, List.range_eq_range'] using hl
  · intro n hn hp
    rcases inTree_mk.mp hn with rfl | hn
    · cases hp
    · exact h2.brackets n hn hp

/-- **C16.** The same for every stream, once it is corrected. -/
theorem C16_corrected (hT : Table pairs) (ts : List T) :
    let ts' := (correction pairs ts).1 ++ ts ++ (correction pairs ts).2
    ∃ root, bracketMatch pairs true ts' = .ok root
      ∧ root.lo = 0 ∧ root.hi = some ts'.length ∧ RangeOk root
      ∧ tokenLeaves root = (List.range ts'.length).map (fun i => (i, some (i + 1)))
      ∧ validParseRanges root ts'.length = true
      ∧ ∀ n, InTree n root → n.ann = .paired → IsBracket pairs ts' n :=
  C16_tree hT (C15_balanced hT ts)

/-- **C16.** With error tolerance, matching never fails, whatever the tokens and the table. -/
theorem C16_tolerant (pairs : List (T × T)) (ts : List T) :
    ∃ root, bracketMatch pairs true ts = .ok root := bracketMatch_tolerant ts

/-- **C16.** Without error tolerance, exactly the streams are accepted that are balanced in the usual
sense apart from closers outside of all brackets. -/
theorem C16_strict (hT : Table pairs) (ts : List T) :
    (∃ root, bracketMatch pairs false ts = .ok root) ↔ BalancedBesidesClosers pairs ts :=
  bracketMatch_strict hT ts

end

-- A case with nesting, an empty bracket and a stray closer.
example : Balanced presetPairs none ['a', '(', 'b', '[', ']', '}', ')', 'c'] := by
  rw [← C15_empty preset_table]; decide

/-- **C16** (disagreement). Even without error tolerance a closer outside of all brackets is accepted,
and its token is missing from the tree; the docstring promises a `ParseError`. So ranges and coverage
hold for corrected streams only. -/
theorem C16_dropped_closer :
    bracketMatch presetPairs false ['a', ')', 'b']
      = .ok (.mk 0 (some 3) .root [leafNode 0, leafNode 2])
    ∧ validParseRanges (.mk 0 (some 3) .root [leafNode 0, leafNode 2]) 3 = false := by
  constructor <;> rfl

/-! ### C17 -/

/-- What the theorems below need of a tree: valid ranges within the tokens, and bracket nodes as the
matcher makes them. -/
structure Matched (pairs : List (T × T)) (tokens : List T) (root : PNode) : Prop where
  range : RangeOk root
  inside : ∀ h, root.hi = some h → h ≤ tokens.length
  brackets : ∀ n, InTree n root → n.ann = .paired → IsBracket pairs tokens n

omit [DecidableEq T] in
theorem Matched.lookupOk {pairs : List (T × T)} {tokens : List T} {root : PNode}
    (h : Matched pairs tokens root) : ∀ x, InTree x root → LookupOk tokens.length x :=
  fun x hx => isBracket_pairOk (h.brackets x hx) (range_inTree _ h.range x hx)

/-- Trees of balanced streams are of this kind. -/
theorem matched_of_balanced {pairs : List (T × T)} (hT : Table pairs) {ts : List T}
    (h : Balanced pairs none ts) {root : PNode} (hr : bracketMatch pairs true ts = .ok root) :
    Matched pairs ts root := by
  obtain ⟨root', h1, -, h2, h3, -, -, h4⟩ := C16_tree hT h
  rw [h1] at hr
  cases hr
  exact ⟨h3, fun e he => by rw [h2] at he; cases he; exact Nat.le_refl _, h4⟩

section
variable {pairs un : List (T × T)} {tokens splitters : List T} {sub : Option (T × T)}
  {root root' : PNode}

/-- **C17.** Splitting only adds grouping nodes: the leaves stay the same, in the same order; without
the grouping nodes the trees are the same; the spans are valid if they were. This holds with and
without moving groups under their neighbours. -/
theorem C17_splitting_keeps (hm : Matched pairs tokens root)
    (h : splitParse root tokens splitters un sub = .ok root') :
    leafRanges root' = leafRanges root ∧ unsplitNode root' = unsplitNode root ∧ RangeOk root'
      ∧ root'.lo = root.lo ∧ root'.hi = root.hi ∧ root'.ann = root.ann := by
  have hs := splitParse_same h hm.range hm.lookupOk
  exact ⟨hs.leaves, hs.unsplit, hs.range hm.range, hs.lo, hs.hi, hs.ann⟩

/-- **C17.** The code's own check of the ranges accepts the split tree. -/
theorem C17_valid (hm : Matched pairs tokens root) (h0 : root.lo = 0)
    (hn : root.hi = some tokens.length)
    (h : splitParse root tokens splitters un sub = .ok root') :
    validParseRanges root' tokens.length = true := by
  obtain ⟨-, -, h1, h2, h3, -⟩ := C17_splitting_keeps hm h
  exact valid_of_range h1 (h2.trans h0) (h3.trans hn)

/-- **C17.** Without moving groups, splitting never fails. -/
theorem C17_succeeds (hm : Matched pairs tokens root) :
    ∃ root', splitParse root tokens splitters un none = .ok root' := by
  obtain ⟨r, hr⟩ := splitWith_ok tokens splitters un root hm.range hm.inside hm.lookupOk
  unfold splitParse
  split
  · exact ⟨_, rfl⟩
  · exact ⟨r, by rw [hr]; rfl⟩

/-- **C17.** In a tree without grouping nodes: after splitting, the children of every node are either
not grouped at all, or all of them are groups; a group is not empty, splitters occur in it only at
its end, and every group but the last one ends with a splitter. -/
theorem C17_groups (hm : Matched pairs tokens root)
    (hn : ∀ x, InTrees x root.children → x.ann ≠ .split) (hs : splitters ≠ [])
    (h : splitParse root tokens splitters un none = .ok root') :
    ∀ x, InTree x root' → WellGrouped tokens splitters x.children := by
  unfold splitParse at h
  rw [if_neg (by simpa using hs)] at h
  obtain ⟨r, h1, h⟩ := except_bind_ok h
  cases h
  exact splitWith_grouped tokens splitters un tokens.length _ _ h1 hm.lookupOk hn

/-- **C17.** Outside of unsplittable brackets every splitter ends a group: no node that can be reached
through nodes with more than one token, other than bracket nodes and groups, has a splitter among its
children. -/
theorem C17_all_split (hm : Matched pairs tokens root) (hs : splitters ≠ [])
    (h : splitParse root tokens splitters un none = .ok root') :
    ∀ x, Reached un tokens x root' → x.ann ≠ .paired → x.ann ≠ .split →
      ∀ c ∈ x.children, c.ann ≠ .split → ¬ CoversSplitter tokens splitters c := by
  unfold splitParse at h
  rw [if_neg (by simpa using hs)] at h
  obtain ⟨r, h1, h⟩ := except_bind_ok h
  cases h
  exact splitWith_left tokens splitters un tokens.length _ _ h1 hm.lookupOk

/-- **C17.** Within unsplittable brackets there are no groups. -/
theorem C17_unsplittable (hm : Matched pairs tokens root) (hn : ∀ x, InTree x root → x.ann ≠ .split)
    (hu : ∀ p ∈ un, ∀ q ∈ un, p.1 = q.1 → p = q)
    (h : splitParse root tokens splitters un none = .ok root') :
    ∀ x, InTree x root' → HasBrackets un tokens x → ∀ y, InTree y x → y.ann ≠ .split := by
  unfold splitParse at h
  split at h
  · cases h
    exact fun x hx _ y hy => hn y (inTree_sub hy hx)
  · obtain ⟨r, h1, h⟩ := except_bind_ok h
    cases h
    exact splitWith_closed tokens splitters un hu tokens.length _ _ h1 hm.lookupOk hn

/-- **C17.** Moving groups: if in the split tree no group would have to be moved twice and no two
neighbours would both have to be moved, it succeeds, and every group with a bracket pair of the given
kind forms a new group with its left neighbour, everywhere in the tree. -/
theorem C17_nests (hm : Matched pairs tokens root) (hs : splitters ≠ []) {p : T × T}
    (h : splitParse root tokens splitters un none = .ok root')
    (hc : ∀ x, InTree x root' → Chainless tokens p x.children) :
    ∃ root'', splitParse root tokens splitters un (some p) = .ok root''
      ∧ Nested tokens p root' root'' := by
  unfold splitParse at h
  rw [if_neg (by simpa using hs)] at h
  obtain ⟨r, h1, h⟩ := except_bind_ok h
  cases h
  obtain ⟨r', h2, h3⟩ := subMatch_nested tokens p root'
    ((splitWith_same _ _ _ _ _ h1).range hm.range)
    (splitWith_pairs _ _ _ _ _ _ h1 hm.lookupOk) hc
  refine ⟨r', ?_, h3⟩
  unfold splitParse
  rw [if_neg (by simpa using hs), h1]
  exact h2

end

/-- A tree for the examples: `a;b(c;)d;`. -/
def exampleTree : PNode := .mk 0 (some 9) .root [leafNode 0, leafNode 1, leafNode 2,
  pairedNode 3 6 [leafNode 4, leafNode 5], leafNode 7, leafNode 8]

example : bracketMatch presetPairs true ['a', ';', 'b', '(', 'c', ';', ')', 'd', ';'] = .ok exampleTree := by rfl
example : Matched presetPairs ['a', ';', 'b', '(', 'c', ';', ')', 'd', ';'] exampleTree :=
  matched_of_balanced preset_table (by rw [← C15_empty preset_table]; decide) rfl
example : splitParse exampleTree ['a', ';', 'b', '(', 'c', ';', ')', 'd', ';'] [';'] [] none
    = .ok (.mk 0 (some 9) .root [splitNode [leafNode 0, leafNode 1],
        splitNode [leafNode 2, pairedNode 3 6 [splitNode [leafNode 4, leafNode 5]], leafNode 7,
          leafNode 8]]) := by rfl
-- Unsplittable brackets are left alone.
example : splitParse exampleTree ['a', ';', 'b', '(', 'c', ';', ')', 'd', ';'] [';'] [('(', ')')] none
    = .ok (.mk 0 (some 9) .root [splitNode [leafNode 0, leafNode 1],
        splitNode [leafNode 2, pairedNode 3 6 [leafNode 4, leafNode 5], leafNode 7,
          leafNode 8]]) := by rfl
-- The second group is moved under the first one.
example : splitParse exampleTree ['a', ';', 'b', '(', 'c', ';', ')', 'd', ';'] [';'] [] (some ('(', ')'))
    = .ok (.mk 0 (some 9) .root [.mk 0 (some 9) .split [splitNode [leafNode 0, leafNode 1],
        splitNode [leafNode 2, pairedNode 3 6 [splitNode [leafNode 4, leafNode 5]], leafNode 7,
          leafNode 8]]]) := by rfl

/-- **C17** (disagreement). With chains of groups to be moved, splitting raises: both the second and
the third group have to go under their left neighbour. -/
theorem C17_chain_raises :
    (bracketMatch presetPairs true ['x', ';', '{', 'y', '}', ';', '{', 'z', '}', ';'] >>= fun root =>
      splitParse root ['x', ';', '{', 'y', '}', ';', '{', 'z', '}', ';'] [';'] [] (some ('{', '}'))) = .error .value := by rfl

/-- **C17** (disagreement). So does a group with two such brackets. -/
theorem C17_twice_raises :
    (bracketMatch presetPairs true ['x', ';', '{', 'y', '}', '{', 'z', '}', ';'] >>= fun root =>
      splitParse root ['x', ';', '{', 'y', '}', '{', 'z', '}', ';'] [';'] [] (some ('{', '}'))) = .error .value := by rfl

end RUSure.Props
