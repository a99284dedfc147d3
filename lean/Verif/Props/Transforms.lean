import Verif.Lemmas.TruncMarks
import Verif.Lemmas.Placement

/-!
# C06–C12: properties of the node sequence transformations
-/

namespace RUSure.Props
open RUSure Spec

variable {M : Type}

/-- A non-trivial sample sequence used in the non-vacuity examples:
`f( x ,g() )` with nested groups, decorations and single-child groups. -/
def sample : List (Node Nat) :=
  [.tok ['f'] 0, .group [.tok ['('] 1, .deco [' '], .group [.group [.tok ['x'] 2] 3] 4,
    .deco [], .group [.tok ['g'] 0, .group [] 5] 6, .tok [')'] 7] 8, .deco ['\n']]

/-! ## C06 -/

/-- Rendering a sequence gives the concatenation of the texts of its leaves. -/
theorem C06_render_is_text (seq : List (Node M)) : renderTextL seq = text seq :=
  render_eq_text.2 seq

/-- C06: every transformation leaves the text (concatenation of leaf texts) unchanged. -/
theorem C06_transforms_preserve_text (seq : List (Node M)) :
    text (flattenGroups seq) = text seq
    ∧ text (flattenSingletonGroups seq) = text seq
    ∧ (∀ within atStart, text (insertEarlyExit seq within atStart) = text seq)
    ∧ (∀ allowEmpty filter, text (insertRegions seq allowEmpty filter) = text seq)
    ∧ (∀ scope, text (insertRegionsSingle scope seq) = text seq)
    ∧ text (stripDecisions seq) = text seq := by
  simp only [← C06_render_is_text]
  refine ⟨?_, render_flattenSingleton.2 seq, ?_, ?_, fun s => (render_insertSingle s).2 seq,
    render_strip.2 seq⟩
  · rw [flattenGroups_eq_leaves.2, C06_render_is_text, C06_render_is_text, text, leaves_leaves]
    rfl
  · intro w s
    rw [insertEarlyExit, renderTextL_append, render_insertEarlyExit.2]
    cases s <;> simp [renderTextL, renderText]
  · intro ae f
    rw [insertRegions, renderTextL_append, (render_insertRegions ae f).2, render_trailing]
    simp

/-- C06: flattening groups leaves exactly the leaves, in order. -/
theorem C06_flatten_is_leaves (seq : List (Node M)) : flattenGroups seq = leaves seq :=
  flattenGroups_eq_leaves.2 seq

example : text sample = "f( xg)\n".toList
    ∧ (flattenSingletonGroups sample).length = 3
    ∧ insertRegions sample true (fun _ => true) ≠ sample := by
  refine ⟨by decide, by decide, ?_⟩
  intro h; have := congrArg List.length h; revert this; decide

/-! ## C07 -/

/-- C07: stripping undoes any number of insertions of early exits and region options, in any order
and with any options. -/
inductive InsertOp (M : Type) where
  | exits (within atStart : Bool)
  | regions (allowEmpty : Bool) (filter : Node M → Bool)

/-- Applies one insertion. -/
def InsertOp.apply (seq : List (Node M)) : InsertOp M → List (Node M)
  | .exits w s => insertEarlyExit seq w s
  | .regions ae f => insertRegions seq ae f

theorem strip_apply (seq : List (Node M)) (op : InsertOp M) :
    stripDecisions (op.apply seq) = stripDecisions seq := by
  cases op with
  | exits w s =>
    rw [InsertOp.apply, insertEarlyExit, strip_append, strip_insertEarlyExit.2]
    cases s <;> simp [stripDecisions, stripNode]
  | regions ae f =>
    rw [InsertOp.apply, insertRegions, strip_append, (strip_insertRegions ae f).2, strip_trailing]
    simp

theorem C07_strip_undoes_insert (seq : List (Node M)) (h : DecisionFree seq)
    (ops : List (InsertOp M)) : stripDecisions (ops.foldl InsertOp.apply seq) = seq := by
  have : ∀ (ops : List (InsertOp M)) (s : List (Node M)),
      stripDecisions (ops.foldl InsertOp.apply s) = stripDecisions s := by
    intro ops
    induction ops with
    | nil => intro s; rfl
    | cons op ops ih => intro s; rw [List.foldl_cons, ih, strip_apply]
  rw [this, strip_of_decisionFree.2 _ h]

/-- C07: stripping is idempotent and removes every decision node at every depth. -/
theorem C07_strip_idempotent (seq : List (Node M)) :
    stripDecisions (stripDecisions seq) = stripDecisions seq
    ∧ DecisionFree (stripDecisions seq) :=
  ⟨strip_strip.2 seq, strip_decisionFree.2 seq⟩

/-- The sample is free of decision nodes, so it is an instance of C07. -/
theorem sample_decisionFree : DecisionFree sample := by
  have h : stripDecisions sample = sample := by rfl
  rw [← h]; exact strip_decisionFree.2 sample

example : stripDecisions
    ([InsertOp.regions true (fun _ => true), .exits true false, .regions false (fun n => n.isGroup)].foldl
      InsertOp.apply sample) = sample :=
  C07_strip_undoes_insert _ sample_decisionFree _

/-! ## C08 -/

/-- C08: the expansion of tuple match types to nested groups is a left inverse of collapsing. -/
theorem C08_expand_collapse (seq : List (Node M)) :
    expandGroups (flattenSingletonGroups seq) = seq :=
  expand_flattenSingleton.2 seq

/-- C08: sequences with the same collapsed form are equal. -/
theorem C08_collapse_injective (s₁ s₂ : List (Node M))
    (h : flattenSingletonGroups s₁ = flattenSingletonGroups s₂) : s₁ = s₂ := by
  rw [← C08_expand_collapse s₁, h, C08_expand_collapse]

/-- C08: after collapsing, no group has a group or token as its only child. -/
theorem C08_no_singleton_left (seq : List (Node M)) (c : Node (List M)) (mts : List M)
    (h : Occurs (flattenSingletonGroups seq) (.group [c] mts)) : c.isTokOrGroup = false :=
  no_singleton_left.2 seq c mts h

example : flattenSingletonGroups [Node.group [.group [.tok ['x'] 2] 3] 4]
    = [Node.tok ['x'] [4, 3, 2]] := by rfl

/-! ## C09 -/

/-- C09: truncation drops exactly the first `n` characters of the text, and yields the empty
sequence when `n` exceeds the length of the text. -/
theorem C09_truncate_text (seq : List (Node M)) (n : Nat) :
    text (truncatePrefix seq n) = (text seq).drop n
    ∧ ((text seq).length < n → truncatePrefix seq n = []) := by
  have h := (trunc_outcome (n : Int)).2 seq 0
  unfold truncatePrefix
  unfold TruncOutcome at h
  cases e : (truncL (n : Int) (some 0) seq).1 with
  | some k =>
    simp only [e] at h
    obtain ⟨hk, hnil, hlt⟩ := h
    rw [hnil]
    refine ⟨?_, fun _ => rfl⟩
    have hk : k = (text seq).length := by simpa [text] using hk
    rcases hlt with hlt | hlt
    · rw [List.drop_eq_nil_of_le (by omega)]; rfl
    · have : text seq = [] := flatMap_noText hlt
      rw [this]; simp [text, leaves]
  | none =>
    simp only [e] at h
    obtain ⟨pre, x, rest, h1, h2, h3, h4, h5⟩ := h
    have hpre : ((pre.flatMap leafText).length : Int) ≤ n := by
      rcases h3 with h3 | h3
      · omega
      · rw [flatMap_noText h3]; simp
    constructor
    · unfold text
      rw [h5, h1]
      generalize hP : pre.flatMap leafText = P at *
      generalize hR : rest.flatMap leafText = R
      simp only [List.flatMap_append, List.flatMap_cons, hP, hR]
      split
      · rename_i hn
        have : n = P.length + (leafText x).length := by omega
        rw [List.drop_append, List.drop_append, List.drop_eq_nil_of_le (as := P) (by omega),
          List.drop_eq_nil_of_le (as := leafText x) (by omega),
          show n - P.length - (leafText x).length = 0 by omega]
        simp
      · rename_i hn
        simp only [List.flatMap_cons, List.flatMap_nil, List.append_nil]
        have hw : ∀ t, leafText (withText t x) = t := by
          intro t; cases x <;> simp_all [IsTextLeaf, withText, leafText]
        rw [hw, pySliceFrom, if_pos (by omega)]
        have e1 : ((n : Int) - ((0 : Nat) + P.length)).toNat = n - P.length := by omega
        rw [e1]
        rw [List.drop_append, List.drop_append, List.drop_eq_nil_of_le (as := P) (by omega),
          show n - P.length - (leafText x).length = 0 by omega]
        simp
    · intro hlong
      exfalso
      unfold text at hlong
      rw [h1] at hlong
      simp only [List.flatMap_append, List.flatMap_cons, List.length_append] at hlong
      omega

/-- C09: the leaves of the result are a suffix of the original leaves, with at most the first one
shortened. The cut happens in the first text leaf `x` such that the text up to and including it has
at least `n` characters; everything before it is removed, everything after it is kept unchanged.
If there is no such leaf the result is empty. -/
theorem C09_truncate_leaves (seq : List (Node M)) (n : Nat) :
    (truncatePrefix seq n = []
      ∧ ((text seq).length < n ∨ ∀ x ∈ leaves seq, ¬ IsTextLeaf x))
    ∨ ∃ pre x rest, leaves seq = pre ++ x :: rest ∧ IsTextLeaf x
      ∧ ((pre.flatMap leafText).length < n ∨ ∀ y ∈ pre, ¬ IsTextLeaf y)
      ∧ n ≤ (pre.flatMap leafText).length + (leafText x).length
      ∧ leaves (truncatePrefix seq n) =
          (if n = (pre.flatMap leafText).length + (leafText x).length then []
           else [withText ((leafText x).drop (n - (pre.flatMap leafText).length)) x]) ++ rest := by
  have h := (trunc_outcome (n : Int)).2 seq 0
  unfold truncatePrefix
  unfold TruncOutcome at h
  cases e : (truncL (n : Int) (some 0) seq).1 with
  | some k =>
    simp only [e] at h
    obtain ⟨hk, hnil, hlt⟩ := h
    refine .inl ⟨hnil, ?_⟩
    have hk : k = (text seq).length := by simpa [text] using hk
    rcases hlt with hlt | hlt
    · left; omega
    · exact .inr hlt
  | none =>
    simp only [e] at h
    obtain ⟨pre, x, rest, h1, h2, h3, h4, h5⟩ := h
    have hpre : ((pre.flatMap leafText).length : Int) ≤ n := by
      rcases h3 with h3 | h3
      · omega
      · rw [flatMap_noText h3]; simp
    refine .inr ⟨pre, x, rest, h1, h2, ?_, by omega, ?_⟩
    · rcases h3 with h3 | h3
      · left; omega
      · exact .inr h3
    · rw [h5]
      congr 1
      by_cases hn : n = (pre.flatMap leafText).length + (leafText x).length
      · rw [if_pos hn, if_pos (by omega)]
      · rw [if_neg hn, if_neg (by omega), pySliceFrom, if_pos (by omega)]
        congr 3
        omega

/-- C09: the groups. Read from left to right, as leaves and the places where groups begin and end, the result
consists of the groups that are open at the cut, the rest of the leaf that is cut (nothing if the cut is at its
end), and then all that comes after it, unchanged. -/
theorem C09_truncate_structure (seq : List (Node M)) (n : Nat) :
    (truncatePrefix seq n = []
      ∧ ((text seq).length < n ∨ ∀ x ∈ leaves seq, ¬ IsTextLeaf x))
    ∨ ∃ pre x post, marks seq = pre ++ .leaf x :: post ∧ IsTextLeaf x
      ∧ ∃ before, before = pre.filterMap Mark.leaf?
      ∧ ((before.flatMap leafText).length < n ∨ ∀ y ∈ before, ¬ IsTextLeaf y)
      ∧ n ≤ (before.flatMap leafText).length + (leafText x).length
      ∧ marks (truncatePrefix seq n) = (openGroups [] pre).map Mark.opening
        ++ (if n = (before.flatMap leafText).length + (leafText x).length then []
          else [.leaf (withText ((leafText x).drop (n - (before.flatMap leafText).length)) x)])
        ++ post := by
  cases e : (truncL (n : Int) (some 0) seq).1 with
  | some k =>
    have h := (trunc_outcome (n : Int)).2 seq 0
    unfold TruncOutcome at h
    simp only [e] at h
    obtain ⟨hk, hnil, hlt⟩ := h
    refine .inl ⟨hnil, ?_⟩
    have hk : k = (text seq).length := by simpa [text] using hk
    rcases hlt with hlt | hlt
    · left; omega
    · exact .inr hlt
  | none =>
    obtain ⟨pre, x, post, os, h1, h2, h3, h4, h5, h6⟩ := (cut_outcome (n : Int)).2 seq 0 e
    have hpre : (((pre.filterMap Mark.leaf?).flatMap leafText).length : Int) ≤ n := by
      rcases h3 with h3 | h3
      · omega
      · rw [flatMap_noText h3]; simp
    refine .inr ⟨pre, x, post, h1, h2, _, rfl, ?_, by omega, ?_⟩
    · rcases h3 with h3 | h3
      · left; omega
      · exact .inr h3
    · unfold truncatePrefix
      rw [h6, h5 [], List.nil_append]
      congr 2
      by_cases hn : n = ((pre.filterMap Mark.leaf?).flatMap leafText).length + (leafText x).length
      · rw [if_pos hn, if_pos (by omega)]
      · rw [if_neg hn, if_neg (by omega), pySliceFrom, if_pos (by omega)]
        congr 4
        omega

/-- C09: a sequence is determined by its marks. -/
theorem C09_marks_injective (a b : List (Node M)) (h : marks a = marks b) : a = b :=
  (marks_prefix_inj.2 a b [] [] (by simp) (by simp) (by rw [h])).1

/-- C09, outside the documented domain: for a negative offset the code slices the first text from
its end (Python slice semantics), instead of leaving the sequence unchanged. -/
theorem C09_negative_offset_witness :
    truncatePrefix [(Node.tok "abc".toList 0 : Node Nat)] (-1) = [Node.tok "c".toList 0] := by
  rfl

example : truncatePrefix sample 2
    = [.group [.deco [' '], .group [.group [.tok ['x'] 2] 3] 4,
        .deco [], .group [.tok ['g'] 0, .group [] 5] 6, .tok [')'] 7] 8, .deco ['\n']] := by rfl

/-! ## C10 -/

/-- C10: at every level of the tree (`cs` is the root sequence or the children of any group), the
result contains a corresponding sibling list `rs` such that any run of siblings from position `i`
to `j` whose first and last nodes are accepted tokens or groups is enclosed between a region start
and a region end of `rs`; what lies before, inside and after is, up to decision nodes, what lay
before, inside and after in `cs`. -/
theorem C10_runs_can_be_enclosed (seq cs : List (Node M)) (allowEmpty : Bool)
    (filter : Node M → Bool) (hs : Siblings seq cs) :
    ∃ rs, Siblings (insertRegions seq allowEmpty filter) rs
      ∧ stripDecisions rs = stripDecisions cs
      ∧ ∀ before first middle last after, (cs = before ++ first :: middle ++ last :: after) →
          first.isTokOrGroup = true → filter first = true →
          last.isTokOrGroup = true → filter last = true →
          ∃ pre mid post, rs = pre ++ .rstart :: mid ++ .rend :: post
            ∧ stripDecisions pre = stripDecisions before
            ∧ stripDecisions mid = stripDecisions (first :: middle ++ [last])
            ∧ stripDecisions post = stripDecisions after := by
  refine ⟨insertRegions cs allowEmpty filter, ?_, ?_, ?_⟩
  · rcases hs with rfl | ⟨mt, ho⟩
    · exact .inl rfl
    · right
      refine ⟨mt, ?_⟩
      rw [insertRegions, occurs_append]
      exact .inl ((insertRegions_level allowEmpty filter).2 _ _ _ ho)
  · rw [insertRegions, strip_append, (strip_insertRegions allowEmpty filter).2, strip_trailing]
    simp
  · intro before first middle last after hcs h1 h2 h3 h4
    obtain ⟨f', hf1, hf2⟩ := insertRegionsNode_accepted allowEmpty filter first h1 h2
    obtain ⟨l', hl1, hl2⟩ := insertRegionsNode_accepted allowEmpty filter last h3 h4
    have hsL := (strip_insertRegions allowEmpty filter).2
    refine ⟨insertRegionsLoop allowEmpty filter before,
      (if allowEmpty = true then [.rend] else []) ++ [f', .rend]
        ++ insertRegionsLoop allowEmpty filter middle
        ++ [.rstart] ++ (if allowEmpty = true then [.rend] else []) ++ [l'],
      insertRegionsLoop allowEmpty filter after ++ trailingRegion allowEmpty, ?_, ?_, ?_, ?_⟩
    · subst hcs
      simp [insertRegions, insertRegionsLoop_append, insertRegionsLoop, hf2, hl2]
    · exact hsL _
    · have hb : stripDecisions (if allowEmpty = true then [Node.rend] else [] : List (Node M)) = [] := by
        cases allowEmpty <;> simp [stripDecisions, stripNode]
      simp [strip_append, hsL, hb, stripDecisions, stripNode, hf1, hl1]
    · rw [strip_append, hsL, strip_trailing]; simp

/-- C10: an accepted token or group, at any level, is immediately surrounded by its own region
options: a start, then (if empty regions are allowed) an end, then the node, then an end. -/
theorem C10_accepted_is_wrapped (seq cs : List (Node M)) (allowEmpty : Bool)
    (filter : Node M → Bool) (hs : Siblings seq cs) :
    ∃ rs, Siblings (insertRegions seq allowEmpty filter) rs
      ∧ stripDecisions rs = stripDecisions cs
      ∧ ∀ before n after, (cs = before ++ n :: after) →
          n.isTokOrGroup = true → filter n = true →
          ∃ pre n' post,
            rs = pre ++ ([.rstart] ++ (if allowEmpty = true then [.rend] else []) ++ [n', .rend]) ++ post
            ∧ stripDecisions pre = stripDecisions before
            ∧ stripDecisions [n'] = stripDecisions [n]
            ∧ stripDecisions post = stripDecisions after := by
  refine ⟨insertRegions cs allowEmpty filter, ?_, ?_, ?_⟩
  · rcases hs with rfl | ⟨mt, ho⟩
    · exact .inl rfl
    · right
      refine ⟨mt, ?_⟩
      rw [insertRegions, occurs_append]
      exact .inl ((insertRegions_level allowEmpty filter).2 _ _ _ ho)
  · rw [insertRegions, strip_append, (strip_insertRegions allowEmpty filter).2, strip_trailing]
    simp
  · intro before n after hcs h1 h2
    obtain ⟨f', hf1, hf2⟩ := insertRegionsNode_accepted allowEmpty filter n h1 h2
    have hsL := (strip_insertRegions allowEmpty filter).2
    refine ⟨insertRegionsLoop allowEmpty filter before, f',
      insertRegionsLoop allowEmpty filter after ++ trailingRegion allowEmpty, ?_, hsL _, ?_, ?_⟩
    · subst hcs
      simp [insertRegions, insertRegionsLoop_append, insertRegionsLoop, hf2]
    · simp [stripDecisions, hf1]
    · rw [strip_append, hsL, strip_trailing]; simp

/-- C10: nothing more is inserted: among the siblings of any level there are exactly as many region
starts as accepted tokens and groups (plus one for the trailing empty region), and accordingly many
ends. So refused nodes get no options. -/
theorem C10_option_count (seq cs : List (Node M)) (allowEmpty : Bool) (filter : Node M → Bool)
    (hfree : DecisionFree seq) (hs : Siblings seq cs) :
    ∃ rs, Siblings (insertRegions seq allowEmpty filter) rs
      ∧ stripDecisions rs = cs
      ∧ countStarts rs = (cs.filter (fun n => n.isTokOrGroup && filter n)).length
          + (if allowEmpty = true then 1 else 0)
      ∧ countEnds rs = (if allowEmpty = true then 2 else 1)
          * (cs.filter (fun n => n.isTokOrGroup && filter n)).length
          + (if allowEmpty = true then 1 else 0) := by
  have hcs : DecisionFree cs := by
    rcases hs with rfl | ⟨mt, p, hp⟩
    · exact hfree
    · rintro n ⟨q, hq⟩
      refine hfree n ⟨p ++ q, ?_⟩
      rw [nodeAt_append, hp]
      · exact hq
      · rintro rfl; simp [nodeAt] at hp
      · rintro rfl; simp [nodeAt] at hq
  refine ⟨insertRegions cs allowEmpty filter, ?_, ?_, ?_⟩
  · rcases hs with rfl | ⟨mt, ho⟩
    · exact .inl rfl
    · right
      refine ⟨mt, ?_⟩
      rw [insertRegions, occurs_append]
      exact .inl ((insertRegions_level allowEmpty filter).2 _ _ _ ho)
  · rw [insertRegions, strip_append, (strip_insertRegions allowEmpty filter).2, strip_trailing,
      strip_of_decisionFree.2 _ hcs]
    simp
  · obtain ⟨h1, h2⟩ := count_insertRegionsLoop allowEmpty filter cs
      (fun n hn => hcs n (occurs_of_mem hn))
    simp only [countStarts, countEnds] at h1 h2 ⊢
    rw [insertRegions]
    simp only [List.filter_append, List.length_append, h1, h2]
    cases allowEmpty <;> simp [trailingRegion]

/-- C10: the variant for single nodes gives every token and group, at every depth, its own region
option pair, and changes nothing else. -/
theorem C10_single_nodes (scope : M) (seq : List (Node M)) :
    SingleWrapped scope seq (insertRegionsSingle scope seq) := by
  have h : (∀ (n : Node M) (l r : List (Node M)), SingleWrapped scope l r →
      SingleWrapped scope (n :: l) (insertSingleNode scope n :: r)) ∧
      (∀ l : List (Node M), SingleWrapped scope l (insertRegionsSingle scope l)) := by
    apply Node.induct
    case hg =>
      intro cs mt ih l r h
      rw [insertSingleNode]
      exact .group mt ih h
    case htok => intro t mt l r h; rw [insertSingleNode]; exact .tok t mt h
    case hnil => rw [insertRegionsSingle]; exact .nil
    case hcons => intro n ns h1 h2; rw [insertRegionsSingle]; exact h1 _ _ h2
    all_goals intros; rw [insertSingleNode]; exact .other rfl (by assumption)
  exact h.2 seq

/-- C10 is not vacuous: the group in `sample` is a level with two accepted siblings. -/
example : Siblings sample [.tok ['('] 1, .deco [' '], .group [.group [.tok ['x'] 2] 3] 4,
    .deco [], .group [.tok ['g'] 0, .group [] 5] 6, .tok [')'] 7] :=
  .inr ⟨8, [1], by rfl⟩

/-! ## C11 -/

/-- C11: for a sequence without early exits, after insertion: at the root level every token and
group is followed by exactly one marker and there is a leading marker iff allowed at the start; the
children of every group of the result are marked in the same way, never at the start, when markers
are allowed within groups, and are unchanged otherwise; and removing the markers gives back the
original sequence (nothing else changed). -/
theorem C11_exit_placement (seq : List (Node M)) (within atStart : Bool) (h : ExitFree seq) :
    ExitsPlaced atStart (insertEarlyExit seq within atStart)
    ∧ (within = true → ∀ l mt, Occurs (insertEarlyExit seq within atStart) (.group l mt) →
        ExitsPlaced false l)
    ∧ (within = false → ∀ l mt, Occurs (insertEarlyExit seq within atStart) (.group l mt) →
        Occurs seq (.group l mt))
    ∧ removeExits (insertEarlyExit seq within atStart) = seq := by
  refine ⟨?_, ?_, ?_, ?_⟩
  · apply goodExits_placed
    cases atStart
    · simpa [insertEarlyExit] using goodExits_loop within seq h
    · simp only [insertEarlyExit, if_true, List.singleton_append, GoodExits]
      exact ⟨by simp, goodExits_loop within seq h⟩
  · rintro rfl l mt ho
    rw [insertEarlyExit, occurs_append] at ho
    rcases ho with ho | ho
    · cases atStart <;> simp [occurs_cons, not_occurs_nil] at ho
    · obtain ⟨l0, h0, rfl⟩ := occurs_group_exitLoop.2 _ _ _ h ho
      exact goodExits_placed _ _ (goodExits_loop true l0 h0)
  · rintro rfl l mt ho
    rw [insertEarlyExit, occurs_append] at ho
    rcases ho with ho | ho
    · cases atStart <;> simp [occurs_cons, not_occurs_nil] at ho
    · exact occurs_group_exitLoop_false _ _ _ ho
  · rw [insertEarlyExit, removeExits_append, removeExits_insert.2, removeExits_of_free.2 _ h]
    cases atStart <;> simp [removeExits, removeExitsN]

/-- The sample meets the hypothesis of C11, and its result has markers at two levels. -/
example : ExitFree sample := by
  intro h; have := sample_decisionFree _ h; simp [Node.isDecision] at this

example : insertEarlyExit [Node.group [.tok ['a'] 0] 1] true false
    = [Node.group [.tok ['a'] 0, .exit] 1, .exit] := by rfl

/-! ## C12 -/

/-- C12: the items of a walk are exactly the (node, path, tag) triples where the path (after the
prefix) leads to the node from the root, leaves being tagged as leaves and groups being reported
before/after as requested; they come in strict document order (so none is repeated). -/
theorem C12_walk (seq : List (Node M)) (before after : Bool) (pre : List Nat) :
    (∀ n path tag, (n, path, tag) ∈ walkWithPaths seq before after pre ↔
        ∃ q, path = pre ++ q ∧ nodeAt seq q = some n ∧ TagFor before after n tag)
    ∧ ((walkWithPaths seq before after pre).map (fun x => (x.2.1, x.2.2))).Pairwise DocLt
    ∧ (walkWithPaths seq before after pre).Nodup := by
  refine ⟨?_, ?_, ?_⟩
  · intro n path tag
    constructor
    · intro h
      obtain ⟨k, r, h1, h2, h3⟩ := (walk_sound before after).2 seq pre 0 _ h
      exact ⟨k :: r, by simpa using h1, h3, h2⟩
    · rintro ⟨q, rfl, h1, h2⟩
      cases q with
      | nil => simp [nodeAt] at h1
      | cons k r => simpa [walkWithPaths] using (walk_complete before after).2 seq pre 0 k r n tag h2 h1
  · exact (walk_pairwise before after).2 seq pre 0
  · have h := (walk_pairwise before after).2 seq pre 0
    rw [List.pairwise_map] at h
    apply h.imp
    rintro a b hab rfl
    exact docLt_irrefl _ hab

example : walkWithPaths sample false false [] ≠ [] ∧
    (walkWithPaths sample true true [9]).length = 18 := by
  constructor
  · intro h; have := congrArg List.length h; revert this; decide
  · decide

end RUSure.Props
