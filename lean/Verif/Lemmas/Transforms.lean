import Verif.Lemmas.Tree

namespace RUSure
open Spec
variable {M : Type}

/-! ### text preservation -/

theorem render_consMatchType (mt : M) (n : Node (List M)) :
    renderText (consMatchType mt n) = renderText n := by
  cases n <;> simp [consMatchType, renderText]

theorem render_flattenSingleton :
    (∀ n : Node M, renderText (flattenSingletonNode n) = renderText n) ∧
    (∀ l : List (Node M), renderTextL (flattenSingletonGroups l) = renderTextL l) := by
  apply Node.induct
  case hg =>
    intro cs mt ih
    simp only [flattenSingletonNode]
    split
    · rename_i c c' hc
      rw [hc] at ih
      simp only [renderTextL_singleton] at ih
      split
      · rw [render_consMatchType, ih]; simp [renderText, renderTextL]
      · simp [renderText, renderTextL, ih]
    · simp [renderText, ih]
  all_goals intros
  all_goals simp_all [flattenSingletonNode, flattenSingletonGroups, renderText, renderTextL]

theorem render_insertEarlyExit :
    (∀ (n : Node M) (w : Bool), renderTextL (insertEarlyExitNode w n) = renderText n) ∧
    (∀ (l : List (Node M)) (w : Bool), renderTextL (insertEarlyExitLoop w l) = renderTextL l) := by
  apply Node.induct
  case hg =>
    intro cs mt ih w
    simp only [insertEarlyExitNode]
    split <;> simp [renderTextL, renderText, ih]
  case hcons =>
    intro n ns h1 h2 w
    rw [insertEarlyExitLoop, renderTextL_append, h1, h2]; rfl
  all_goals intros
  all_goals simp_all [insertEarlyExitNode, insertEarlyExitLoop, renderText, renderTextL]

theorem render_trailing (ae : Bool) : renderTextL (trailingRegion ae : List (Node M)) = [] := by
  cases ae <;> simp [trailingRegion, renderTextL, renderText]

theorem render_wrap (ae acc : Bool) (n : Node M) :
    renderTextL (wrapRegion ae acc n) = renderText n := by
  cases ae <;> cases acc <;> simp [wrapRegion, renderTextL, renderText]

theorem render_insertRegions (ae : Bool) (f : Node M → Bool) :
    (∀ n : Node M, renderTextL (insertRegionsNode ae f n) = renderText n) ∧
    (∀ l : List (Node M), renderTextL (insertRegionsLoop ae f l) = renderTextL l) := by
  apply Node.induct <;> intros <;>
    simp_all [insertRegionsNode, insertRegionsLoop, renderText, renderTextL, renderTextL_append,
      render_wrap, render_trailing]

theorem render_insertSingle (s : M) :
    (∀ n : Node M, renderText (insertSingleNode s n) = renderText n) ∧
    (∀ l : List (Node M), renderTextL (insertRegionsSingle s l) = renderTextL l) := by
  apply Node.induct <;> intros <;>
    simp_all [insertSingleNode, insertRegionsSingle, renderText, renderTextL]

theorem render_strip :
    (∀ n : Node M, renderTextL (stripNode n) = renderText n) ∧
    (∀ l : List (Node M), renderTextL (stripDecisions l) = renderTextL l) := by
  apply Node.induct <;> intros <;>
    simp_all [stripNode, stripDecisions, renderText, renderTextL, renderTextL_append]

/-! ### stripping -/

theorem strip_append (a b : List (Node M)) :
    stripDecisions (a ++ b) = stripDecisions a ++ stripDecisions b := by
  induction a with
  | nil => rfl
  | cons n ns ih => simp [stripDecisions, ih]

theorem strip_strip :
    (∀ n : Node M, stripDecisions (stripNode n) = stripNode n) ∧
    (∀ l : List (Node M), stripDecisions (stripDecisions l) = stripDecisions l) := by
  apply Node.induct <;> intros <;> simp_all [stripNode, stripDecisions, strip_append]

theorem decisionFree_nil : DecisionFree ([] : List (Node M)) :=
  fun _ h => absurd h (not_occurs_nil _)

theorem decisionFree_append (a b : List (Node M)) :
    DecisionFree (a ++ b) ↔ DecisionFree a ∧ DecisionFree b := by
  unfold DecisionFree
  simp only [occurs_append]
  grind

theorem strip_decisionFree :
    (∀ n : Node M, DecisionFree (stripNode n)) ∧
    (∀ l : List (Node M), DecisionFree (stripDecisions l)) := by
  apply Node.induct <;> intros <;>
    simp_all [stripNode, stripDecisions, decisionFree_cons, decisionFree_nil, decisionFree_append,
      Node.isDecision]

theorem strip_of_decisionFree :
    (∀ n : Node M, DecisionFree [n] → stripNode n = [n]) ∧
    (∀ l : List (Node M), DecisionFree l → stripDecisions l = l) := by
  apply Node.induct
  case hcons =>
    intro n ns ih1 ih2 h
    rw [decisionFree_cons] at h
    rw [stripDecisions, ih2 h.2.2, ih1 ((decisionFree_cons ..).2 ⟨h.1, h.2.1, decisionFree_nil⟩)]
    rfl
  case hg =>
    intro cs mt ih h
    rw [decisionFree_cons] at h
    rw [stripNode, ih (h.2.1 _ _ rfl)]
  all_goals intros
  all_goals simp_all [stripNode, stripDecisions, decisionFree_cons, decisionFree_nil,
      Node.isDecision]

theorem strip_insertEarlyExit :
    (∀ (n : Node M) (w : Bool), stripDecisions (insertEarlyExitNode w n) = stripNode n) ∧
    (∀ (l : List (Node M)) (w : Bool),
      stripDecisions (insertEarlyExitLoop w l) = stripDecisions l) := by
  apply Node.induct
  case hg =>
    intro cs mt ih w
    simp only [insertEarlyExitNode]
    split <;> simp [stripDecisions, stripNode, ih]
  case hcons =>
    intro n ns h1 h2 w
    rw [insertEarlyExitLoop, strip_append, h1, h2]; rfl
  all_goals intros
  all_goals simp_all [insertEarlyExitNode, insertEarlyExitLoop, stripNode, stripDecisions]

theorem strip_trailing (ae : Bool) : stripDecisions (trailingRegion ae : List (Node M)) = [] := by
  cases ae <;> simp [trailingRegion, stripDecisions, stripNode]

theorem strip_wrap (ae acc : Bool) (n : Node M) :
    stripDecisions (wrapRegion ae acc n) = stripNode n := by
  cases ae <;> cases acc <;> simp [wrapRegion, stripDecisions, stripNode]

theorem strip_insertRegions (ae : Bool) (f : Node M → Bool) :
    (∀ n : Node M, stripDecisions (insertRegionsNode ae f n) = stripNode n) ∧
    (∀ l : List (Node M), stripDecisions (insertRegionsLoop ae f l) = stripDecisions l) := by
  apply Node.induct <;> intros <;>
    simp_all [insertRegionsNode, insertRegionsLoop, stripNode, stripDecisions, strip_append,
      strip_wrap, strip_trailing]

/-! ### truncation -/

/-- The `assert` of `transforms.py:313`: nothing is produced while not past the start point. -/
theorem truncL_nil_of_some (off : Int) :
    (∀ (n : Node M) (st : TruncState) (k : Nat), (truncNode off st n).1 = some k →
      (truncNode off st n).2 = []) ∧
    (∀ (l : List (Node M)) (st : TruncState) (k : Nat), (truncL off st l).1 = some k →
      (truncL off st l).2 = []) := by
  have ht : ∀ (t : Text) (mk : Text → Node M) (st : TruncState) (k : Nat),
      (truncText off st t mk).1 = some k → (truncText off st t mk).2 = [] := by
    intro t mk st k h
    unfold truncText at h ⊢
    grind
  have hc : ∀ (n : Node M) (st : TruncState) (k : Nat),
      (truncCtl st n).1 = some k → (truncCtl st n).2 = [] := by
    intro n st k h
    unfold truncCtl at h ⊢
    grind
  have hnone : (∀ (n : Node M), (truncNode off none n).1 = none) ∧
      (∀ (l : List (Node M)), (truncL off none l).1 = none) := by
    apply Node.induct <;> intros <;> simp_all [truncNode, truncL, truncText, truncCtl]
  apply Node.induct
  case hg =>
    intro cs mt ih st k h
    simp only [truncNode] at h ⊢
    split at h <;> simp_all
  case hcons =>
    intro n ns ih1 ih2 st k h
    simp only [truncL] at h ⊢
    have h1 : ∃ k', (truncNode off st n).1 = some k' := by
      cases h1 : (truncNode off st n).1 with
      | none => rw [h1, hnone.2 ns] at h; cases h
      | some k' => exact ⟨k', rfl⟩
    obtain ⟨k', h1⟩ := h1
    rw [ih1 _ _ h1, ih2 _ _ h]; rfl
  all_goals intros
  all_goals first
    | exact ht _ _ _ _ (by assumption)
    | exact hc _ _ _ (by assumption)
    | simp_all [truncL]

theorem trunc_none (off : Int) :
    (∀ n : Node M, truncNode off none n = (none, [n])) ∧
    (∀ l : List (Node M), truncL off none l = (none, l)) := by
  apply Node.induct <;> intros <;> simp_all [truncNode, truncL, truncText, truncCtl]

/-- The outcome of truncation in terms of leaves, starting from `k` characters seen. -/
def TruncOutcome (off : Int) (k : Nat) (ls : List (Node M)) (r : TruncState × List (Node M)) :
    Prop :=
  match r.1 with
  | some k' =>
      k' = k + (ls.flatMap leafText).length ∧ r.2 = [] ∧
      ((k' : Int) < off ∨ (∀ x ∈ ls, ¬ IsTextLeaf x))
  | none => ∃ pre n rest, ls = pre ++ n :: rest ∧ IsTextLeaf n
      ∧ ((k : Int) + (pre.flatMap leafText).length < off ∨ (∀ x ∈ pre, ¬ IsTextLeaf x))
      ∧ off ≤ k + (pre.flatMap leafText).length + (leafText n).length
      ∧ leaves r.2 =
          (if off = k + (pre.flatMap leafText).length + (leafText n).length then []
           else [withText (pySliceFrom (leafText n) (off - (k + (pre.flatMap leafText).length))) n])
          ++ rest

theorem noText_of_not {x : Node M} (h : ¬ IsTextLeaf x) : leafText x = [] := by
  cases x <;> simp_all [IsTextLeaf, leafText]

theorem flatMap_noText {l : List (Node M)} (h : ∀ x ∈ l, ¬ IsTextLeaf x) :
    l.flatMap leafText = [] := by
  simp only [List.flatMap_eq_nil_iff]
  intro x hx; exact noText_of_not (h x hx)

theorem truncOutcome_text (off : Int) (k : Nat) (t : Text) (mk : Text → Node M)
    (hmk : ∀ t, leavesN (mk t) = [mk t]) (hleaf : ∀ t, IsTextLeaf (mk t))
    (htext : ∀ t, leafText (mk t) = t) (hwith : ∀ t t', withText t' (mk t) = mk t') :
    TruncOutcome off k [mk t] (truncText off (some k) t mk) := by
  unfold truncText TruncOutcome
  simp only
  split
  · rename_i h
    split at h
    · cases h
    · split at h
      · cases h
      · simp at h; subst h; simp [htext, hleaf]; grind
  · rename_i h
    split at h
    · refine ⟨[], mk t, [], rfl, hleaf t, .inr (by simp), ?_, ?_⟩
      · simp [htext]; omega
      · simp [leaves, *]; omega
    · split at h
      · refine ⟨[], mk t, [], rfl, hleaf t, .inr (by simp), ?_, ?_⟩
        · simp [htext]; omega
        · simp [leaves, *]; omega
      · cases h

theorem truncOutcome_ctl (off : Int) (k : Nat) (n : Node M) (h : ¬ IsTextLeaf n) :
    TruncOutcome off k [n] (truncCtl (some k) n) := by
  unfold truncCtl TruncOutcome
  simp [noText_of_not h, h]

theorem trunc_outcome (off : Int) :
    (∀ (n : Node M) (k : Nat), TruncOutcome off k (leavesN n) (truncNode off (some k) n)) ∧
    (∀ (l : List (Node M)) (k : Nat), TruncOutcome off k (leaves l) (truncL off (some k) l)) := by
  apply Node.induct
  case hdeco =>
    intro t k
    exact truncOutcome_text off k t (fun t' => .deco t') (fun _ => rfl) (fun _ => trivial)
      (fun _ => rfl) (fun _ _ => rfl)
  case htok =>
    intro t mt k
    exact truncOutcome_text off k t (fun t' => .tok t' mt) (fun _ => rfl) (fun _ => trivial)
      (fun _ => rfl) (fun _ _ => rfl)
  case hs => intro k; exact truncOutcome_ctl off k _ (fun h => h)
  case he => intro k; exact truncOutcome_ctl off k _ (fun h => h)
  case hx => intro k; exact truncOutcome_ctl off k _ (fun h => h)
  case hg =>
    intro cs mt ih k
    have ih := ih k
    unfold TruncOutcome at ih ⊢
    simp only [truncNode]
    cases h : (truncL off (some k) cs).1 with
    | none => simpa [h, leaves, leavesN] using ih
    | some k' => simp only [h, leavesN] at ih ⊢; exact ⟨ih.1, trivial, ih.2.2⟩
  case hnil => intro k; simp [TruncOutcome, truncL, leaves]
  case hcons =>
    intro n ns ih1 ih2 k
    have ih1 := ih1 k
    simp only [truncL]
    cases h : (truncNode off (some k) n).1 with
    | none =>
      rw [(trunc_none off).2 ns]
      unfold TruncOutcome at ih1 ⊢
      simp only [h] at ih1 ⊢
      obtain ⟨pre, x, rest, h1, h2, h3, h4, h5⟩ := ih1
      refine ⟨pre, x, rest ++ leaves ns, by simp [leaves, h1], h2, h3, h4, ?_⟩
      rw [leaves_append, h5]; simp
    | some k' =>
      have ih2 := ih2 k'
      have hn := (truncL_nil_of_some off).1 n _ _ h
      unfold TruncOutcome at ih1 ih2 ⊢
      simp only [h] at ih1
      simp only [hn, List.nil_append]
      obtain ⟨hk, -, hlt⟩ := ih1
      cases h' : (truncL off (some k') ns).1 with
      | some k'' =>
        simp only [h'] at ih2
        simp only
        obtain ⟨hk', hnil, hlt'⟩ := ih2
        refine ⟨?_, hnil, ?_⟩
        · simp [leaves, hk', hk]; omega
        · rcases hlt' with hlt' | hlt'
          · exact .inl hlt'
          · rcases hlt with hlt | hlt
            · left; rw [flatMap_noText hlt'] at hk'; simp at hk'; omega
            · right; intro x hx; simp [leaves] at hx; grind
      | none =>
        simp only [h'] at ih2
        simp only
        obtain ⟨pre, x, rest, h1, h2, h3, h4, h5⟩ := ih2
        refine ⟨leavesN n ++ pre, x, rest, by simp [leaves, h1], h2, ?_, ?_, ?_⟩
        · simp only [List.flatMap_append, List.length_append]
          rcases h3 with h3 | h3
          · left; omega
          · rw [flatMap_noText h3]
            rcases hlt with hlt | hlt
            · left; simp only [List.length_nil]; omega
            · right; intro y hy; simp at hy; grind
        · simp only [List.flatMap_append, List.length_append]; omega
        · rw [h5]
          simp only [List.flatMap_append, List.length_append]
          have e : (k' : Int) + ((pre.flatMap leafText).length : Int)
              = k + (((leavesN n).flatMap leafText).length + (pre.flatMap leafText).length : Nat) := by
            omega
          rw [e]

/-! ### singleton groups -/

/-- Rebuilds nested groups from a tuple of match types. -/
def nest (n : M → Node M) : List M → Node M
  | [] => .rstart
  | [m] => n m
  | m :: ms => .group [nest n ms] m

theorem nest_cons_cons (n : M → Node M) (m m' : M) (ms : List M) :
    nest n (m :: m' :: ms) = .group [nest n (m' :: ms)] m := rfl

mutual
/-- Undoes `flattenSingletonNode`: expands a tuple of match types to nested groups. -/
def expandNode : Node (List M) → Node M
  | .group cs mts => nest (fun m => .group (expandGroups cs) m) mts
  | .tok t mts => nest (fun m => .tok t m) mts
  | .deco t => .deco t
  | .rstart => .rstart
  | .rend => .rend
  | .exit => .exit
/-- Undoes `flattenSingletonGroups`. -/
def expandGroups : List (Node (List M)) → List (Node M)
  | [] => []
  | n :: ns => expandNode n :: expandGroups ns
end

/-- Tokens and groups carry a nonempty tuple. -/
def HasTuple : Node (List M) → Prop
  | .tok _ mts => mts ≠ []
  | .group _ mts => mts ≠ []
  | _ => False

theorem expand_consMatchType (mt : M) (n : Node (List M)) (h : HasTuple n) :
    expandNode (consMatchType mt n) = .group [expandNode n] mt := by
  cases n with
  | tok t mts => cases mts with
    | nil => exact absurd rfl h
    | cons m ms => simp [consMatchType, expandNode, nest_cons_cons]
  | group cs mts => cases mts with
    | nil => exact absurd rfl h
    | cons m ms => simp [consMatchType, expandNode, nest_cons_cons]
  | _ => exact absurd h id

theorem hasTuple_flattenSingleton :
    (∀ n : Node M, n.isTokOrGroup = true → HasTuple (flattenSingletonNode n)) ∧
    (∀ l : List (Node M), ∀ c, l = [c] → c.isTokOrGroup = true →
      ∃ c', flattenSingletonGroups l = [c'] ∧ HasTuple c') := by
  apply Node.induct
  case hg =>
    intro cs mt ih hx
    clear hx
    simp only [flattenSingletonNode]
    split
    · rename_i c c' hc
      split
      · rename_i ht
        obtain ⟨c'', h1, h2⟩ := ih c rfl ht
        rw [hc] at h1
        simp at h1; subst h1
        cases c' <;> simp_all [consMatchType, HasTuple]
      · simp [HasTuple]
    · simp [HasTuple]
  case hcons =>
    intro n ns ih1 ih2 c h hc
    simp at h
    obtain ⟨rfl, rfl⟩ := h
    exact ⟨_, rfl, ih1 hc⟩
  all_goals simp_all [flattenSingletonNode, HasTuple, Node.isTokOrGroup]

theorem expand_flattenSingleton :
    (∀ n : Node M, expandNode (flattenSingletonNode n) = n) ∧
    (∀ l : List (Node M), expandGroups (flattenSingletonGroups l) = l) := by
  apply Node.induct
  case hg =>
    intro cs mt ih
    simp only [flattenSingletonNode]
    split
    · rename_i c c' hc
      rw [hc] at ih
      have ih' : expandNode c' = c := by simpa [expandGroups] using ih
      split
      · rename_i ht
        obtain ⟨c'', h1, h2⟩ := hasTuple_flattenSingleton.2 [c] c rfl ht
        rw [hc] at h1
        simp at h1; subst h1
        rw [expand_consMatchType _ _ h2, ih']
      · simp [expandNode, nest, expandGroups, ih']
    · simp [expandNode, nest, ih]
  all_goals intros
  all_goals simp_all [expandNode, flattenSingletonNode, expandGroups, flattenSingletonGroups, nest]

end RUSure
