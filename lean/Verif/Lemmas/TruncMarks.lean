import Verif.Lemmas.Transforms
import Verif.Spec.Marks

/-!
# What truncation does to the groups
-/

namespace RUSure
open Spec
variable {M : Type}

theorem marks_leaves : (∀ n : Node M, (marksN n).filterMap Mark.leaf? = leavesN n)
    ∧ ∀ l : List (Node M), (marks l).filterMap Mark.leaf? = leaves l := by
  apply Node.induct <;> intros <;> simp_all [marksN, marks, Mark.leaf?, leaves, leavesN, List.filterMap_cons]

theorem marks_append (a b : List (Node M)) : marks (a ++ b) = marks a ++ marks b := by
  induction a with
  | nil => rfl
  | cons n a ih => simp [marks, ih]

theorem openGroups_append (st : List M) : ∀ a b : List (Mark M),
    openGroups st (a ++ b) = openGroups (openGroups st a) b := by
  intro a
  induction a generalizing st with
  | nil => intro b; rfl
  | cons m a ih => intro b; cases m <;> simp [openGroups, ih]

theorem openGroups_marks : (∀ (n : Node M) st, openGroups st (marksN n) = st)
    ∧ ∀ (l : List (Node M)) st, openGroups st (marks l) = st := by
  apply Node.induct <;> intros <;> simp_all [marksN, marks, openGroups, openGroups_append]

/-- Equal forests have equal marks, and the other way around: the marks of a sequence, read as a sequence. -/
theorem marks_prefix_inj : (∀ (n : Node M) (l' : List (Node M)) (r r' : List (Mark M)), (∀ x ∈ r'.head?, x = Mark.closing) →
      marksN n ++ r = marks l' ++ r' → ∃ l'', l' = n :: l'' ∧ r = marks l'' ++ r')
    ∧ ∀ (l l' : List (Node M)) (r r' : List (Mark M)), (∀ x ∈ r.head?, x = Mark.closing) → (∀ x ∈ r'.head?, x = Mark.closing) →
      marks l ++ r = marks l' ++ r' → l = l' ∧ r = r' := by
  have leaf : ∀ n : Node M, (∀ cs mt, n ≠ .group cs mt) → ∀ (l' : List (Node M)) (r r' : List (Mark M)),
      (∀ x ∈ r'.head?, x = Mark.closing) → [Mark.leaf n] ++ r = marks l' ++ r' →
      ∃ l'', l' = n :: l'' ∧ r = marks l'' ++ r' := by
    intro n hn l' r r' hr' h
    cases l' with
    | nil =>
      simp only [marks, List.nil_append] at h
      subst h
      have := hr' _ rfl
      cases this
    | cons n' l' =>
      cases n' with
      | group cs mt => simp [marks, marksN] at h
      | _ =>
        simp only [marks, marksN, List.cons_append, List.nil_append] at h
        injection h with h1 h2
        injection h1 with h1
        exact ⟨l', by rw [h1], h2⟩
  apply Node.induct
  case hdeco => intro t; exact leaf _ (by simp)
  case htok => intro t mt; exact leaf _ (by simp)
  case hs => exact leaf _ (by simp)
  case he => exact leaf _ (by simp)
  case hx => exact leaf _ (by simp)
  case hg =>
    intro cs mt ih l' r r' hr' h
    cases l' with
    | nil =>
      simp only [marks, marksN, List.nil_append, List.cons_append] at h
      subst h
      have := hr' _ rfl
      cases this
    | cons n' l' =>
      cases n' with
      | group cs' mt' =>
        simp only [marks, marksN, List.cons_append, List.append_assoc, List.nil_append] at h
        injection h with h1 h2
        injection h1 with h1
        obtain ⟨h3, h4⟩ := ih cs' _ _ (by simp) (by simp) h2
        injection h4 with _ h4
        exact ⟨l', by rw [h1, h3], h4⟩
      | _ => simp [marks, marksN] at h
  case hnil =>
    intro l' r r' hr hr' h
    cases l' with
    | nil => exact ⟨rfl, by simpa [marks] using h⟩
    | cons n' l' =>
      simp only [marks, List.nil_append] at h
      subst h
      cases n' <;> (have := hr _ rfl; cases this)
  case hcons =>
    intro n ns ih1 ih2 l' r r' hr hr' h
    simp only [marks, List.append_assoc] at h
    obtain ⟨l'', rfl, h2⟩ := ih1 l' _ r' hr' h
    obtain ⟨rfl, h4⟩ := ih2 l'' r r' hr hr' h2
    exact ⟨rfl, h4⟩

/-- The outcome of truncation in terms of marks, if the cut is within what is read. -/
def CutOutcome (off : Int) (k : Nat) (ms : List (Mark M)) (out : List (Node M)) : Prop :=
  ∃ pre x post os, ms = pre ++ .leaf x :: post ∧ IsTextLeaf x
    ∧ ((k : Int) + ((pre.filterMap Mark.leaf?).flatMap leafText).length < off
      ∨ ∀ y ∈ pre.filterMap Mark.leaf?, ¬ IsTextLeaf y)
    ∧ off ≤ k + ((pre.filterMap Mark.leaf?).flatMap leafText).length + (leafText x).length
    ∧ (∀ st, openGroups st pre = st ++ os)
    ∧ marks out = os.map Mark.opening
        ++ (if off = k + ((pre.filterMap Mark.leaf?).flatMap leafText).length + (leafText x).length then []
          else [.leaf (withText (pySliceFrom (leafText x)
            (off - (k + ((pre.filterMap Mark.leaf?).flatMap leafText).length))) x)])
        ++ post

theorem cut_text (off : Int) (k : Nat) (t : Text) (mk : Text → Node M)
    (hmk : ∀ t, marksN (mk t) = [.leaf (mk t)]) (hleaf : ∀ t, IsTextLeaf (mk t))
    (htext : ∀ t, leafText (mk t) = t) (hwith : ∀ t t', withText t' (mk t) = mk t')
    (h : (truncText off (some k) t mk).1 = none) :
    CutOutcome off k [.leaf (mk t)] (truncText off (some k) t mk).2 := by
  unfold truncText at h ⊢
  simp only at h ⊢
  by_cases h1 : off - (k : Int) < t.length
  · rw [if_pos h1]
    refine ⟨[], mk t, [], [], rfl, hleaf t, .inr (by simp), by simp [htext]; omega, fun st => by simp [openGroups], ?_⟩
    simp only [List.filterMap_nil, List.flatMap_nil, List.length_nil, htext, hwith]
    rw [if_neg (by push_cast; omega)]
    simp [marks, hmk]
  · rw [if_neg h1] at h ⊢
    by_cases h2 : off - (k : Int) = t.length
    · rw [if_pos h2]
      refine ⟨[], mk t, [], [], rfl, hleaf t, .inr (by simp), by simp [htext]; omega, fun st => by simp [openGroups], ?_⟩
      simp only [List.filterMap_nil, List.flatMap_nil, List.length_nil, htext]
      rw [if_pos (by push_cast; omega)]
      simp [marks]
    · rw [if_neg h2] at h
      cases h

theorem cut_outcome (off : Int) :
    (∀ (n : Node M) (k : Nat), (truncNode off (some k) n).1 = none →
      CutOutcome off k (marksN n) (truncNode off (some k) n).2) ∧
    (∀ (l : List (Node M)) (k : Nat), (truncL off (some k) l).1 = none →
      CutOutcome off k (marks l) (truncL off (some k) l).2) := by
  apply Node.induct
  case hdeco =>
    intro t k h
    exact cut_text off k t (fun t' => .deco t') (fun _ => rfl) (fun _ => trivial) (fun _ => rfl) (fun _ _ => rfl) h
  case htok =>
    intro t mt k h
    exact cut_text off k t (fun t' => .tok t' mt) (fun _ => rfl) (fun _ => trivial) (fun _ => rfl) (fun _ _ => rfl) h
  case hs => intro k h; cases h
  case he => intro k h; cases h
  case hx => intro k h; cases h
  case hg =>
    intro cs mt ih k h
    have ih := ih k
    simp only [truncNode] at h ⊢
    cases hc : (truncL off (some k) cs).1 with
    | some k' => rw [hc] at h; cases h
    | none =>
      obtain ⟨pre, x, post, os, h1, h2, h3, h4, h5, h6⟩ := ih hc
      refine ⟨.opening mt :: pre, x, post ++ [.closing], mt :: os, ?_, h2, h3, h4, fun st => ?_, ?_⟩
      · simp [marksN, h1]
      · rw [openGroups, h5]
        simp
      · simp only [marks, marksN, h6, List.filterMap_cons, Mark.leaf?]
        simp
  case hnil => intro k h; cases h
  case hcons =>
    intro n ns ih1 ih2 k h
    simp only [truncL] at h ⊢
    cases hn : (truncNode off (some k) n).1 with
    | none =>
      rw [(trunc_none off).2 ns]
      obtain ⟨pre, x, post, os, h1, h2, h3, h4, h5, h6⟩ := ih1 k hn
      refine ⟨pre, x, post ++ marks ns, os, by simp [marks, h1], h2, h3, h4, h5, ?_⟩
      simp only [marks_append, h6, List.append_assoc]
    | some k' =>
      rw [hn] at h
      obtain ⟨pre, x, post, os, h1, h2, h3, h4, h5, h6⟩ := ih2 k' h
      have hout := (trunc_outcome off).1 n k
      unfold TruncOutcome at hout
      simp only [hn] at hout
      obtain ⟨hk, hnil, hlt⟩ := hout
      have e : ((marksN n ++ pre).filterMap Mark.leaf?).flatMap leafText
          = (leavesN n).flatMap leafText ++ (pre.filterMap Mark.leaf?).flatMap leafText := by
        rw [List.filterMap_append, marks_leaves.1, List.flatMap_append]
      have el : (((marksN n ++ pre).filterMap Mark.leaf?).flatMap leafText).length + k
          = k' + ((pre.filterMap Mark.leaf?).flatMap leafText).length := by
        rw [e, List.length_append]
        omega
      refine ⟨marksN n ++ pre, x, post, os, by simp [marks, h1], h2, ?_, by omega, fun st => ?_, ?_⟩
      · rcases h3 with h3 | h3
        · left; omega
        · rcases hlt with hlt | hlt
          · left
            rw [flatMap_noText h3] at el
            simp only [List.length_nil] at el
            omega
          · right
            rw [List.filterMap_append, marks_leaves.1]
            intro y hy
            rcases List.mem_append.1 hy with hy | hy
            · exact hlt y hy
            · exact h3 y hy
      · rw [openGroups_append, openGroups_marks.1, h5]
      · rw [hnil, List.nil_append, h6]
        have e1 : ((k : Int) + (((marksN n ++ pre).filterMap Mark.leaf?).flatMap leafText).length)
            = k' + ((pre.filterMap Mark.leaf?).flatMap leafText).length := by omega
        rw [e1]

end RUSure
