import Verif.Lemmas.GatedDag
import Verif.Spec.Drawing
import Mathlib.Tactic.Linarith
import Mathlib.Tactic.Ring

/-!
# The calls of `render_dag`
-/

namespace RUSure.Draw
open RUSure.Spec RUSure.Lemmas

theorem collect_some {α β : Type} {f : α → Option β} {xs : List α} {ys : List β}
    (h : collect f xs = some ys) : List.Forall₂ (fun x y => f x = some y) xs ys := by
  induction xs generalizing ys with
  | nil =>
    simp only [collect, Option.some.injEq] at h
    subst h
    exact .nil
  | cons x xs ih =>
    rw [collect] at h
    split at h
    · rename_i y ys' h1 h2
      cases h
      exact .cons h1 (ih h2)
    · cases h

theorem collect_exists {α β : Type} {f : α → Option β} {xs : List α} (h : ∀ x ∈ xs, ∃ y, f x = some y) :
    ∃ ys, collect f xs = some ys := by
  induction xs with
  | nil => exact ⟨[], rfl⟩
  | cons x xs ih =>
    obtain ⟨y, hy⟩ := h x (List.mem_cons_self ..)
    obtain ⟨ys, hys⟩ := ih fun x hx => h x (List.mem_cons_of_mem _ hx)
    exact ⟨y :: ys, by rw [collect, hy, hys]⟩

theorem Forall₂.of_mem {α β : Type} {P Q : α → β → Prop} {xs : List α} {ys : List β}
    (h : List.Forall₂ P xs ys) (hpq : ∀ x ∈ xs, ∀ y, P x y → Q x y) : List.Forall₂ Q xs ys := by
  induction h with
  | nil => exact .nil
  | cons h1 _ ih =>
    exact .cons (hpq _ (List.mem_cons_self ..) _ h1) (ih fun x hx => hpq x (List.mem_cons_of_mem _ hx))

section
variable {S K V I : Type} [DecidableEq S]

theorem reachable_iff {d : Dag S K V I} (ht : DagTopo d) (s : S) :
    d.isReachable s = true ↔ OnSolution d s := by
  rw [Dag.isReachable, Bool.and_eq_true, decide_eq_true_eq, decide_eq_true_eq, mem_forward ht,
    mem_backward ht]
  constructor
  · rintro ⟨⟨p, hp⟩, ⟨q, hq⟩⟩
    exact ⟨p, q, solution_iff_relevant.mpr (hp.append hq), (solution_iff_relevant.mpr hp).1,
      (solution_iff_relevant.mpr hq).1⟩
  · rintro ⟨p, q, h, hp, hq⟩
    exact ⟨⟨p, solution_iff_relevant.mp ⟨hp, fun e he => h.2 e (List.mem_append_left _ he)⟩⟩,
      ⟨q, solution_iff_relevant.mp ⟨hq, fun e he => h.2 e (List.mem_append_right _ he)⟩⟩⟩

variable [DecidableEq K] [DecidableEq V]

theorem stateCall_drawn {d : Dag S K V I} (ht : DagTopo d) {a : Annotator S K V I} {s : S} {c : Call}
    (h : stateCall a d.isReachable s = some c) : StateDrawn d a s c := by
  unfold stateCall at h
  split at h
  · cases h
  · rename_i n hn
    cases h
    refine ⟨n, _, hn, by rw [List.append_assoc], ?_, ?_⟩
    · rw [← reachable_iff ht]
      cases d.isReachable s <;> decide
    · rw [← reachable_iff ht]
      cases d.isReachable s <;> decide

theorem sameEdge_iff (e f : Edge S K V I) : sameEdge e f = true ↔ SameEdge e f := by
  simp [sameEdge, SameEdge, and_assoc]

theorem scale_le {a b : ℚ} (hb : 0 ≤ b) (ha : 0 ≤ a) (ha' : a ≤ 1) : 0 ≤ a * b ∧ a * b ≤ b := by
  refine ⟨mul_nonneg ha hb, ?_⟩
  have := mul_le_mul_of_nonneg_right ha' hb
  linarith

theorem between_scale {u v a : ℚ} (ha : 0 ≤ a) (ha' : a ≤ 1) :
    min u v ≤ u + a * (v - u) ∧ u + a * (v - u) ≤ max u v := by
  rcases le_total u v with h | h
  · rw [min_eq_left h, max_eq_right h]
    have := scale_le (sub_nonneg.mpr h) ha ha'
    constructor <;> linarith
  · rw [min_eq_right h, max_eq_left h]
    have := scale_le (sub_nonneg.mpr h) ha ha'
    constructor <;> nlinarith

theorem edgeCalls_drawn {d : Dag S K V I} (ht : DagTopo d) {a : Annotator S K V I}
    {emphasized : List (Edge S K V I)} {e : Edge S K V I} {cs : List Call}
    (h : edgeCalls a d.isReachable emphasized e = some cs) : EdgeDrawn d a emphasized e cs := by
  unfold edgeCalls at h
  split at h
  · rename_i n s t hn hs ht'
    cases h
    have tags : ("highlight".toList ∈ ["edge-annotation".toList] ++ emphasisTags emphasized e
          ++ [if d.isReachable e.source && d.isReachable e.dest then "reachable-edge".toList
            else "unreachable-edge".toList] ++ ["hover_to_top".toList] ↔ ∃ f ∈ emphasized, SameEdge e f)
        ∧ ("lowlight".toList ∈ ["edge-annotation".toList] ++ emphasisTags emphasized e
          ++ [if d.isReachable e.source && d.isReachable e.dest then "reachable-edge".toList
            else "unreachable-edge".toList] ++ ["hover_to_top".toList] ↔
            emphasized ≠ [] ∧ ∀ f ∈ emphasized, ¬ SameEdge e f)
        ∧ ("reachable-edge".toList ∈ ["edge-annotation".toList] ++ emphasisTags emphasized e
          ++ [if d.isReachable e.source && d.isReachable e.dest then "reachable-edge".toList
            else "unreachable-edge".toList] ++ ["hover_to_top".toList] ↔
            OnSolution d e.source ∧ OnSolution d e.dest) := by
      rw [← reachable_iff ht, ← reachable_iff ht]
      have hany : (emphasized.any (sameEdge e) = true ↔ ∃ f ∈ emphasized, SameEdge e f) := by
        rw [List.any_eq_true]
        exact exists_congr fun f => and_congr_right fun _ => sameEdge_iff e f
      have hall : (emphasized.any (sameEdge e) = false ↔ ∀ f ∈ emphasized, ¬ SameEdge e f) := by
        rw [← Bool.not_eq_true, hany]
        push Not
        rfl
      rw [← hany, ← hall]
      have hnil : emphasized = [] → emphasized.any (sameEdge e) = false := by rintro rfl; rfl
      have htags : emphasisTags emphasized e = if emphasized = [] then [] else
          if emphasized.any (sameEdge e) then ["highlight".toList] else ["lowlight".toList] := by
        cases emphasized <;> simp [emphasisTags]
      rw [htags]
      by_cases hemp : emphasized = []
      · rw [if_pos hemp, hnil hemp]
        simp only [hemp, ne_eq, not_true_eq_false, false_and]
        cases d.isReachable e.source <;> cases d.isReachable e.dest <;> decide
      · rw [if_neg hemp]
        simp only [hemp, ne_eq, not_false_eq_true, true_and]
        cases emphasized.any (sameEdge e) <;> cases d.isReachable e.source <;>
          cases d.isReachable e.dest <;> decide
    obtain ⟨t1, t2, t3⟩ := tags
    have hop : ∀ x : List Text, n.tags ++ ["edge-annotation".toList] ++ emphasisTags emphasized e
        ++ [if d.isReachable e.source && d.isReachable e.dest then "reachable-edge".toList
          else "unreachable-edge".toList] ++ x
        = n.tags ++ (["edge-annotation".toList] ++ emphasisTags emphasized e
          ++ [if d.isReachable e.source && d.isReachable e.dest then "reachable-edge".toList
            else "unreachable-edge".toList] ++ x) := by
      intro x
      simp only [List.append_assoc]
    rw [hop]
    cases hax : n.axis with
    | horizontal =>
      simp only [edgePoints, hax]
      refine ⟨n, s, t, _, _, _, _, _, _, _, _, hn, hs, ht', rfl, ?_, ?_, ?_, ?_, ?_,
        t1, t2, t3⟩
      · exact Or.inr (by simp [interpolate, Point.shift])
      · exact Or.inl (by simp [interpolate, Point.shift])
      · exact Or.inr (by simp [interpolate, Point.shift])
      · intro w1 h1 w2 h2 s0 s1 e0 e1
        rw [hax]
        have a1 := scale_le h1 s0 s1
        have a2 := scale_le h2 e0 e1
        refine ⟨⟨?_, ?_, ?_⟩, ⟨?_, ?_, ?_⟩⟩ <;> simp [interpolate, Box.pointWithin] <;> linarith
      · intro a0 a1
        refine Or.inl ?_
        split_ifs
        · refine ⟨by simp [interpolate, Point.shift], by simp [interpolate, Point.shift], ?_⟩
          have := between_scale (u := (s.bounds.pointWithin 1 n.start).y)
            (v := (t.bounds.pointWithin 0 n.stop).y) a0 a1
          simpa [interpolate, Point.shift] using this
        · refine ⟨rfl, by simp [interpolate, Point.shift], ?_⟩
          exact ⟨min_le_left _ _, le_max_left _ _⟩
    | vertical =>
      simp only [edgePoints, hax]
      refine ⟨n, s, t, _, _, _, _, _, _, _, _, hn, hs, ht', rfl, ?_, ?_, ?_, ?_, ?_,
        t1, t2, t3⟩
      · exact Or.inl (by simp [interpolate, Point.shift])
      · exact Or.inr (by simp [interpolate, Point.shift])
      · exact Or.inl (by simp [interpolate, Point.shift])
      · intro w1 h1 w2 h2 s0 s1 e0 e1
        rw [hax]
        have a1 := scale_le w1 s0 s1
        have a2 := scale_le w2 e0 e1
        refine ⟨⟨?_, ?_, ?_⟩, ⟨?_, ?_, ?_⟩⟩ <;> simp [interpolate, Box.pointWithin] <;> linarith
      · intro a0 a1
        refine Or.inr ⟨by simp [interpolate, Point.shift], by simp [interpolate, Point.shift], ?_⟩
        have := between_scale (u := (s.bounds.pointWithin n.start 1).x)
          (v := (t.bounds.pointWithin n.stop 0).x) a0 a1
        simpa [interpolate, Point.shift] using this
  · cases h

end

end RUSure.Draw
