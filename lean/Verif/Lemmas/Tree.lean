import Verif.Spec.Tree

namespace RUSure
open Spec
variable {M : Type}

/-- Simultaneous induction on nodes and node lists. -/
theorem Node.induct {P : Node M → Prop} {Q : List (Node M) → Prop}
    (hdeco : ∀ t, P (.deco t)) (htok : ∀ t mt, P (.tok t mt)) (hs : P .rstart) (he : P .rend)
    (hx : P .exit) (hg : ∀ cs mt, Q cs → P (.group cs mt)) (hnil : Q [])
    (hcons : ∀ n ns, P n → Q ns → Q (n :: ns)) : (∀ n, P n) ∧ (∀ l, Q l) := by
  refine ⟨fun n => ?_, fun l => ?_⟩
  · exact Node.rec (motive_1 := P) (motive_2 := Q) hdeco htok hs he hx hg hnil hcons n
  · exact Node.rec_1 (motive_1 := P) (motive_2 := Q) hdeco htok hs he hx hg hnil hcons l

theorem leaves_append (a b : List (Node M)) : leaves (a ++ b) = leaves a ++ leaves b := by
  induction a with
  | nil => rfl
  | cons n ns ih => simp [leaves, ih]

theorem renderTextL_append (a b : List (Node M)) :
    renderTextL (a ++ b) = renderTextL a ++ renderTextL b := by
  induction a with
  | nil => rfl
  | cons n ns ih => simp [renderTextL, ih]

theorem text_append (a b : List (Node M)) : text (a ++ b) = text a ++ text b := by
  simp [text, leaves_append]

theorem render_eq_text :
    (∀ n : Node M, renderText n = (leavesN n).flatMap leafText) ∧
    (∀ l : List (Node M), renderTextL l = text l) := by
  apply Node.induct <;> intros <;> simp_all [renderText, leavesN, leafText, renderTextL, leaves, text]

theorem flattenGroups_eq_leaves :
    (∀ n : Node M, flattenNode n = leavesN n) ∧ (∀ l : List (Node M), flattenGroups l = leaves l) := by
  apply Node.induct <;> intros <;> simp_all [flattenNode, flattenGroups, leavesN, leaves]

theorem renderTextL_singleton (n : Node M) : renderTextL [n] = renderText n := by
  simp [renderTextL]

theorem leavesN_leaf :
    (∀ n : Node M, ∀ x ∈ leavesN n, leavesN x = [x]) ∧
    (∀ l : List (Node M), ∀ x ∈ leaves l, leavesN x = [x]) := by
  apply Node.induct <;> intros <;> simp_all [leavesN, leaves]
  rename_i h; rcases h with h | h <;> simp_all

theorem leaves_leaves (l : List (Node M)) : leaves (leaves l) = leaves l := by
  have h := (leavesN_leaf (M := M)).2 l
  generalize leaves l = xs at h
  induction xs with
  | nil => rfl
  | cons x xs ih => simp_all [leaves]

/-! ### nodeAt -/

theorem nodeAt_cons_cons (seq : List (Node M)) (i j : Nat) (p : List Nat) :
    nodeAt seq (i :: j :: p) =
      match seq[i]? with
      | some (.group cs _) => nodeAt cs (j :: p)
      | _ => none := rfl

theorem nodeAt_append (p : List Nat) : ∀ (seq : List (Node M)) (q : List Nat), p ≠ [] → q ≠ [] →
    nodeAt seq (p ++ q) = match nodeAt seq p with
      | some (.group cs _) => nodeAt cs q
      | _ => none := by
  induction p with
  | nil => intro _ _ h; exact absurd rfl h
  | cons i p ih =>
    intro seq q _ hq
    cases p with
    | nil =>
      cases q with
      | nil => exact absurd rfl hq
      | cons j q => rfl
    | cons k p =>
      have := fun s => ih s q (by simp) hq
      show nodeAt seq (i :: k :: (p ++ q)) = _
      rw [nodeAt_cons_cons, nodeAt_cons_cons]
      split
      · rename_i cs _ _
        exact this cs
      · rfl

theorem nodeAt_nil_seq (p : List Nat) : nodeAt ([] : List (Node M)) p = none := by
  match p with
  | [] => rfl
  | [i] => simp [nodeAt]
  | i :: j :: p => simp [nodeAt]

theorem nodeAt_zero_cons (n : Node M) (ns : List (Node M)) (p : List Nat) :
    nodeAt (n :: ns) (0 :: p) = if p = [] then some n else
      match n with | .group cs _ => nodeAt cs p | _ => none := by
  cases p with
  | nil => simp [nodeAt]
  | cons j p => simp [nodeAt_cons_cons]; cases n <;> rfl

theorem nodeAt_succ_cons (n : Node M) (ns : List (Node M)) (i : Nat) (p : List Nat) :
    nodeAt (n :: ns) ((i+1) :: p) = nodeAt ns (i :: p) := by
  cases p with
  | nil => simp [nodeAt]
  | cons j p => simp [nodeAt_cons_cons]

theorem occurs_cons (n : Node M) (ns : List (Node M)) (x : Node M) :
    Occurs (n :: ns) x ↔ x = n ∨ (∃ cs mt, n = .group cs mt ∧ Occurs cs x) ∨ Occurs ns x := by
  constructor
  · rintro ⟨p, hp⟩
    match p with
    | [] => simp [nodeAt] at hp
    | 0 :: p =>
      rw [nodeAt_zero_cons] at hp
      split at hp
      · simp_all
      · split at hp
        · right; left; exact ⟨_, _, rfl, p, hp⟩
        · simp at hp
    | (i+1) :: p =>
      rw [nodeAt_succ_cons] at hp
      exact .inr (.inr ⟨_, hp⟩)
  · rintro (rfl | ⟨cs, mt, rfl, p, hp⟩ | ⟨p, hp⟩)
    · exact ⟨[0], by simp [nodeAt]⟩
    · refine ⟨0 :: p, ?_⟩
      rw [nodeAt_zero_cons]
      split
      · subst p; simp [nodeAt] at hp
      · exact hp
    · match p with
      | [] => simp [nodeAt] at hp
      | i :: p => exact ⟨(i+1) :: p, by rw [nodeAt_succ_cons]; exact hp⟩

theorem not_occurs_nil (x : Node M) : ¬ Occurs [] x := by
  rintro ⟨p, hp⟩; rw [nodeAt_nil_seq] at hp; cases hp

theorem occurs_append (a b : List (Node M)) (x : Node M) :
    Occurs (a ++ b) x ↔ Occurs a x ∨ Occurs b x := by
  induction a with
  | nil => simp [not_occurs_nil]
  | cons n ns ih => rw [List.cons_append, occurs_cons, occurs_cons, ih]; grind

theorem decisionFree_cons (n : Node M) (ns : List (Node M)) :
    DecisionFree (n :: ns) ↔
      n.isDecision = false ∧ (∀ cs mt, n = .group cs mt → DecisionFree cs) ∧ DecisionFree ns := by
  unfold DecisionFree
  constructor
  · intro h
    refine ⟨h n ((occurs_cons ..).2 (.inl rfl)), ?_, ?_⟩
    · rintro cs mt rfl x hx
      exact h x ((occurs_cons ..).2 (.inr (.inl ⟨_, _, rfl, hx⟩)))
    · intro x hx; exact h x ((occurs_cons ..).2 (.inr (.inr hx)))
  · rintro ⟨h1, h2, h3⟩ x hx
    rcases (occurs_cons ..).1 hx with rfl | ⟨cs, mt, rfl, h⟩ | h
    · exact h1
    · exact h2 _ _ rfl _ h
    · exact h3 _ h

theorem siblings_children {seq l : List (Node M)} {mt : M} (h : Occurs seq (.group l mt)) :
    Siblings seq l := .inr ⟨mt, h⟩

/-- Every sibling list of `n :: ns` is the list itself, or one of `n`'s subtree, or one of `ns`
properly inside. -/
theorem occurs_of_mem {seq : List (Node M)} {n : Node M} (h : n ∈ seq) : Occurs seq n := by
  induction seq with
  | nil => cases h
  | cons m ms ih =>
    rw [occurs_cons]
    rcases List.mem_cons.1 h with rfl | h
    · exact .inl rfl
    · exact .inr (.inr (ih h))

end RUSure
