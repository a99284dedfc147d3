import Verif.Spec.Edit

/-!
# The grammar of edit scripts, followed by a continuation
-/

namespace RUSure.Lemmas
open RUSure RUSure.Spec
variable {M : Type} {prm : Params}

/-- Sets of scripts. -/
abbrev ELang := List EditStep → Prop

/-- Scripts that begin with a step. -/
def epre (s : EditStep) (L : ELang) : ELang := fun ds => ∃ ds', ds = s :: ds' ∧ L ds'

/-- A script, followed by the continuation unless it exits. -/
def After (K : Conf → ELang) (ss : List EditStep) : Option Conf → ELang
  | none => fun ds => ds = ss
  | some c => fun ds => ∃ ds', ds = ss ++ ds' ∧ K c ds'

theorem After_cons {K : Conf → ELang} {s ss r ds} :
    After K (s :: ss) r ds ↔ epre s (After K ss r) ds := by
  cases r with
  | none => simp [After, epre]
  | some c =>
    simp only [After, epre, List.cons_append]
    constructor
    · rintro ⟨d, rfl, h⟩; exact ⟨_, rfl, d, rfl, h⟩
    · rintro ⟨_, rfl, d, rfl, h⟩; exact ⟨d, rfl, h⟩

theorem After_append {K : Conf → ELang} {ss ss' r ds} :
    After K (ss ++ ss') r ds ↔ ∃ ds', ds = ss ++ ds' ∧ After K ss' r ds' := by
  induction ss generalizing ds with
  | nil => simp
  | cons s ss ih =>
    rw [List.cons_append, After_cons]
    simp only [epre, ih, List.cons_append]
    constructor
    · rintro ⟨_, rfl, d, rfl, h⟩; exact ⟨d, rfl, h⟩
    · rintro ⟨d, rfl, h⟩; exact ⟨_, rfl, d, rfl, h⟩

theorem After_nil {K : Conf → ELang} {c ds} : After K [] (some c) ds ↔ K c ds := by simp [After]

/-! ### Passing control nodes -/

/-- Passing or exiting at a prototype node, then going on. -/
def GP (prm : Params) (c : Conf) (i : Nat) (K : Conf → ELang) : Node M → ELang
  | .deco _ => epre ⟨none, some ⟨some i, none, .protoDeco, some c⟩, 0⟩ (K c)
  | .rstart => fun ds =>
    match c with
    | .high => epre ⟨some (⟨i, .start⟩, .no), none, 0⟩ (K .high) ds
      ∨ epre ⟨some (⟨i, .start⟩, .yes), some ⟨some i, none, .startLow, none⟩, (prm.regionCost : ℚ)⟩
        (K .low) ds
    | .low => epre ⟨some (⟨i, .start⟩, .na), none, 0⟩ (K .low) ds
  | .rend => fun ds =>
    match c with
    | .high => epre ⟨some (⟨i, .stop⟩, .na), none, 0⟩ (K .high) ds
    | .low => epre ⟨some (⟨i, .stop⟩, .no), none, 0⟩ (K .low) ds
      ∨ epre ⟨some (⟨i, .stop⟩, .yes), none, 0⟩ (K .high) ds
  | .exit => fun ds => ds = [exitStep c i] ∨ epre ⟨some (⟨i, .exit⟩, .no), none, 0⟩ (K c) ds
  | .tok _ _ => fun _ => False
  | .group _ _ => fun _ => False

theorem GP_iff {c i} {n : Node M} {K : Conf → ELang} {ds} :
    GP prm c i K n ds ↔ (∃ s c', Pass prm c i n s c' ∧ epre s (K c') ds)
      ∨ (n = .exit ∧ ds = [exitStep c i]) := by
  constructor
  · intro h
    cases n with
    | deco t => exact .inl ⟨_, _, .deco c i t, h⟩
    | tok t mt => exact h.elim
    | group cs mt => exact h.elim
    | rstart =>
      cases c with
      | high =>
        rcases h with h | h
        · exact .inl ⟨_, _, .noStart i, h⟩
        · exact .inl ⟨_, _, .start i, h⟩
      | low => exact .inl ⟨_, _, .inStart i, h⟩
    | rend =>
      cases c with
      | high => exact .inl ⟨_, _, .outStop i, h⟩
      | low =>
        rcases h with h | h
        · exact .inl ⟨_, _, .noStop i, h⟩
        · exact .inl ⟨_, _, .stop i, h⟩
    | exit =>
      rcases h with h | h
      · exact .inr ⟨rfl, h⟩
      · exact .inl ⟨_, _, .noExit c i, h⟩
  · rintro (⟨s, c', hp, h⟩ | ⟨rfl, h⟩)
    · cases hp with
      | deco => exact h
      | noStart => exact .inl h
      | start => exact .inr h
      | inStart => exact h
      | noStop => exact .inl h
      | stop => exact .inr h
      | outStop => exact h
      | noExit => exact .inr h
    · exact .inl h

/-! ### Deleting everything -/

/-- Scripts that delete a sequence and go on. -/
def GD (prm : Params) (c : Conf) (i : Nat) (ns : List (Node M)) (K : Conf → ELang) : ELang :=
  fun ds => ∃ ss r, Deletes prm c i ns ss r ∧ After K ss r ds

theorem GD_nil {c i} {K : Conf → ELang} {ds} : GD prm c i ([] : List (Node M)) K ds ↔ K c ds := by
  constructor
  · rintro ⟨ss, r, h, h'⟩
    cases h
    exact After_nil.mp h'
  · intro h
    exact ⟨_, _, .nil c i, After_nil.mpr h⟩

/-- Deleting a sequence, case by case on its first node. -/
def GDcons (prm : Params) (c : Conf) (i : Nat) (ns : List (Node M)) (K : Conf → ELang) :
    Node M → ELang
  | .tok t _ => epre (deleteStep prm c i t.length) (GD prm c (i + 1) ns K)
  | .group cs _ => epre (enterStep c i)
      (GD prm c (i + 1) cs fun c' => GD prm c' (i + 1 + seqSize cs) ns K)
  | n => GP prm c i (fun c' => GD prm c' (i + 1) ns K) n

theorem GD_group_aux {c i} {cs ns : List (Node M)} {K : Conf → ELang} {ds} :
    GD prm c i cs (fun c' => GD prm c' (i + seqSize cs) ns K) ds ↔
      (∃ ss c' ss' r, Deletes prm c i cs ss (some c')
          ∧ Deletes prm c' (i + seqSize cs) ns ss' r ∧ After K (ss ++ ss') r ds)
      ∨ Deletes prm c i cs ds none := by
  constructor
  · rintro ⟨ss, r, h, h'⟩
    cases r with
    | none =>
      simp only [After] at h'
      subst h'
      exact .inr h
    | some c' =>
      obtain ⟨ds', rfl, ss', r, h1, h2⟩ := h'
      exact .inl ⟨ss, c', ss', r, h, h1, After_append.mpr ⟨_, rfl, h2⟩⟩
  · rintro (⟨ss, c', ss', r, h1, h2, h3⟩ | h)
    · obtain ⟨ds', rfl, h4⟩ := After_append.mp h3
      exact ⟨ss, some c', h1, ds', rfl, ss', r, h2, h4⟩
    · exact ⟨ds, none, h, rfl⟩

theorem pass_node {c i} {n : Node M} {s c'} (h : Pass prm c i n s c') :
    (∃ t, n = .deco t) ∨ n = .rstart ∨ n = .rend ∨ n = .exit := by
  cases h <;> simp

theorem GD_cons {c i} {n : Node M} {ns : List (Node M)} {K : Conf → ELang} {ds} :
    GD prm c i (n :: ns) K ds ↔ GDcons prm c i ns K n ds := by
  have hP : (∃ s c', Pass prm c i n s c' ∧ epre s (GD prm c' (i + 1) ns K) ds)
      ∨ (n = .exit ∧ ds = [exitStep c i]) → GD prm c i (n :: ns) K ds := by
    rintro (⟨s, c', hp, d, rfl, ss, r, h, h'⟩ | ⟨rfl, rfl⟩)
    · exact ⟨s :: ss, r, .pass hp h, After_cons.mpr ⟨_, rfl, h'⟩⟩
    · exact ⟨_, none, .exit c i ns, rfl⟩
  constructor
  · rintro ⟨ss, r, h, h'⟩
    cases h with
    | @pass _ _ _ s c' _ ss _ hp h =>
      obtain ⟨d, rfl, h''⟩ := After_cons.mp h'
      have : GP prm c i (fun c' => GD prm c' (i + 1) ns K) n (s :: d) :=
        GP_iff.mpr (.inl ⟨s, c', hp, d, rfl, ss, r, h, h''⟩)
      rcases pass_node hp with ⟨t, rfl⟩ | rfl | rfl | rfl <;> exact this
    | exit =>
      simp only [After] at h'
      exact .inl h'
    | tok h =>
      obtain ⟨d, rfl, h''⟩ := After_cons.mp h'
      exact ⟨d, rfl, _, _, h, h''⟩
    | group h1 h2 =>
      rw [List.cons_append] at h'
      obtain ⟨d, rfl, h''⟩ := After_cons.mp h'
      exact ⟨d, rfl, GD_group_aux.mpr (.inl ⟨_, _, _, _, h1, h2, h''⟩)⟩
    | groupExit h =>
      simp only [After] at h'
      subst h'
      exact ⟨_, rfl, GD_group_aux.mpr (.inr h)⟩
  · intro h
    cases n with
    | tok t mt =>
      obtain ⟨d, rfl, ss, r, h1, h2⟩ := h
      exact ⟨_, r, .tok h1, After_cons.mpr ⟨_, rfl, h2⟩⟩
    | group cs mt =>
      obtain ⟨d, rfl, h⟩ := h
      rcases GD_group_aux.mp h with ⟨ss, c', ss', r, h1, h2, h3⟩ | h
      · exact ⟨_, r, .group h1 h2, After_cons.mpr ⟨_, rfl, h3⟩⟩
      · exact ⟨_, none, .groupExit h, rfl⟩
    | deco t => exact hP (GP_iff.mp h)
    | rstart => exact hP (GP_iff.mp h)
    | rend => exact hP (GP_iff.mp h)
    | exit => exact hP (GP_iff.mp h)

/-! ### Inserting everything -/

/-- Scripts that insert a sequence and go on. -/
def GI (prm : Params) (c : Conf) (j : Nat) (ms : List (Node M)) (K : ELang) : ELang :=
  fun ds => ∃ ss ds', Inserts prm c j ms ss ∧ ds = ss ++ ds' ∧ K ds'

theorem GI_nil {c j} {K : ELang} {ds} : GI prm c j ([] : List (Node M)) K ds ↔ K ds := by
  constructor
  · rintro ⟨ss, ds', h, rfl, h'⟩
    cases h
    exact h'
  · intro h
    exact ⟨[], ds, .nil j, rfl, h⟩

/-- Inserting a sequence, case by case on its first node. -/
def GIcons (prm : Params) (c : Conf) (j : Nat) (ms : List (Node M)) (K : ELang) : Node M → ELang
  | .deco _ => epre (targetDecoStep c j) (GI prm c (j + 1) ms K)
  | .tok t _ => epre (insertStep prm j t.length) (GI prm c (j + 1) ms K)
  | .group cs _ => GI prm c (j + 1) cs (GI prm c (j + 1 + seqSize cs) ms K)
  | _ => fun _ => False

theorem GI_cons {c j} {m : Node M} {ms : List (Node M)} {K : ELang} {ds} :
    GI prm c j (m :: ms) K ds ↔ GIcons prm c j ms K m ds := by
  constructor
  · rintro ⟨ss, ds', h, rfl, h'⟩
    cases h with
    | deco h => exact ⟨_, rfl, _, _, h, rfl, h'⟩
    | tok h => exact ⟨_, rfl, _, _, h, rfl, h'⟩
    | group h1 h2 => exact ⟨_, _, h1, List.append_assoc _ _ _, _, _, h2, rfl, h'⟩
  · intro h
    cases m with
    | deco t =>
      obtain ⟨_, rfl, ss, ds', h, rfl, h'⟩ := h
      exact ⟨_, _, .deco h, rfl, h'⟩
    | tok t mt =>
      obtain ⟨_, rfl, ss, ds', h, rfl, h'⟩ := h
      exact ⟨_, _, .tok h, rfl, h'⟩
    | group cs mt =>
      obtain ⟨ss, _, h1, rfl, ss', ds', h2, rfl, h'⟩ := h
      exact ⟨_, _, .group h1 h2, (List.append_assoc _ _ _).symm, h'⟩
    | rstart => exact h.elim
    | rend => exact h.elim
    | exit => exact h.elim

/-! ### Editing -/

/-- Scripts that edit one sequence into another and go on. -/
def GE (prm : Params) (ph : Phase) (c : Conf) (i : Nat) (ns : List (Node M)) (j : Nat)
    (ms : List (Node M)) (K : Conf → ELang) : ELang :=
  fun ds => ∃ ss r, Edits prm ph c i ns j ms ss r ∧ After K ss r ds

/-- Passing or exiting at the first prototype node, if there is one. -/
def GPhead (prm : Params) (ph : Phase) (c : Conf) (i : Nat) (j : Nat)
    (ms : List (Node M)) (K : Conf → ELang) : List (Node M) → ELang
  | [] => fun _ => False
  | n :: ns => GP prm c i (fun c' => GE prm ph c' (i + 1) ns j ms K) n

theorem GPhead_iff {ph c i j} {ns ms : List (Node M)} {K : Conf → ELang} {ds} :
    GPhead prm ph c i j ms K ns ds ↔ ∃ n ns', ns = n :: ns' ∧
      ((∃ s c', Pass prm c i n s c' ∧ epre s (GE prm ph c' (i + 1) ns' j ms K) ds)
      ∨ (n = .exit ∧ ds = [exitStep c i])) := by
  cases ns with
  | nil => simp [GPhead]
  | cons n ns =>
    rw [GPhead, GP_iff]
    constructor
    · intro h; exact ⟨n, ns, rfl, h⟩
    · rintro ⟨_, _, h, h'⟩; cases h; exact h'

theorem GPhead_mk {ph c i j} {ns ms : List (Node M)} {K : Conf → ELang} {ds}
    (hph : ph = .advancing ∨ ph = .deleting) (h : GPhead prm ph c i j ms K ns ds) :
    GE prm ph c i ns j ms K ds := by
  obtain ⟨n, ns, rfl, ⟨s, c', hp, d, rfl, ss, r, h1, h2⟩ | ⟨rfl, rfl⟩⟩ := GPhead_iff.mp h
  · exact ⟨_, _, .pass hph hp h1, After_cons.mpr ⟨_, rfl, h2⟩⟩
  · exact ⟨_, none, .exit c i _ j ms hph, rfl⟩

theorem GE_advancing {c i j} {ns ms : List (Node M)} {K : Conf → ELang} {ds} :
    GE prm .advancing c i ns j ms K ds ↔ GPhead prm .advancing c i j ms K ns ds
      ∨ epre (startEditStep prm c) (GE prm .deleting c i ns j ms K) ds
      ∨ GE prm .matching c i ns j ms K ds := by
  constructor
  · rintro ⟨ss, r, h, h'⟩
    cases h with
    | pass _ hp h =>
      obtain ⟨d, rfl, h''⟩ := After_cons.mp h'
      exact .inl (GPhead_iff.mpr ⟨_, _, rfl, .inl ⟨_, _, hp, d, rfl, _, _, h, h''⟩⟩)
    | exit =>
      exact .inl (GPhead_iff.mpr ⟨_, _, rfl, .inr ⟨rfl, h'⟩⟩)
    | startEditing h =>
      obtain ⟨d, rfl, h''⟩ := After_cons.mp h'
      exact .inr (.inl ⟨d, rfl, _, _, h, h''⟩)
    | noEditing h => exact .inr (.inr ⟨_, _, h, h'⟩)
    | targetDeco hph => simp at hph
  · rintro (h | ⟨d, rfl, ss, r, h1, h2⟩ | ⟨ss, r, h1, h2⟩)
    · exact GPhead_mk (.inl rfl) h
    · exact ⟨_, _, .startEditing h1, After_cons.mpr ⟨_, rfl, h2⟩⟩
    · exact ⟨_, _, .noEditing h1, h2⟩

/-- Deleting the first prototype node, if there is one. -/
def GDhead (prm : Params) (c : Conf) (i : Nat) (j : Nat)
    (ms : List (Node M)) (K : Conf → ELang) : List (Node M) → ELang
  | .tok t _ :: ns => epre (deleteStep prm c i t.length) (GE prm .deleting c (i + 1) ns j ms K)
  | .group cs _ :: ns => epre (enterStep c i)
      (GD prm c (i + 1) cs fun c' => GE prm .deleting c' (i + 1 + seqSize cs) ns j ms K)
  | ns => GPhead prm .deleting c i j ms K ns

theorem GDE_aux {c i j} {cs ns ms : List (Node M)} {K : Conf → ELang} {ds} :
    GD prm c i cs (fun c' => GE prm .deleting c' (i + seqSize cs) ns j ms K) ds ↔
      (∃ ss c' ss' r, Deletes prm c i cs ss (some c')
          ∧ Edits prm .deleting c' (i + seqSize cs) ns j ms ss' r ∧ After K (ss ++ ss') r ds)
      ∨ Deletes prm c i cs ds none := by
  constructor
  · rintro ⟨ss, r, h, h'⟩
    cases r with
    | none =>
      simp only [After] at h'
      subst h'
      exact .inr h
    | some c' =>
      obtain ⟨ds', rfl, ss', r, h1, h2⟩ := h'
      exact .inl ⟨ss, c', ss', r, h, h1, After_append.mpr ⟨_, rfl, h2⟩⟩
  · rintro (⟨ss, c', ss', r, h1, h2, h3⟩ | h)
    · obtain ⟨ds', rfl, h4⟩ := After_append.mp h3
      exact ⟨ss, some c', h1, ds', rfl, ss', r, h2, h4⟩
    · exact ⟨ds, none, h, rfl⟩

theorem GE_deleting {c i j} {ns ms : List (Node M)} {K : Conf → ELang} {ds} :
    GE prm .deleting c i ns j ms K ds ↔ GDhead prm c i j ms K ns ds
      ∨ GE prm .inserting c i ns j ms K ds := by
  constructor
  · rintro ⟨ss, r, h, h'⟩
    cases h with
    | @pass _ _ _ n s c' ns _ _ ss _ _ hp h =>
      obtain ⟨d, rfl, h''⟩ := After_cons.mp h'
      have : GPhead prm .deleting c i j ms K (n :: ns) (s :: d) :=
        GPhead_iff.mpr ⟨_, _, rfl, .inl ⟨_, _, hp, d, rfl, _, _, h, h''⟩⟩
      left
      rcases pass_node hp with ⟨t, rfl⟩ | rfl | rfl | rfl <;> exact this
    | exit => exact .inl (GPhead_iff.mpr ⟨_, _, rfl, .inr ⟨rfl, h'⟩⟩)
    | delete h =>
      obtain ⟨d, rfl, h''⟩ := After_cons.mp h'
      exact .inl ⟨d, rfl, _, _, h, h''⟩
    | deleteGroup h1 h2 =>
      rw [List.cons_append] at h'
      obtain ⟨d, rfl, h''⟩ := After_cons.mp h'
      exact .inl ⟨d, rfl, GDE_aux.mpr (.inl ⟨_, _, _, _, h1, h2, h''⟩)⟩
    | deleteGroupExit h =>
      simp only [After] at h'
      subst h'
      exact .inl ⟨_, rfl, GDE_aux.mpr (.inr h)⟩
    | stopDeleting h => exact .inr ⟨_, _, h, h'⟩
    | targetDeco hph => simp at hph
  · rintro (h | ⟨ss, r, h1, h2⟩)
    · match ns, h with
      | .tok t mt :: ns, h =>
        obtain ⟨d, rfl, ss, r, h1, h2⟩ := h
        exact ⟨_, r, .delete h1, After_cons.mpr ⟨_, rfl, h2⟩⟩
      | .group cs mt :: ns, h =>
        obtain ⟨d, rfl, h0⟩ := h
        rcases GDE_aux.mp h0 with ⟨ss, c', ss', r, h1, h2, h3⟩ | h
        · exact ⟨_, r, .deleteGroup h1 h2, After_cons.mpr ⟨_, rfl, h3⟩⟩
        · exact ⟨_, none, .deleteGroupExit h, rfl⟩
      | [], h => exact h.elim
      | .deco t :: ns, h => exact GPhead_mk (.inr rfl) h
      | .rstart :: ns, h => exact GPhead_mk (.inr rfl) h
      | .rend :: ns, h => exact GPhead_mk (.inr rfl) h
      | .exit :: ns, h => exact GPhead_mk (.inr rfl) h
    · exact ⟨_, _, .stopDeleting h1, h2⟩

/-- Inserting the first target node, if there is one. -/
def GIhead (prm : Params) (c : Conf) (i : Nat) (ns : List (Node M)) (j : Nat) (K : Conf → ELang) :
    List (Node M) → ELang
  | .deco _ :: ms => epre (targetDecoStep c j) (GE prm .inserting c i ns (j + 1) ms K)
  | .tok t _ :: ms => epre (insertStep prm j t.length) (GE prm .inserting c i ns (j + 1) ms K)
  | .group cs _ :: ms => GI prm c (j + 1) cs (GE prm .inserting c i ns (j + 1 + seqSize cs) ms K)
  | _ => fun _ => False

theorem GE_inserting {c i j} {ns ms : List (Node M)} {K : Conf → ELang} {ds} :
    GE prm .inserting c i ns j ms K ds ↔ GIhead prm c i ns j K ms ds
      ∨ GE prm .matching c i ns j ms K ds := by
  constructor
  · rintro ⟨ss, r, h, h'⟩
    cases h with
    | pass hph => simp at hph
    | exit _ _ _ _ _ hph => simp at hph
    | targetDeco _ h =>
      obtain ⟨d, rfl, h''⟩ := After_cons.mp h'
      exact .inl ⟨d, rfl, _, _, h, h''⟩
    | insert h =>
      obtain ⟨d, rfl, h''⟩ := After_cons.mp h'
      exact .inl ⟨d, rfl, _, _, h, h''⟩
    | insertGroup h1 h2 =>
      obtain ⟨d, rfl, h''⟩ := After_append.mp h'
      exact .inl ⟨_, d, h1, rfl, _, _, h2, h''⟩
    | stopInserting h => exact .inr ⟨_, _, h, h'⟩
  · rintro (h | ⟨ss, r, h1, h2⟩)
    · match ms, h with
      | .deco t :: ms, h =>
        obtain ⟨d, rfl, ss, r, h1, h2⟩ := h
        exact ⟨_, r, .targetDeco (.inl rfl) h1, After_cons.mpr ⟨_, rfl, h2⟩⟩
      | .tok t mt :: ms, h =>
        obtain ⟨d, rfl, ss, r, h1, h2⟩ := h
        exact ⟨_, r, .insert h1, After_cons.mpr ⟨_, rfl, h2⟩⟩
      | .group cs mt :: ms, h =>
        obtain ⟨ss, d, h1, rfl, ss', r, h2, h3⟩ := h
        exact ⟨_, r, .insertGroup h1 h2, After_append.mpr ⟨_, rfl, h3⟩⟩
      | [], h => exact h.elim
      | .rstart :: ms, h => exact h.elim
      | .rend :: ms, h => exact h.elim
      | .exit :: ms, h => exact h.elim
    · exact ⟨_, _, .stopInserting h1, h2⟩

/-- Matching the first nodes. -/
def GMhead (prm : Params) (c : Conf) (i j : Nat) (K : Conf → ELang) :
    List (Node M) → List (Node M) → ELang
  | ns, .deco _ :: ms => epre (targetDecoStep c j) (GE prm .matching c i ns (j + 1) ms K)
  | .tok t mt :: ns, .tok t' mt' :: ms => fun ds => t' = t ∧ mt' = mt ∧
      epre (keepStep prm c i j t.length) (GE prm .advancing c (i + 1) ns (j + 1) ms K) ds
  | .group cs mt :: ns, .group cs' mt' :: ms => fun ds => mt' = mt ∧
      epre (enterStep c i) (GE prm .advancing c (i + 1) cs (j + 1) cs' fun c' =>
        GE prm .advancing c' (i + 1 + seqSize cs) ns (j + 1 + seqSize cs') ms K) ds
  | [], [] => K c
  | _, _ => fun _ => False

theorem GEE_aux {c i j} {cs cs' ns ms : List (Node M)} {K : Conf → ELang} {ds} :
    GE prm .advancing c i cs j cs' (fun c' =>
        GE prm .advancing c' (i + seqSize cs) ns (j + seqSize cs') ms K) ds ↔
      (∃ ss c' ss' r, Edits prm .advancing c i cs j cs' ss (some c')
          ∧ Edits prm .advancing c' (i + seqSize cs) ns (j + seqSize cs') ms ss' r
          ∧ After K (ss ++ ss') r ds)
      ∨ Edits prm .advancing c i cs j cs' ds none := by
  constructor
  · rintro ⟨ss, r, h, h'⟩
    cases r with
    | none =>
      simp only [After] at h'
      subst h'
      exact .inr h
    | some c' =>
      obtain ⟨ds', rfl, ss', r, h1, h2⟩ := h'
      exact .inl ⟨ss, c', ss', r, h, h1, After_append.mpr ⟨_, rfl, h2⟩⟩
  · rintro (⟨ss, c', ss', r, h1, h2, h3⟩ | h)
    · obtain ⟨ds', rfl, h4⟩ := After_append.mp h3
      exact ⟨ss, some c', h1, ds', rfl, ss', r, h2, h4⟩
    · exact ⟨ds, none, h, rfl⟩

theorem GE_matching {c i j} {ns ms : List (Node M)} {K : Conf → ELang} {ds} :
    GE prm .matching c i ns j ms K ds ↔ GMhead prm c i j K ns ms ds := by
  constructor
  · rintro ⟨ss, r, h, h'⟩
    cases h with
    | pass hph => simp at hph
    | exit _ _ _ _ _ hph => simp at hph
    | targetDeco _ h =>
      obtain ⟨d, rfl, h''⟩ := After_cons.mp h'
      have := (⟨d, rfl, _, _, h, h''⟩ :
        epre (targetDecoStep c j) (GE prm .matching c i ns (j + 1) _ K) _)
      match ns with
      | [] => exact this
      | .deco t :: ns | .tok t mt :: ns | .group cs mt :: ns | .rstart :: ns | .rend :: ns
      | .exit :: ns => exact this
    | keep h =>
      obtain ⟨d, rfl, h''⟩ := After_cons.mp h'
      exact ⟨rfl, rfl, d, rfl, _, _, h, h''⟩
    | matchGroup h1 h2 =>
      rw [List.cons_append] at h'
      obtain ⟨d, rfl, h''⟩ := After_cons.mp h'
      exact ⟨rfl, d, rfl, GEE_aux.mpr (.inl ⟨_, _, _, _, h1, h2, h''⟩)⟩
    | matchGroupExit h =>
      simp only [After] at h'
      subst h'
      exact ⟨rfl, _, rfl, GEE_aux.mpr (.inr h)⟩
    | done => exact After_nil.mp h'
  · intro h
    have hd : ∀ t ms', ms = .deco t :: ms' →
        epre (targetDecoStep c j) (GE prm .matching c i ns (j + 1) ms' K) ds →
        GE prm .matching c i ns j ms K ds := by
      rintro t ms' rfl ⟨d, rfl, ss, r, h1, h2⟩
      exact ⟨_, r, .targetDeco (.inr rfl) h1, After_cons.mpr ⟨_, rfl, h2⟩⟩
    match ns, ms, h with
    | [], [], h => exact ⟨[], some c, .done c i j, After_nil.mpr h⟩
    | [], .deco t :: ms, h => exact hd _ _ rfl h
    | .deco _ :: ns, .deco t :: ms, h => exact hd _ _ rfl h
    | .tok _ _ :: ns, .deco t :: ms, h => exact hd _ _ rfl h
    | .group _ _ :: ns, .deco t :: ms, h => exact hd _ _ rfl h
    | .rstart :: ns, .deco t :: ms, h => exact hd _ _ rfl h
    | .rend :: ns, .deco t :: ms, h => exact hd _ _ rfl h
    | .exit :: ns, .deco t :: ms, h => exact hd _ _ rfl h
    | .tok t mt :: ns, .tok t' mt' :: ms, h =>
      obtain ⟨rfl, rfl, d, rfl, ss, r, h1, h2⟩ := h
      exact ⟨_, r, .keep h1, After_cons.mpr ⟨_, rfl, h2⟩⟩
    | .group cs mt :: ns, .group cs' mt' :: ms, h =>
      obtain ⟨rfl, d, rfl, h0⟩ := h
      rcases GEE_aux.mp h0 with ⟨ss, c', ss', r, h1, h2, h3⟩ | h
      · exact ⟨_, r, .matchGroup h1 h2, After_cons.mpr ⟨_, rfl, h3⟩⟩
      · exact ⟨_, none, .matchGroupExit h, rfl⟩

end RUSure.Lemmas
