import Verif.Lemmas.EditScripts

/-!
# Edit scripts, alignments, prices
-/

set_option linter.unusedSimpArgs false

namespace RUSure.Lemmas
open RUSure RUSure.Spec
variable {M : Type} {prm : Params}

/-! ### Early exits -/

theorem takesExit_append {a b : List Decision} : TakesExit (a ++ b) ↔ TakesExit a ∨ TakesExit b := by
  simp [TakesExit, exists_or]

theorem takesExit_nil : ¬ TakesExit [] := by simp [TakesExit]

theorem takesExit_seen {i c} : ¬ TakesExit [seenAt i c] := by
  simp [TakesExit, seenAt]

theorem takesExit_pass {c i} {n : Node M} {s c'} (h : Pass prm c i n s c') :
    ¬ TakesExit s.decision.toList := by
  cases h <;> simp [TakesExit]

theorem takesExit_exit {i} : TakesExit [(⟨i, .exit⟩, .yes)] := ⟨i, by simp⟩

theorem deletes_exit {c i} {ns : List (Node M)} {ss r} (h : Deletes prm c i ns ss r) :
    r = none ↔ TakesExit (decs ss) := by
  induction h with
  | nil c i => simp [takesExit_nil]
  | pass hp _ ih =>
    rw [(shows_pass hp).decs, takesExit_append, ih]
    simp [takesExit_pass hp]
  | exit c i ns =>
    rw [shows_exit.decs, takesExit_append]
    simp [takesExit_exit]
  | tok _ ih =>
    rw [shows_delete.decs, takesExit_append, ih]
    simp [takesExit_seen]
  | group _ _ ih ih' =>
    rw [List.cons_append, shows_enter.decs, takesExit_append, decs_append, takesExit_append, ← ih, ih']
    simp [takesExit_seen]
  | groupExit _ ih =>
    rw [shows_enter.decs, takesExit_append, ← ih]
    simp

theorem edits_exit {ph c i} {ns : List (Node M)} {j} {ms : List (Node M)} {ss r}
    (h : Edits prm ph c i ns j ms ss r) : r = none ↔ TakesExit (decs ss) := by
  induction h with
  | pass _ hp _ ih =>
    rw [(shows_pass hp).decs, takesExit_append, ih]
    simp [takesExit_pass hp]
  | exit =>
    rw [shows_exit.decs, takesExit_append]
    simp [takesExit_exit]
  | startEditing _ ih => rw [shows_start.decs]; exact ih
  | noEditing _ ih => exact ih
  | delete _ ih =>
    rw [shows_delete.decs, takesExit_append, ih]
    simp [takesExit_seen]
  | deleteGroup hd _ ih =>
    rw [List.cons_append, shows_enter.decs, takesExit_append, decs_append, takesExit_append,
      ← deletes_exit hd, ih]
    simp [takesExit_seen]
  | deleteGroupExit hd =>
    rw [shows_enter.decs, takesExit_append, ← deletes_exit hd]
    simp
  | stopDeleting _ ih => exact ih
  | targetDeco _ _ ih => rw [shows_targetDeco.decs]; exact ih
  | insert _ ih => rw [shows_insert.decs]; exact ih
  | insertGroup hi _ ih => rw [decs_append, (inserts_used hi).2.2.2]; exact ih
  | stopInserting _ ih => exact ih
  | keep _ ih =>
    rw [shows_keep.decs, takesExit_append, ih]
    simp [takesExit_seen]
  | matchGroup _ _ ih ih' =>
    rw [List.cons_append, shows_enter.decs, takesExit_append, decs_append, takesExit_append, ← ih, ih']
    simp [takesExit_seen]
  | matchGroupExit _ ih =>
    rw [shows_enter.decs, takesExit_append, ← ih]
    simp
  | done => simp [takesExit_nil]

/-! ### Kept tokens -/

theorem kept_enter {c i ss} : keptBy (enterStep c i :: ss) = keptBy ss := shows_enter.keptBy ss

/-- Kept tokens are tokens of both sequences. -/
theorem edits_kept {ph c i} {ns : List (Node M)} {j} {ms : List (Node M)} {ss r}
    (h : Edits prm ph c i ns j ms ss r) : ∀ x ∈ keptBy ss,
      ∃ t mt, (x.1, t, mt) ∈ tokens i ns ∧ (x.2, t, mt) ∈ tokens j ms := by
  induction h with
  | pass _ hp _ ih =>
    rw [(shows_pass hp).keptBy, tokens_pass hp]
    exact ih
  | exit => rw [shows_exit.keptBy]; simp
  | startEditing _ ih => rw [shows_start.keptBy]; exact ih
  | noEditing _ ih => exact ih
  | delete _ ih =>
    rw [shows_delete.keptBy, tokens]
    intro x hx
    obtain ⟨t, mt, h1, h2⟩ := ih x hx
    exact ⟨t, mt, .tail _ h1, h2⟩
  | deleteGroup hd _ ih =>
    rw [List.cons_append, shows_enter.keptBy, kept_append, (deletes_used hd).2.2, tokens]
    intro x hx
    obtain ⟨t, mt, h1, h2⟩ := ih x hx
    exact ⟨t, mt, List.mem_append_right _ h1, h2⟩
  | deleteGroupExit hd => rw [shows_enter.keptBy, (deletes_used hd).2.2]; simp
  | stopDeleting _ ih => exact ih
  | targetDeco _ _ ih =>
    rw [shows_targetDeco.keptBy]
    conv in tokens _ (.deco _ :: _) => rw [tokens]
    exact ih
  | insert _ ih =>
    rw [shows_insert.keptBy]
    intro x hx
    obtain ⟨t, mt, h1, h2⟩ := ih x hx
    exact ⟨t, mt, h1, by rw [tokens]; exact .tail _ h2⟩
  | insertGroup hi _ ih =>
    rw [kept_append, (inserts_used hi).2.2.1]
    intro x hx
    obtain ⟨t, mt, h1, h2⟩ := ih x hx
    exact ⟨t, mt, h1, by rw [tokens]; exact List.mem_append_right _ h2⟩
  | stopInserting _ ih => exact ih
  | @keep c i t mt ns j ms ss r _ ih =>
    rw [shows_keep.keptBy, tokens, tokens]
    intro x hx
    rcases List.mem_append.mp hx with hx | hx
    · rw [List.mem_singleton] at hx
      subst hx
      exact ⟨t, mt, .head _, .head _⟩
    · obtain ⟨t, mt, h1, h2⟩ := ih x hx
      exact ⟨t, mt, .tail _ h1, .tail _ h2⟩
  | matchGroup _ _ ih ih' =>
    rw [List.cons_append, shows_enter.keptBy, kept_append, tokens, tokens, List.nil_append]
    intro x hx
    rcases List.mem_append.mp hx with hx | hx
    · obtain ⟨t, mt, h1, h2⟩ := ih x hx
      exact ⟨t, mt, List.mem_append_left _ h1, List.mem_append_left _ h2⟩
    · obtain ⟨t, mt, h1, h2⟩ := ih' x hx
      exact ⟨t, mt, List.mem_append_right _ h1, List.mem_append_right _ h2⟩
  | matchGroupExit _ ih =>
    rw [shows_enter.keptBy, tokens, tokens]
    intro x hx
    obtain ⟨t, mt, h1, h2⟩ := ih x hx
    exact ⟨t, mt, List.mem_append_left _ h1, List.mem_append_left _ h2⟩
  | done => simp

/-! ### From scripts to alignments -/

theorem deletes_decides {c i} {ns : List (Node M)} {ss r} (h : Deletes prm c i ns ss r) :
    ∀ c', r = some c' → Decides prm c i ns (decs ss) c' := by
  induction h with
  | nil c i =>
    rintro _ ⟨⟩
    exact .nil c i
  | pass hp _ ih =>
    intro c' hr
    rw [(shows_pass hp).decs]
    exact .pass hp (ih c' hr)
  | exit c i ns => simp
  | tok _ ih =>
    intro c' hr
    rw [shows_delete.decs]
    exact .tok (ih c' hr)
  | group _ _ ih ih' =>
    intro c' hr
    rw [List.cons_append, shows_enter.decs, decs_append, List.singleton_append, ← List.cons_append]
    exact .group (ih _ rfl) (ih' c' hr)
  | groupExit _ ih => simp

theorem decisionFree_node {n : Node M} {ns : List (Node M)} (h : n.isDecision = false)
    (hg : ∀ cs mt, n = .group cs mt → DecisionFree cs) (hns : DecisionFree ns) :
    DecisionFree (n :: ns) := (decisionFree_cons n ns).mpr ⟨h, hg, hns⟩

theorem inserts_free {c j} {ms : List (Node M)} {ss} (h : Inserts prm c j ms ss) :
    DecisionFree ms := by
  induction h with
  | nil j => exact decisionFree_nil
  | deco _ ih => exact decisionFree_node rfl (by simp) ih
  | tok _ ih => exact decisionFree_node rfl (by simp) ih
  | group _ _ ih ih' =>
    refine decisionFree_node rfl ?_ ih'
    rintro cs mt ⟨⟩
    exact ih

theorem edits_aligns {ph c i} {ns : List (Node M)} {j} {ms : List (Node M)} {ss r}
    (h : Edits prm ph c i ns j ms ss r) : ∀ c', r = some c' →
      Decides prm c i ns (decs ss) c' ∧ Aligns i ns j ms (keptBy ss) := by
  induction h with
  | pass _ hp _ ih =>
    intro c' hr
    obtain ⟨h1, h2⟩ := ih c' hr
    rw [(shows_pass hp).decs, (shows_pass hp).keptBy]
    refine ⟨.pass hp h1, .passProto ?_ h2⟩
    rcases pass_node hp with h | h | h | h
    · exact .inr (.inr (.inr h))
    · exact .inl h
    · exact .inr (.inl h)
    · exact .inr (.inr (.inl h))
  | exit => simp
  | startEditing _ ih => rw [shows_start.keptBy, shows_start.decs]; exact ih
  | noEditing _ ih => exact ih
  | delete _ ih =>
    intro c' hr
    obtain ⟨h1, h2⟩ := ih c' hr
    rw [shows_delete.keptBy, shows_delete.decs]
    exact ⟨.tok h1, .delete (.inl ⟨_, _, rfl⟩) (by simpa [nodeSize] using h2)⟩
  | deleteGroup hd _ ih =>
    intro c' hr
    obtain ⟨h1, h2⟩ := ih c' hr
    rw [List.cons_append, shows_enter.keptBy, kept_append, (deletes_used hd).2.2, shows_enter.decs,
      decs_append, List.singleton_append, ← List.cons_append]
    exact ⟨.group (deletes_decides hd _ rfl) h1,
      .delete (.inr ⟨_, _, rfl⟩) (by simpa [nodeSize, Nat.add_assoc] using h2)⟩
  | deleteGroupExit hd => simp
  | stopDeleting _ ih => exact ih
  | targetDeco _ _ ih =>
    intro c' hr
    obtain ⟨h1, h2⟩ := ih c' hr
    rw [shows_targetDeco.keptBy, shows_targetDeco.decs]
    exact ⟨h1, .passTarget h2⟩
  | insert _ ih =>
    intro c' hr
    obtain ⟨h1, h2⟩ := ih c' hr
    rw [shows_insert.keptBy, shows_insert.decs]
    exact ⟨h1, .insert h2⟩
  | insertGroup hi _ ih =>
    intro c' hr
    obtain ⟨h1, h2⟩ := ih c' hr
    rw [kept_append, decs_append, (inserts_used hi).2.2.1, (inserts_used hi).2.2.2]
    exact ⟨h1, .insertGroup (inserts_free hi) (by simpa [nodeSize, Nat.add_assoc] using h2)⟩
  | stopInserting _ ih => exact ih
  | keep _ ih =>
    intro c' hr
    obtain ⟨h1, h2⟩ := ih c' hr
    rw [shows_keep.keptBy, shows_keep.decs]
    exact ⟨.tok h1, .keep h2⟩
  | matchGroup _ _ ih ih' =>
    intro c' hr
    obtain ⟨h1, h2⟩ := ih _ rfl
    obtain ⟨h3, h4⟩ := ih' c' hr
    rw [List.cons_append, shows_enter.keptBy, kept_append, shows_enter.decs, decs_append,
      List.singleton_append, ← List.cons_append, List.nil_append]
    exact ⟨.group h1 h3, .group h2 h4⟩
  | matchGroupExit _ ih => simp
  | done =>
    rintro _ ⟨⟩
    exact ⟨.nil _ _, .nil _ _⟩

/-! ### From alignments to scripts -/

theorem decides_deletes {c i} {ns : List (Node M)} {ds c'} (h : Decides prm c i ns ds c') :
    ∃ ss, Deletes prm c i ns ss (some c') ∧ decs ss = ds := by
  induction h with
  | nil c i => exact ⟨_, .nil c i, rfl⟩
  | pass hp _ ih =>
    obtain ⟨ss, h1, rfl⟩ := ih
    exact ⟨_, .pass hp h1, (shows_pass hp).decs ss⟩
  | tok _ ih =>
    obtain ⟨ss, h1, rfl⟩ := ih
    exact ⟨_, .tok h1, shows_delete.decs ss⟩
  | group _ _ ih ih' =>
    obtain ⟨ss, h1, rfl⟩ := ih
    obtain ⟨ss', h2, rfl⟩ := ih'
    refine ⟨_, .group h1 h2, ?_⟩
    rw [List.cons_append, shows_enter.decs, decs_append]
    rfl

theorem free_inserts (prm : Params) (c : Conf) : ∀ (ms : List (Node M)) (j : Nat), DecisionFree ms →
    ∃ ss, Inserts prm c j ms ss
  | [], j, _ => ⟨_, .nil j⟩
  | m :: ms, j, h => by
    obtain ⟨h1, h2, h3⟩ := (decisionFree_cons m ms).mp h
    cases m with
    | deco t => exact ⟨_, .deco (free_inserts prm c ms (j + 1) h3).choose_spec⟩
    | tok t mt => exact ⟨_, .tok (free_inserts prm c ms (j + 1) h3).choose_spec⟩
    | group cs mt =>
      exact ⟨_, .group (free_inserts prm c cs (j + 1) (h2 _ _ rfl)).choose_spec
        (free_inserts prm c ms (j + 1 + seqSize cs) h3).choose_spec⟩
    | rstart => simp [Node.isDecision] at h1
    | rend => simp [Node.isDecision] at h1
    | exit => simp [Node.isDecision] at h1

/-- What can be inserted can be inserted after the deletions. -/
theorem insert_late {ms ms' : List (Node M)} {j j'}
    (hins : ∀ c i ns ss r, Edits prm .inserting c i ns j ms ss r →
      ∃ ss', Edits prm .inserting c i ns j' ms' ss' r ∧ decs ss' = decs ss ∧ keptBy ss' = keptBy ss)
    {ph c i ns ss r} (h : Edits prm ph c i ns j ms ss r) (hph : ph = .deleting) :
    ∃ ss', Edits prm .deleting c i ns j' ms' ss' r ∧ decs ss' = decs ss ∧ keptBy ss' = keptBy ss := by
  subst hph
  generalize hj : j = j₀ at h
  generalize hm : ms = ms₀ at h
  generalize hp : Phase.deleting = ph at h
  induction h with
  | pass ho hp' _ ih =>
    subst hj hm hp
    obtain ⟨ss', h1, h2, h3⟩ := ih rfl rfl rfl
    refine ⟨_, .pass (.inr rfl) hp' h1, ?_, ?_⟩
    · rw [(shows_pass hp').decs, (shows_pass hp').decs, h2]
    · rw [(shows_pass hp').keptBy, (shows_pass hp').keptBy, h3]
  | exit c i ns =>
    subst hj hm hp
    exact ⟨_, .exit c i ns j' ms' (.inr rfl), rfl, rfl⟩
  | startEditing _ ih => cases hp
  | noEditing _ ih => cases hp
  | delete _ ih =>
    subst hj hm
    obtain ⟨ss', h1, h2, h3⟩ := ih rfl rfl rfl
    refine ⟨_, .delete h1, ?_, ?_⟩
    · rw [shows_delete.decs, shows_delete.decs, h2]
    · rw [shows_delete.keptBy, shows_delete.keptBy, h3]
  | deleteGroup hd _ ih =>
    subst hj hm
    obtain ⟨ss', h1, h2, h3⟩ := ih rfl rfl rfl
    refine ⟨_, .deleteGroup hd h1, ?_, ?_⟩
    · rw [decs_append, decs_append, h2]
    · rw [kept_append, kept_append, h3]
  | deleteGroupExit hd =>
    subst hj hm
    exact ⟨_, .deleteGroupExit hd, rfl, rfl⟩
  | stopDeleting h _ =>
    subst hj hm
    obtain ⟨ss', h1, h2, h3⟩ := hins _ _ _ _ _ h
    exact ⟨ss', .stopDeleting h1, h2, h3⟩
  | targetDeco ho _ ih => subst hp; simp at ho
  | insert _ ih => cases hp
  | insertGroup hi _ ih => cases hp
  | stopInserting _ ih => cases hp
  | keep _ ih => cases hp
  | matchGroup _ _ ih ih' => cases hp
  | matchGroupExit _ ih => cases hp
  | done => cases hp

theorem insert_deco {ns ms : List (Node M)} {c i j t ss r}
    (h : Edits prm .deleting c i ns (j + 1) ms ss r) :
    ∃ ss', Edits prm .deleting c i ns j (.deco t :: ms) ss' r
      ∧ decs ss' = decs ss ∧ keptBy ss' = keptBy ss :=
  insert_late (fun _ _ _ ss _ h => ⟨_, .targetDeco (.inl rfl) h, shows_targetDeco.decs ss,
    shows_targetDeco.keptBy ss⟩) h rfl

theorem insert_tok {ns ms : List (Node M)} {c i j t mt ss r}
    (h : Edits prm .deleting c i ns (j + 1) ms ss r) :
    ∃ ss', Edits prm .deleting c i ns j (.tok t mt :: ms) ss' r
      ∧ decs ss' = decs ss ∧ keptBy ss' = keptBy ss :=
  insert_late (fun _ _ _ ss _ h => ⟨_, .insert h, shows_insert.decs ss, shows_insert.keptBy ss⟩) h rfl

theorem insert_group {ns cs ms : List (Node M)} {c i j mt ss r} (hf : DecisionFree cs)
    (h : Edits prm .deleting c i ns (j + 1 + seqSize cs) ms ss r) :
    ∃ ss', Edits prm .deleting c i ns j (.group cs mt :: ms) ss' r
      ∧ decs ss' = decs ss ∧ keptBy ss' = keptBy ss := by
  refine insert_late (fun c _ _ ss _ h => ?_) h rfl
  obtain ⟨s1, h1⟩ := free_inserts prm c cs (j + 1) hf
  refine ⟨_, .insertGroup h1 h, ?_, ?_⟩
  · rw [decs_append, (inserts_used h1).2.2.2]; rfl
  · rw [kept_append, (inserts_used h1).2.2.1]; rfl

theorem aligns_edits {i} {ns : List (Node M)} {j} {ms : List (Node M)} {K} (h : Aligns i ns j ms K) :
    ∀ c ds c', Decides prm c i ns ds c' →
      ∃ ss, Edits prm .deleting c i ns j ms ss (some c') ∧ decs ss = ds ∧ keptBy ss = K := by
  induction h with
  | nil i j =>
    intro c ds c' hd
    cases hd
    exact ⟨_, .stopDeleting (.stopInserting (.done c i j)), rfl, rfl⟩
  | passProto hn _ ih =>
    intro c ds c' hd
    cases hd with
    | pass hp hd =>
      obtain ⟨ss, h1, rfl, h3⟩ := ih _ _ _ hd
      exact ⟨_, .pass (.inr rfl) hp h1, (shows_pass hp).decs ss, ((shows_pass hp).keptBy ss).trans h3⟩
    | tok _ => simp at hn
    | group _ _ => simp at hn
  | passTarget _ ih =>
    intro c ds c' hd
    obtain ⟨ss, h1, rfl, rfl⟩ := ih _ _ _ hd
    exact insert_deco h1
  | delete hn _ ih =>
    intro c ds c' hd
    cases hd with
    | pass hp hd =>
      have := pass_node hp
      rcases hn with ⟨_, _, rfl⟩ | ⟨_, _, rfl⟩ <;> simp at this
    | tok hd =>
      obtain ⟨ss, h1, rfl, rfl⟩ := ih _ _ _ (by simpa [nodeSize] using hd)
      refine ⟨_, .delete (by simpa [nodeSize] using h1), shows_delete.decs ss, shows_delete.keptBy ss⟩
    | group hd hd' =>
      obtain ⟨ss, h1, rfl, rfl⟩ := ih _ _ _ (by simpa [nodeSize, Nat.add_assoc] using hd')
      obtain ⟨s1, h2, rfl⟩ := decides_deletes hd
      refine ⟨_, .deleteGroup h2 (by simpa [nodeSize, Nat.add_assoc] using h1), ?_, ?_⟩
      · rw [List.cons_append, shows_enter.decs, decs_append]; rfl
      · rw [List.cons_append, shows_enter.keptBy, kept_append, (deletes_used h2).2.2]; rfl
  | insert _ ih =>
    intro c ds c' hd
    obtain ⟨ss, h1, rfl, rfl⟩ := ih _ _ _ hd
    exact insert_tok h1
  | insertGroup hf _ ih =>
    intro c ds c' hd
    obtain ⟨ss, h1, rfl, rfl⟩ := ih _ _ _ hd
    exact insert_group hf (by simpa [nodeSize, Nat.add_assoc] using h1)
  | keep _ ih =>
    intro c ds c' hd
    cases hd with
    | pass hp hd => have := pass_node hp; simp at this
    | tok hd =>
      obtain ⟨ss, h1, rfl, rfl⟩ := ih _ _ _ hd
      refine ⟨_, .stopDeleting (.stopInserting (.keep (.startEditing h1))), ?_, ?_⟩
      · rw [shows_keep.decs, shows_start.decs]; rfl
      · rw [shows_keep.keptBy, shows_start.keptBy]; rfl
  | group _ _ ih ih' =>
    intro c ds c' hd
    cases hd with
    | pass hp hd => have := pass_node hp; simp at this
    | group hd hd' =>
      obtain ⟨ss, h1, rfl, rfl⟩ := ih _ _ _ hd
      obtain ⟨ss', h2, rfl, rfl⟩ := ih' _ _ _ hd'
      refine ⟨_, .stopDeleting (.stopInserting (.matchGroup (.startEditing h1) (.startEditing h2))),
        ?_, ?_⟩
      · rw [List.cons_append, shows_enter.decs, decs_append, shows_start.decs, shows_start.decs]; rfl
      · rw [List.cons_append, shows_enter.keptBy, kept_append, shows_start.keptBy, shows_start.keptBy]; rfl

/-- Everything that can be deleted can be deleted in a script that inserts the whole target. -/
theorem deletes_edits {c i} {ns : List (Node M)} {ss r} (h : Deletes prm c i ns ss r) {j}
    {ms : List (Node M)} (hm : DecisionFree ms) :
    ∃ ss', Edits prm .deleting c i ns j ms ss' r ∧ decs ss' = decs ss := by
  induction h with
  | nil c i =>
    have : ∀ (ms : List (Node M)) (j : Nat), DecisionFree ms →
        ∃ ss', Edits prm .deleting c i [] j ms ss' (some c) ∧ decs ss' = [] := by
      intro ms
      induction ms with
      | nil => intro j _; exact ⟨_, .stopDeleting (.stopInserting (.done c i j)), rfl⟩
      | cons m ms ih =>
        intro j hf
        obtain ⟨h1, h2, h3⟩ := (decisionFree_cons m ms).mp hf
        cases m with
        | deco t =>
          obtain ⟨ss, h, he⟩ := ih (j + 1) h3
          obtain ⟨ss', h', he', -⟩ := insert_deco (t := t) h
          exact ⟨ss', h', he'.trans he⟩
        | tok t mt =>
          obtain ⟨ss, h, he⟩ := ih (j + 1) h3
          obtain ⟨ss', h', he', -⟩ := insert_tok (t := t) (mt := mt) h
          exact ⟨ss', h', he'.trans he⟩
        | group cs mt =>
          obtain ⟨ss, h, he⟩ := ih (j + 1 + seqSize cs) h3
          obtain ⟨ss', h', he', -⟩ := insert_group (mt := mt) (h2 _ _ rfl) h
          exact ⟨ss', h', he'.trans he⟩
        | rstart => simp [Node.isDecision] at h1
        | rend => simp [Node.isDecision] at h1
        | exit => simp [Node.isDecision] at h1
    exact this ms j hm
  | pass hp _ ih =>
    obtain ⟨ss', h1, h2⟩ := ih
    refine ⟨_, .pass (.inr rfl) hp h1, ?_⟩
    rw [(shows_pass hp).decs, (shows_pass hp).decs, h2]
  | exit c i ns => exact ⟨_, .exit c i ns j ms (.inr rfl), rfl⟩
  | tok _ ih =>
    obtain ⟨ss', h1, h2⟩ := ih
    refine ⟨_, .delete h1, ?_⟩
    rw [shows_delete.decs, shows_delete.decs, h2]
  | group hd _ _ ih' =>
    obtain ⟨ss', h1, h2⟩ := ih'
    refine ⟨_, .deleteGroup hd h1, ?_⟩
    rw [decs_append, decs_append, h2]
  | groupExit hd _ => exact ⟨_, .deleteGroupExit hd, rfl⟩

theorem Deletes.append {c i} {ns : List (Node M)} {ss r} (h : Deletes prm c i ns ss r) :
    ∀ {c'}, r = some c' → ∀ {ns' : List (Node M)} {ss' r'},
      Deletes prm c' (i + seqSize ns) ns' ss' r' → Deletes prm c i (ns ++ ns') (ss ++ ss') r' := by
  induction h with
  | nil c i =>
    rintro _ ⟨⟩ ns' ss' r' h
    simpa [seqSize] using h
  | pass hp _ ih =>
    intro c' hr ns' ss' r' h
    refine .pass hp (ih hr ?_)
    have := pass_node hp
    rcases this with ⟨t, rfl⟩ | rfl | rfl | rfl <;>
      simpa [seqSize, nodeSize, Nat.add_assoc] using h
  | exit => intro c' hr; cases hr
  | tok _ ih =>
    intro c' hr ns' ss' r' h
    refine .tok (ih hr ?_)
    simpa [seqSize, nodeSize, Nat.add_assoc] using h
  | group hd _ _ ih' =>
    intro c' hr ns' ss' r' h
    have := Deletes.group (mt := ‹M›) hd (ih' hr (ns' := ns') (ss' := ss') (r' := r')
      (by simpa [seqSize, nodeSize, Nat.add_assoc] using h))
    simpa using this
  | groupExit => intro c' hr; cases hr

/-- The confidence inside and outside regions. -/
def confIn (b : Bool) : Conf := if b then .low else .high

theorem seenAt_confIn (i : Nat) (b : Bool) : seenAt i (confIn b) = (⟨i, .inRegion⟩, inValue b) := by
  cases b <;> simp [seenAt, confIn]

/-- Whatever decisions the region grammar allows can be made in an edit script. -/
theorem regionSeq_deletes {b x i} {ns : List (Node M)} {ds} (h : RegionSeq b x i ns ds) :
    ∃ ss, Deletes prm (confIn b) i ns ss (if x then none else some (confIn b)) ∧ decs ss = ds := by
  induction h with
  | nil b i => exact ⟨_, .nil _ i, rfl⟩
  | deco _ ih =>
    obtain ⟨ss, h1, rfl⟩ := ih
    exact ⟨_, .pass (.deco _ _ _) h1, rfl⟩
  | tok _ ih =>
    obtain ⟨ss, h1, rfl⟩ := ih
    exact ⟨_, .tok h1, by rw [shows_delete.decs, seenAt_confIn]; rfl⟩
  | group _ _ ih ih' =>
    obtain ⟨ss, h1, rfl⟩ := ih
    obtain ⟨ss', h2, rfl⟩ := ih'
    refine ⟨_, .group h1 h2, ?_⟩
    rw [List.cons_append, shows_enter.decs, decs_append, seenAt_confIn]; rfl
  | @skipStart b _ _ _ _ _ ih =>
    obtain ⟨ss, h1, rfl⟩ := ih
    cases b
    · exact ⟨_, .pass (.noStart _) h1, rfl⟩
    · exact ⟨_, .pass (.inStart _) h1, rfl⟩
  | @skipEnd b _ _ _ _ _ ih =>
    obtain ⟨ss, h1, rfl⟩ := ih
    cases b
    · exact ⟨_, .pass (.outStop _) h1, rfl⟩
    · exact ⟨_, .pass (.noStop _) h1, rfl⟩
  | skipExit _ ih =>
    obtain ⟨ss, h1, rfl⟩ := ih
    exact ⟨_, .pass (.noExit _ _) h1, rfl⟩
  | region _ _ ih ih' =>
    obtain ⟨ss, h1, rfl⟩ := ih
    obtain ⟨ss', h2, rfl⟩ := ih'
    refine ⟨_, .pass (.start _) (Deletes.append h1 rfl (.pass (.stop _) h2)), ?_⟩
    rw [(shows_pass (prm := prm) (M := M) (.start _)).decs, decs_append,
      (shows_pass (prm := prm) (M := M) (.stop _)).decs]
    rfl
  | exit => exact ⟨_, .exit _ _ _, rfl⟩
  | exitGroup _ ih =>
    obtain ⟨ss, h1, rfl⟩ := ih
    exact ⟨_, .groupExit h1, by rw [shows_enter.decs, seenAt_confIn]; rfl⟩
  | exitRegion _ ih =>
    obtain ⟨ss, h1, rfl⟩ := ih
    exact ⟨_, .pass (.start _) h1, rfl⟩

end RUSure.Lemmas
