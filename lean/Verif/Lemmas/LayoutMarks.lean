import Verif.Lemmas.LayoutEdits

/-!
# Texts of nodes and boxes of subproblems
-/

namespace RUSure.Draw

variable {M : Type}

theorem leaves_leaf (seq : Option Nat) (pos i : Nat) {n : Node M} (ns : List (Node M))
    (h : ∀ cs mt, n ≠ .group cs mt) :
    leaves seq pos i (n :: ns) = ((i, n), (seq, pos)) :: leaves seq (pos + 1) (i + 1) ns := by
  cases n <;> first | exact absurd rfl (h _ _) | simp [leaves, nodeSize]

theorem leaves_group (seq : Option Nat) (pos i : Nat) (cs : List (Node M)) (mt : M)
    (ns : List (Node M)) :
    leaves seq pos i (.group cs mt :: ns)
      = leaves (some i) 0 (i + 1) cs ++ leaves seq (pos + 1) (i + (1 + seqSize cs)) ns := by
  simp [leaves, nodeSize]

/-- A mark between the slots before and after a node. -/
def MarkOf (L : List ((Option Nat × Nat) × (ℚ × ℚ))) (l : (Nat × Node M) × (Option Nat × Nat))
    (m : Mark M) : Prop :=
  m.index = l.1.1 ∧ m.node = l.1.2
    ∧ ∃ a b, (l.2, (a, m.lo)) ∈ L ∧ ((l.2.1, l.2.2 + 1), (m.hi, b)) ∈ L

theorem track_marks (w g tail : ℚ) (L : List ((Option Nat × Nat) × (ℚ × ℚ))) (ns : List (Node M)) :
    ∀ (seq : Option Nat) (pos i : Nat) (x : ℚ),
      (∀ s ∈ (track w g tail seq pos i x ns).slots, s ∈ L) →
      List.Forall₂ (MarkOf L) (leaves seq pos i ns) (track w g tail seq pos i x ns).marks := by
  induction ns using seq_induction with
  | nil =>
    intro seq pos i x _
    simp [leaves, track]
  | leaf n ns hn ih =>
    intro seq pos i x hL
    rw [track_leaf _ _ _ _ _ _ _ _ hn] at hL ⊢
    rw [leaves_leaf _ _ _ _ hn]
    refine List.Forall₂.cons ⟨rfl, rfl, x, _, hL _ (List.mem_cons_self ..),
      hL _ (List.mem_cons_of_mem _ (track_ends w g tail ns seq (pos + 1) (i + 1) (x + w + g)).1)⟩ ?_
    exact ih _ _ _ _ fun s hs => hL s (List.mem_cons_of_mem _ hs)
  | group cs mt ns ihc ih =>
    intro seq pos i x hL
    rw [track_group] at hL ⊢
    rw [leaves_group]
    exact List.rel_append
      (ihc _ _ _ _ fun s hs => hL s (List.mem_append_left _ (List.mem_cons_of_mem _ hs)))
      (ih _ _ _ _ fun s hs => hL s (List.mem_append_right _ hs))

/-- Spans are those of the sequences of groups, and contain their slots. -/
theorem track_spans {w g tail : ℚ} (hw : 0 ≤ w) (hg : 0 ≤ g) (ht : 0 ≤ tail) (ns : List (Node M)) :
    ∀ (seq : Option Nat) (pos i : Nat) (x : ℚ),
      (∀ s ∈ (track w g tail seq pos i x ns).slots, s.1.1 = seq ∨ ∃ j sp, s.1.1 = some j
        ∧ (some j, sp) ∈ (track w g tail seq pos i x ns).spans ∧ sp.1 ≤ s.2.1 ∧ s.2.2 ≤ sp.2)
      ∧ ((track w g tail seq pos i x ns).spans.map Prod.fst).Nodup
      ∧ ∀ s ∈ (track w g tail seq pos i x ns).spans, ∃ j, s.1 = some j ∧ i ≤ j ∧ j < i + seqSize ns := by
  induction ns using seq_induction with
  | nil =>
    intro seq pos i x
    simp [track]
  | leaf n ns hn ih =>
    intro seq pos i x
    rw [track_leaf _ _ _ _ _ _ _ _ hn]
    obtain ⟨h1, h2, h3⟩ := ih seq (pos + 1) (i + 1) (x + w + g)
    refine ⟨?_, h2, ?_⟩
    · intro s hs
      rcases List.mem_cons.mp hs with rfl | hs
      · exact Or.inl rfl
      · exact h1 s hs
    · intro s hs
      obtain ⟨j, a, b, c⟩ := h3 s hs
      exact ⟨j, a, by omega, by simp only [seqSize, size_leaf hn]; omega⟩
  | group cs mt ns ihc ih =>
    intro seq pos i x
    rw [track_group]
    have hb := track_bounds hw hg ht cs (some i) 0 (i + 1) (x + w + g + g)
    obtain ⟨c1, c2, c3⟩ := ihc (some i) 0 (i + 1) (x + w + g + g)
    obtain ⟨h1, h2, h3⟩ := ih seq (pos + 1) (i + (1 + seqSize cs))
      ((track w g tail (some i) 0 (i + 1) (x + w + g + g) cs).stop + tail + g)
    refine ⟨?_, ?_, ?_⟩
    · intro s hs
      rcases List.mem_append.mp hs with hs | hs
      · rcases List.mem_cons.mp hs with rfl | hs
        · exact Or.inl rfl
        · rcases c1 s hs with h | ⟨j, sp, k1, k2, k3⟩
          · obtain ⟨b1, b2, b3⟩ := hb.2.1 s hs
            exact Or.inr ⟨i, _, h,
              List.mem_append_left _ (List.mem_append_right _ (List.mem_singleton_self _)),
              by dsimp; linarith, by dsimp; linarith⟩
          · exact Or.inr ⟨j, sp, k1, List.mem_append_left _ (List.mem_append_left _ k2), k3⟩
      · rcases h1 s hs with h | ⟨j, sp, k1, k2, k3⟩
        · exact Or.inl h
        · exact Or.inr ⟨j, sp, k1, List.mem_append_right _ k2, k3⟩
    · rw [List.map_append, List.map_append, List.nodup_append, List.nodup_append]
      refine ⟨⟨c2, by simp, ?_⟩, h2, ?_⟩
      · intro a ha b hb' hab
        subst hab
        obtain ⟨s, hs, he⟩ := List.mem_map.mp ha
        obtain ⟨j, a', b', _⟩ := c3 s hs
        simp only [List.map_cons, List.map_nil, List.mem_singleton] at hb'
        rw [he, hb'] at a'
        cases a'
        omega
      · intro a ha b hb' hab
        subst hab
        obtain ⟨s', hs', he'⟩ := List.mem_map.mp hb'
        obtain ⟨j', a', b', _⟩ := h3 s' hs'
        rw [he'] at a'
        rcases List.mem_append.mp ha with ha | ha
        · obtain ⟨s, hs, he⟩ := List.mem_map.mp ha
          obtain ⟨j, d1, d2, d3⟩ := c3 s hs
          rw [he, a'] at d1
          cases d1
          omega
        · simp only [List.map_cons, List.map_nil, List.mem_singleton] at ha
          rw [ha] at a'
          cases a'
          omega
    · intro s hs
      simp only [seqSize, nodeSize]
      rcases List.mem_append.mp hs with hs | hs
      · rcases List.mem_append.mp hs with hs | hs
        · obtain ⟨j, d1, d2, d3⟩ := c3 s hs
          exact ⟨j, d1, by omega, by omega⟩
        · rw [List.mem_singleton] at hs
          subst hs
          exact ⟨i, rfl, le_refl _, by omega⟩
      · obtain ⟨j, d1, d2, d3⟩ := h3 s hs
        exact ⟨j, d1, by omega, by omega⟩

/-- The span that is found for a sequence contains its slots. -/
theorem span_found {w g tail x : ℚ} (hw : 0 ≤ w) (hg : 0 ≤ g) (ht : 0 ≤ tail) (ns : List (Node M))
    (root : ℚ × ℚ) (h1 : root.1 ≤ x) (h2 : (track w g tail none 0 0 x ns).stop ≤ root.2)
    {q : Option Nat} {p : Nat} (hq : Has (track w g tail none 0 0 x ns).slots (q, p)) :
    ∃ sp, find ((track w g tail none 0 0 x ns).spans ++ [(none, root)]) q = some sp
      ∧ ∀ p v, ((q, p), v) ∈ (track w g tail none 0 0 x ns).slots → sp.1 ≤ v.1 ∧ v.2 ≤ sp.2 := by
  obtain ⟨s1, s2, s3⟩ := track_spans hw hg ht ns none 0 0 x
  obtain ⟨b1, b2, b3⟩ := track_bounds hw hg ht ns none 0 0 x
  have nd : (((track w g tail none 0 0 x ns).spans ++ [(none, root)]).map Prod.fst).Nodup := by
    rw [List.map_append, List.nodup_append]
    refine ⟨s2, by simp, ?_⟩
    intro a ha b hb hab
    obtain ⟨s, hs, he⟩ := List.mem_map.mp ha
    obtain ⟨j, d1, _⟩ := s3 s hs
    simp only [List.map_cons, List.map_nil, List.mem_singleton] at hb
    rw [he, hab, hb] at d1
    cases d1
  cases q with
  | none =>
    refine ⟨root, find_of_mem nd (by simp), fun p v hv => ?_⟩
    obtain ⟨c1, c2, c3⟩ := b2 _ hv
    exact ⟨by linarith, by linarith⟩
  | some j =>
    obtain ⟨v0, hv0⟩ := hq
    rcases s1 _ hv0 with h | ⟨j', sp, k1, k2, k3⟩
    · cases h
    · have e : j' = j := by simpa using k1.symm
      subst e
      refine ⟨sp, find_of_mem nd (List.mem_append_left _ k2), fun p v hv => ?_⟩
      rcases s1 _ hv with h | ⟨j2, sp2, l1, l2, l3⟩
      · cases h
      · have e : j2 = j' := by simpa using l1.symm
        subst e
        have f1 := find_of_mem s2 k2
        have f2 := find_of_mem s2 l2
        rw [f1] at f2
        cases f2
        exact l3

/-! ## Subproblems -/

section
variable {V V' : Option Nat × Nat → Prop} {A A' : Option Nat × Nat → Option Nat × Nat → Prop}
  {D D' : Nat → Nat} [DecidableEq M]

omit [DecidableEq M] in
theorem mem_overNodes {β : Type} {body : Nat → Node M → List β} {b : β} (ms : List (Node M)) :
    ∀ (t : Option Nat) (u j d : Nat), Sub V A D t u j d ms → b ∈ overNodes body j ms →
      ∃ u j m, Here V A D t u j d (some m) ∧ b ∈ body j m := by
  induction ms with
  | nil =>
    intro t u j d _ h
    cases h
  | cons m ms ih =>
    intro t u j d hs h
    rcases List.mem_append.mp h with h | h
    · exact ⟨u, j, m, ⟨ms, hs⟩, h⟩
    · exact ih _ _ _ _ (sub_cons hs).2.2 h

/-- The sequences of subproblems have places. -/
theorem subproblems_ok (ns : List (Node M)) : ∀ (q : Option Nat) (p i d : Nat) (t : Option Nat)
    (u j d' : Nat) (target : List (Node M)), Sub V A D q p i d ns → Sub V' A' D' t u j d' target →
    ∀ s ∈ subproblems i j target ns, V (s.1, 0) ∧ V' (s.2, 0) := by
  induction ns using seq_induction with
  | nil =>
    intro q p i d t u j d' target _ _ s hs
    simp [subproblems] at hs
  | leaf n ns hn ih =>
    intro q p i d t u j d' target h h' s hs
    have : subproblems i j target (n :: ns) = subproblems (i + nodeSize n) j target ns := by
      cases n <;> first | exact absurd rfl (hn _ _) | simp [subproblems]
    rw [this] at hs
    exact ih _ _ _ _ _ _ _ _ _ (sub_cons h).2.2 h' s hs
  | group cs mt ns ihc ih =>
    intro q p i d t u j d' target h h' s hs
    rw [subproblems.eq_def] at hs
    dsimp only at hs
    rcases List.mem_append.mp hs with hs | hs
    · obtain ⟨u1, j1, m, ⟨ms, hm⟩, hs⟩ := mem_overNodes target _ _ _ _ h' hs
      obtain ⟨h1, h2, ⟨g1, g2, g3, g4⟩, h3⟩ := sub_group.mp h
      cases m with
      | group cs' mt' =>
        obtain ⟨k1, k2, ⟨l1, l2, l3, l4⟩, k3⟩ := sub_group.mp hm
        dsimp only at hs
        split at hs
        · rcases List.mem_cons.mp hs with rfl | hs
          · exact ⟨g4.head, l4.head⟩
          · exact ihc _ _ _ _ _ _ _ _ _ g4 l4 s hs
        · cases hs
      | _ => cases hs
    · exact ih _ _ _ _ _ _ _ _ _ (sub_cons h).2.2 h' s hs

end

section
variable [DecidableEq M]

omit [DecidableEq M] in
theorem overTarget_first (body : Nat → Nat → Option (Node M) → List EditEdge) (u j : Nat)
    (ms : List (Node M)) : ∃ m, ∀ e ∈ body u j m, e ∈ overTarget body u j ms := by
  cases ms with
  | nil => exact ⟨none, fun e h => h⟩
  | cons m ms => exact ⟨some m, fun e h => List.mem_append_left _ h⟩

/-- Where the matching of two sequences begins there is an edge. -/
theorem match_begins (prm : Params) (q : Option Nat) (p i : Nat) (t : Option Nat) (j : Nat)
    (target ns : List (Node M)) :
    ∃ e ∈ matchEdges prm q p i t j target ns, e.source = .at .process .high q p t 0 := by
  have cell : ∀ (u j' : Nat) (n m : Option (Node M)) (inner : List EditEdge),
      silentEdge (.at .process .high q p t u) (.at .matching .high q p t u)
        ∈ cellEdges prm q p i t u j' n m inner := by
    intro u j' n m inner
    rw [cellEdges]
    simp only [List.mem_append, mem_bothConf, List.mem_cons, List.not_mem_nil, or_false]
    exact Or.inl (Or.inl (Or.inl (Or.inl (Or.inl (Or.inl (Or.inl (Or.inr ⟨.high, Or.inr rfl⟩)))))))
  cases ns with
  | nil =>
    rw [matchEdges]
    obtain ⟨m, h⟩ := overTarget_first (fun u j' m => cellEdges prm q p i t u j' none m []) 0 j target
    exact ⟨_, h _ (cell 0 j none m []), rfl⟩
  | cons n ns =>
    rw [matchEdges.eq_def]
    dsimp only
    obtain ⟨m, h⟩ := overTarget_first (fun u j' m => cellEdges prm q p i t u j' (some n) m
      (match n with
        | .group cs _ =>
          (match m with
            | some (.group cs' _) => matchEdges prm (some i) 0 (i + 1) (some j') (j' + 1) cs' cs
            | _ => [])
        | _ => [])) 0 j target
    exact ⟨_, List.mem_append_left _ (h _ (cell 0 j (some n) m _)), rfl⟩

omit [DecidableEq M] in
theorem overTarget_nodes {β : Type} {body : Nat → Nat → Option (Node M) → List EditEdge}
    {body' : Nat → Node M → List β} {b : β} {e : EditEdge}
    (hbody : ∀ u j m, b ∈ body' j m → ∃ e' ∈ body u j (some m), e'.source = e.source)
    (ms : List (Node M)) : ∀ (u j : Nat), b ∈ overNodes body' j ms →
      ∃ e' ∈ overTarget body u j ms, e'.source = e.source := by
  induction ms with
  | nil =>
    intro u j h
    cases h
  | cons m ms ih =>
    intro u j h
    rcases List.mem_append.mp h with h | h
    · obtain ⟨e', h1, h2⟩ := hbody u j m h
      exact ⟨e', List.mem_append_left _ h1, h2⟩
    · obtain ⟨e', h1, h2⟩ := ih (u + 1) _ h
      exact ⟨e', List.mem_append_right _ h1, h2⟩

/-- The edges of a subproblem are there. -/
theorem subproblem_begins (prm : Params) (ns : List (Node M)) :
    ∀ (q : Option Nat) (p i : Nat) (t : Option Nat) (j : Nat) (target : List (Node M)),
      ∀ s ∈ subproblems i j target ns, ∃ e ∈ matchEdges prm q p i t j target ns,
        e.source = .at .process .high s.1 0 s.2 0 := by
  induction ns using seq_induction with
  | nil =>
    intro q p i t j target s hs
    simp [subproblems] at hs
  | leaf n ns hn ih =>
    intro q p i t j target s hs
    have : subproblems i j target (n :: ns) = subproblems (i + nodeSize n) j target ns := by
      cases n <;> first | exact absurd rfl (hn _ _) | simp [subproblems]
    rw [this] at hs
    obtain ⟨e, h1, h2⟩ := ih q (p + 1) _ t _ _ s hs
    rw [matchEdges]
    exact ⟨e, List.mem_append_right _ h1, h2⟩
  | group cs mt ns ihc ih =>
    intro q p i t j target s hs
    rw [subproblems.eq_def] at hs
    dsimp only at hs
    rw [matchEdges]
    rcases List.mem_append.mp hs with hs | hs
    · obtain ⟨e', h1, h2⟩ := overTarget_nodes (e := silentEdge (.at .process .high s.1 0 s.2 0) .final)
        (body := fun u j' m => cellEdges prm q p i t u j' (some (.group cs mt)) m
          (match (motive := Option (Node M) → List EditEdge) m with
            | some (.group cs' _) => matchEdges prm (some i) 0 (i + 1) (some j') (j' + 1) cs' cs
            | _ => []))
        (fun u j' m hm => by
          cases m with
          | group cs' mt' =>
            dsimp only at hm ⊢
            split at hm
            · rename_i heq
              obtain ⟨e', h1, h2⟩ : ∃ e ∈ matchEdges prm (some i) 0 (i + 1) (some j') (j' + 1) cs' cs,
                  e.source = .at .process .high s.1 0 s.2 0 := by
                rcases List.mem_cons.mp hm with rfl | hm
                · exact match_begins prm (some i) 0 (i + 1) (some j') (j' + 1) cs' cs
                · exact ihc _ _ _ _ _ _ s hm
              refine ⟨e', ?_, h2⟩
              rw [cellEdges]
              refine List.mem_append_right _ ?_
              rw [matchGroupEdges, if_pos heq]
              exact List.mem_append_left _ (List.mem_append_right _ h1)
            · cases hm
          | _ => cases hm) target 0 j hs
      exact ⟨e', List.mem_append_left _ h1, h2⟩
    · obtain ⟨e, h1, h2⟩ := ih q (p + 1) _ t _ _ s hs
      exact ⟨e, List.mem_append_right _ h1, h2⟩

/-! ### Only subproblems have states where matching begins -/

/-- A property that holds of the final state and the states in deleted or inserted groups. -/
structure Lax (P : EditState → Prop) : Prop where
  final : P .final
  del : ∀ c q p t u, P (.at .recDelete c q p t u)
  ins : ∀ c q p t u, P (.at .recInsert c q p t u)

/-- Both ends. -/
def Ends (P : EditState → Prop) (e : EditEdge) : Prop := P e.source ∧ P e.dest

omit [DecidableEq M] in
theorem insertNode_lax {P : EditState → Prop} (hP : Lax P) (prm : Params) (al : EditAlign) (allow : Bool)
    (q : Option Nat) (p : Nat) (t : Option Nat) (u j : Nat) (m : Node M)
    (ha : ∀ c u, P (.at al c q p t u))
    (hin : ∀ cs mt, m = .group cs mt → ∀ e ∈ insertSeq prm q p (some j) 0 (j + 1) cs, Ends P e) :
    ∀ e ∈ insertNode prm al allow q p t u j m, Ends P e := by
  intro e he
  cases m with
  | group cs mt =>
    rw [insertNode] at he
    cases allow with
    | false => cases he
    | true =>
      rw [if_pos rfl] at he
      simp only [List.mem_append, mem_bothConf, List.mem_singleton] at he
      rcases he with (⟨c, rfl⟩ | he) | ⟨c, rfl⟩
      · exact ⟨ha _ _, hP.ins _ _ _ _ _⟩
      · exact hin cs mt rfl e he
      · exact ⟨hP.ins _ _ _ _ _, ha _ _⟩
  | deco txt =>
    rw [insertNode] at he
    simp only [mem_bothConf, List.mem_singleton] at he
    obtain ⟨c, rfl⟩ := he
    exact ⟨ha _ _, ha _ _⟩
  | tok txt mt =>
    rw [insertNode] at he
    cases allow with
    | false => cases he
    | true =>
      rw [if_pos rfl] at he
      simp only [mem_bothConf, List.mem_singleton] at he
      obtain ⟨c, rfl⟩ := he
      exact ⟨ha _ _, ha _ _⟩
  | rstart => cases he
  | rend => cases he
  | exit => cases he

omit [DecidableEq M] in
theorem insertSeq_lax {P : EditState → Prop} (hP : Lax P) (prm : Params) (q : Option Nat) (p : Nat)
    (ms : List (Node M)) : ∀ (t : Option Nat) (u j : Nat), ∀ e ∈ insertSeq prm q p t u j ms, Ends P e := by
  induction ms using seq_induction with
  | nil =>
    intro t u j e he
    cases he
  | leaf n ns hn ih =>
    intro t u j e he
    rw [insertSeq] at he
    rcases List.mem_append.mp he with he | he
    · exact insertNode_lax hP prm _ _ q p t u j n (fun _ _ => hP.ins _ _ _ _ _)
        (fun cs mt h => absurd h (hn cs mt)) e he
    · exact ih _ _ _ e he
  | group cs mt ns ihc ih =>
    intro t u j e he
    rw [insertSeq] at he
    rcases List.mem_append.mp he with he | he
    · refine insertNode_lax hP prm _ _ q p t u j _ (fun _ _ => hP.ins _ _ _ _ _)
        (fun cs' mt' h => ?_) e he
      cases h
      exact ihc _ _ _
    · exact ih _ _ _ e he

omit [DecidableEq M] in
theorem deleteNode_lax {P : EditState → Prop} (hP : Lax P) (prm : Params) (al : EditAlign) (allow : Bool)
    (q : Option Nat) (p i : Nat) (t : Option Nat) (u : Nat) (n : Node M)
    (ha : ∀ c p, P (.at al c q p t u))
    (hin : ∀ cs mt, n = .group cs mt → ∀ e ∈ deleteSeq prm (some i) 0 (i + 1) t u cs, Ends P e) :
    ∀ e ∈ deleteNode prm al allow q p i t u n, Ends P e := by
  intro e he
  cases n with
  | group cs mt =>
    rw [deleteNode] at he
    cases allow with
    | false => cases he
    | true =>
      rw [if_pos rfl] at he
      simp only [List.mem_append, mem_bothConf, List.mem_singleton] at he
      rcases he with (⟨c, rfl⟩ | he) | ⟨c, rfl⟩
      · exact ⟨ha _ _, hP.del _ _ _ _ _⟩
      · exact hin cs mt rfl e he
      · exact ⟨hP.del _ _ _ _ _, ha _ _⟩
  | deco txt =>
    rw [deleteNode] at he
    simp only [mem_bothConf, List.mem_singleton] at he
    obtain ⟨c, rfl⟩ := he
    exact ⟨ha _ _, ha _ _⟩
  | tok txt mt =>
    rw [deleteNode] at he
    cases allow with
    | false => cases he
    | true =>
      rw [if_pos rfl] at he
      simp only [mem_bothConf, List.mem_singleton] at he
      obtain ⟨c, rfl⟩ := he
      exact ⟨ha _ _, ha _ _⟩
  | rstart =>
    simp only [deleteNode, List.mem_cons, List.not_mem_nil, or_false] at he
    rcases he with rfl | rfl | rfl <;> exact ⟨ha _ _, ha _ _⟩
  | rend =>
    simp only [deleteNode, List.mem_cons, List.not_mem_nil, or_false] at he
    rcases he with rfl | rfl | rfl <;> exact ⟨ha _ _, ha _ _⟩
  | exit =>
    simp only [deleteNode, mem_bothConf, List.mem_cons, List.not_mem_nil, or_false] at he
    obtain ⟨c, rfl | rfl⟩ := he
    · exact ⟨ha _ _, hP.final⟩
    · exact ⟨ha _ _, ha _ _⟩

omit [DecidableEq M] in
theorem deleteSeq_lax {P : EditState → Prop} (hP : Lax P) (prm : Params) (t : Option Nat) (u : Nat)
    (ns : List (Node M)) : ∀ (q : Option Nat) (p i : Nat), ∀ e ∈ deleteSeq prm q p i t u ns, Ends P e := by
  induction ns using seq_induction with
  | nil =>
    intro q p i e he
    cases he
  | leaf n ns hn ih =>
    intro q p i e he
    rw [deleteSeq] at he
    rcases List.mem_append.mp he with he | he
    · exact deleteNode_lax hP prm _ _ q p i t u n (fun _ _ => hP.del _ _ _ _ _)
        (fun cs mt h => absurd h (hn cs mt)) e he
    · exact ih _ _ _ e he
  | group cs mt ns ihc ih =>
    intro q p i e he
    rw [deleteSeq] at he
    rcases List.mem_append.mp he with he | he
    · refine deleteNode_lax hP prm _ _ q p i t u _ (fun _ _ => hP.del _ _ _ _ _)
        (fun cs' mt' h => ?_) e he
      cases h
      exact ihc _ _ _
    · exact ih _ _ _ e he

/-- The edges of a pair of positions. -/
theorem cell_lax {P : EditState → Prop} (hP : Lax P) (prm : Params) (q : Option Nat) (p i : Nat)
    (t : Option Nat) (u j : Nat) (n m : Option (Node M)) (inner : List EditEdge)
    (ha : ∀ al c p u, P (.at al c q p t u))
    (hin : ∀ cs mt cs', n = some (.group cs mt) → m = some (.group cs' mt) →
      (∀ al c p u, P (.at al c (some i) p (some j) u)) ∧ ∀ e ∈ inner, Ends P e) :
    ∀ e ∈ cellEdges prm q p i t u j n m inner, Ends P e := by
  intro e he
  have hdel : ∀ al allow, ∀ e ∈ deleteNode? prm al allow q p i t u n, Ends P e := by
    intro al allow e he
    cases n with
    | none => cases he
    | some n =>
      exact deleteNode_lax hP prm al allow q p i t u n (fun _ _ => ha _ _ _ _)
        (fun cs mt _ => deleteSeq_lax hP prm t u cs _ _ _) e he
  have hins : ∀ al allow, ∀ e ∈ insertNode? prm al allow q p t u j m, Ends P e := by
    intro al allow e he
    cases m with
    | none => cases he
    | some m =>
      exact insertNode_lax hP prm al allow q p t u j m (fun _ _ => ha _ _ _ _)
        (fun cs mt _ => insertSeq_lax hP prm q p cs _ _ _) e he
  rw [cellEdges] at he
  simp only [List.mem_append, mem_bothConf, List.mem_cons, List.not_mem_nil, or_false] at he
  rcases he with (((((((he | ⟨c, rfl | rfl⟩) | he) | ⟨c, rfl⟩) | he) | ⟨c, rfl⟩) | he) | he) | he
  · exact hdel _ _ e he
  · exact ⟨ha _ _ _ _, ha _ _ _ _⟩
  · exact ⟨ha _ _ _ _, ha _ _ _ _⟩
  · exact hdel _ _ e he
  · exact ⟨ha _ _ _ _, ha _ _ _ _⟩
  · exact hins _ _ e he
  · exact ⟨ha _ _ _ _, ha _ _ _ _⟩
  · exact hins _ _ e he
  · rw [keepTokenEdges.eq_def] at he
    split at he
    · split at he
      · simp only [mem_bothConf, List.mem_singleton] at he
        obtain ⟨c, rfl⟩ := he
        exact ⟨ha _ _ _ _, ha _ _ _ _⟩
      · cases he
    · cases he
  · rw [matchGroupEdges.eq_def] at he
    split at he
    · split at he
      · rename_i cs mt cs' mt' heq
        subst heq
        obtain ⟨h1, h2⟩ := hin cs mt' cs' rfl rfl
        simp only [List.mem_append, mem_bothConf, List.mem_singleton] at he
        rcases he with (⟨c, rfl⟩ | he) | ⟨c, rfl⟩
        · exact ⟨ha _ _ _ _, h1 _ _ _ _⟩
        · exact h2 e he
        · exact ⟨h1 _ _ _ _, ha _ _ _ _⟩
      · cases he
    · cases he

omit [DecidableEq M] in
theorem overNodes_none {β : Type} (j : Nat) (ms : List (Node M)) :
    overNodes (fun _ _ => ([] : List β)) j ms = [] := by
  induction ms generalizing j with
  | nil => rfl
  | cons m ms ih => simp [overNodes, ih]

omit [DecidableEq M] in
/-- Membership in a loop over positions, with what a loop over nodes yields. -/
theorem overTarget_lax {β : Type} {P : EditState → Prop}
    {body : Nat → Nat → Option (Node M) → List EditEdge} {body' : Nat → Node M → List β} {S : List β}
    (h0 : ∀ u j, ∀ e ∈ body u j none, Ends P e)
    (hbody : ∀ u j m, (∀ b ∈ body' j m, b ∈ S) → ∀ e ∈ body u j (some m), Ends P e)
    (ms : List (Node M)) : ∀ (u j : Nat), (∀ b ∈ overNodes body' j ms, b ∈ S) →
      ∀ e ∈ overTarget body u j ms, Ends P e := by
  induction ms with
  | nil =>
    intro u j _ e he
    exact h0 u j e he
  | cons m ms ih =>
    intro u j h e he
    rcases List.mem_append.mp he with he | he
    · exact hbody u j m (fun b hb => h b (List.mem_append_left _ hb)) e he
    · exact ih _ _ (fun b hb => h b (List.mem_append_right _ hb)) e he

/-- Two sequences whose matching begins at a state, if it does at all, are among the given ones. -/
def Listed (S : List (Option Nat × Option Nat)) : EditState → Prop
  | .at .recDelete _ _ _ _ _ => True
  | .at .recInsert _ _ _ _ _ => True
  | .at _ _ q _ t _ => (q, t) ∈ S
  | .final => True

omit [DecidableEq M] in
theorem listed_lax (S : List (Option Nat × Option Nat)) : Lax (Listed S) :=
  ⟨trivial, fun _ _ _ _ _ => trivial, fun _ _ _ _ _ => trivial⟩

omit [DecidableEq M] in
theorem listed_at {S : List (Option Nat × Option Nat)} {q t : Option Nat} (h : (q, t) ∈ S)
    (al : EditAlign) (c : Conf) (p u : Nat) : Listed S (.at al c q p t u) := by
  cases al <;> first | exact h | trivial

theorem match_listed (prm : Params) (S : List (Option Nat × Option Nat)) (ns : List (Node M)) :
    ∀ (q : Option Nat) (p i : Nat) (t : Option Nat) (j : Nat) (target : List (Node M)),
      (q, t) ∈ S → (∀ s ∈ subproblems i j target ns, s ∈ S) →
      ∀ e ∈ matchEdges prm q p i t j target ns, Ends (Listed S) e := by
  induction ns using seq_induction with
  | nil =>
    intro q p i t j target hq _ e he
    rw [matchEdges] at he
    have h : ∀ (u j : Nat) (m : Option (Node M)), ∀ e ∈ cellEdges prm q p i t u j none m [], Ends (Listed S) e := fun u j m =>
      cell_lax (listed_lax S) prm q p i t u j none m [] (listed_at hq) (by simp)
    exact overTarget_lax (S := S) (body' := fun _ _ => []) (fun u j => h u j none)
      (fun u j m _ => h u j (some m)) target 0 j (by
        intro b hb
        rw [overNodes_none] at hb
        cases hb) e he
  | leaf n ns hn ih =>
    intro q p i t j target hq hs e he
    have hsub : subproblems i j target (n :: ns) = subproblems (i + nodeSize n) j target ns := by
      cases n <;> first | exact absurd rfl (hn _ _) | simp [subproblems]
    rw [hsub] at hs
    rw [matchEdges] at he
    rcases List.mem_append.mp he with he | he
    · have h : ∀ u j m inner, ∀ e ∈ cellEdges prm q p i t u j (some n) m inner, Ends (Listed S) e :=
        fun u j m inner => cell_lax (listed_lax S) prm q p i t u j (some n) m inner (listed_at hq)
          (fun cs mt cs' hcs => by cases hcs; exact absurd rfl (hn _ _))
      exact overTarget_lax (S := S) (body' := fun _ _ => []) (fun u j => h u j none _)
        (fun u j m _ => h u j (some m) _) target 0 j (by
          intro b hb
          rw [overNodes_none] at hb
          cases hb) e he
    · exact ih _ _ _ _ _ _ hq hs e he
  | group cs mt ns ihc ih =>
    intro q p i t j target hq hs e he
    rw [subproblems.eq_def] at hs
    dsimp only at hs
    rw [matchEdges] at he
    rcases List.mem_append.mp he with he | he
    · refine overTarget_lax (S := S) (fun u j => ?_) (fun u j m hm => ?_) target 0 j
        (fun b hb => hs b (List.mem_append_left _ hb)) e he
      · exact cell_lax (listed_lax S) prm q p i t u j _ none _ (listed_at hq) (by simp)
      · refine cell_lax (listed_lax S) prm q p i t u j _ (some m) _ (listed_at hq) ?_
        intro cs1 mt1 cs' h h'
        cases h
        cases h'
        dsimp only at hm
        rw [if_pos rfl] at hm
        exact ⟨listed_at (hm _ (List.mem_cons_self ..)),
          ihc _ _ _ _ _ _ (hm _ (List.mem_cons_self ..)) fun s hs' => hm s (List.mem_cons_of_mem _ hs')⟩
    · exact ih _ _ _ _ _ _ hq (fun s hs' => hs s (List.mem_append_right _ hs')) e he

/-- Exactly the subproblems have states where matching begins. -/
theorem subproblems_iff (prm : Params) (proto target : List (Node M)) (q t : Option Nat) :
    (q, t) ∈ (none, none) :: subproblems 0 0 target proto ↔
      ∃ e ∈ editEdges prm proto target, ∃ c p u, e.source = .at .process c q p t u := by
  constructor
  · intro h
    rcases List.mem_cons.mp h with h | h
    · cases h
      obtain ⟨e, h1, h2⟩ := match_begins prm none 0 0 none 0 target proto
      exact ⟨e, List.mem_append_left _ h1, _, _, _, h2⟩
    · obtain ⟨e, h1, h2⟩ := subproblem_begins prm proto none 0 0 none 0 target _ h
      exact ⟨e, List.mem_append_left _ h1, _, _, _, h2⟩
  · rintro ⟨e, he, c, p, u, hc⟩
    rcases List.mem_append.mp he with he | he
    · have := (match_listed prm ((none, none) :: subproblems 0 0 target proto) proto none 0 0 none 0 target
        (List.mem_cons_self ..) (fun s hs => List.mem_cons_of_mem _ hs) e he).1
      rw [hc] at this
      exact this
    · rw [List.mem_singleton] at he
      subst he
      cases hc

end

end RUSure.Draw
