import Verif.Lemmas.Layouts

/-!
# Edges of constraint and edit DAGs lead from a place to the next
-/

namespace RUSure.Draw

variable {M : Type}

/-- The depth of a sequence. -/
def dOf (D : Nat → Nat) : Option Nat → Nat
  | none => 0
  | some j => D j

/-! ## Constraint DAGs -/

section
variable (V : Option Nat × Nat → Prop) (A : Option Nat × Nat → Option Nat × Nat → Prop)
  (D : Nat → Nat)

/-- States at places, with a level that is the depth or, if forced, less. -/
def ConOk : ConstraintState → Prop
  | .final => True
  | .at .forced seq pos l => V (seq, pos) ∧ l < dOf D seq
  | .at _ seq pos l => V (seq, pos) ∧ l = dOf D seq

/-- From a place to the next, or to the end. -/
def ConFlow : ConstraintState → ConstraintState → Prop
  | .at _ q p _, .at _ q' p' _ => A (q, p) (q', p')
  | .at _ _ _ _, .final => True
  | .final, _ => False

def ConEdge (e : ConstraintEdge) : Prop :=
  ConOk V D e.source ∧ ConOk V D e.dest ∧ ConFlow A e.source e.dest

end

section
variable {V : Option Nat × Nat → Prop} {A : Option Nat × Nat → Option Nat × Nat → Prop}
  {D : Nat → Nat}

theorem inside_ok (ns : List (Node M)) : ∀ (seq : Option Nat) (level pos i d : Nat),
    Sub V A D seq pos i d ns → dOf D seq = d → level < d →
    ∀ e ∈ insideEdges seq level pos i ns, ConEdge V A D e := by
  induction ns using seq_induction with
  | nil =>
    intro seq level pos i d _ _ _ e he
    simp [insideEdges] at he
  | leaf n ns hn ih =>
    intro seq level pos i d hs hd hl e he
    obtain ⟨h1, h2, h3⟩ := (sub_leaf hn).mp hs
    have h4 := h3.head
    rw [insideEdges.eq_def] at he
    dsimp only at he
    rw [size_leaf hn] at he
    rcases List.mem_append.mp he with he | he
    · cases n with
      | group cs mt => exact absurd rfl (hn _ _)
      | deco t =>
        rw [List.mem_singleton] at he
        subst he
        exact ⟨⟨h1, by omega⟩, ⟨h4, by omega⟩, h2⟩
      | tok t mt =>
        rw [List.mem_singleton] at he
        subst he
        exact ⟨⟨h1, by omega⟩, ⟨h4, by omega⟩, h2⟩
      | rstart =>
        rw [List.mem_singleton] at he
        subst he
        exact ⟨⟨h1, by omega⟩, ⟨h4, by omega⟩, h2⟩
      | rend =>
        rw [List.mem_singleton] at he
        subst he
        exact ⟨⟨h1, by omega⟩, ⟨h4, by omega⟩, h2⟩
      | exit =>
        simp only [List.mem_cons, List.not_mem_nil, or_false] at he
        rcases he with rfl | rfl
        · exact ⟨⟨h1, by omega⟩, trivial, trivial⟩
        · exact ⟨⟨h1, by omega⟩, ⟨h4, by omega⟩, h2⟩
    · exact ih _ _ _ _ _ h3 hd hl e he
  | group cs mt ns ihc ih =>
    intro seq level pos i d hs hd hl e he
    obtain ⟨h1, h2, ⟨g1, g2, g3, g4⟩, h3⟩ := sub_group.mp hs
    have h4 := h3.head
    have h5 := g4.head
    have h6 := g4.last
    rw [Nat.zero_add] at h6
    have h7 : dOf D (some i) = d + 1 := g3
    rw [insideEdges.eq_def] at he
    dsimp only at he
    simp only [nodeSize] at he
    simp only [List.mem_append, List.mem_cons, List.not_mem_nil, or_false] at he
    rcases he with ((rfl | he) | rfl) | he
    · refine ⟨⟨h1, by omega⟩, ⟨h5, by omega⟩, g1⟩
    · exact ihc _ _ _ _ _ g4 h7 (by omega) e he
    · exact ⟨⟨h6, by omega⟩, ⟨h4, by omega⟩, g2⟩
    · exact ih _ _ _ _ _ h3 hd hl e he

theorem outside_ok (ns : List (Node M)) : ∀ (seq : Option Nat) (pos i d : Nat),
    Sub V A D seq pos i d ns → dOf D seq = d →
    ∀ e ∈ outsideEdges seq d pos i ns, ConEdge V A D e := by
  induction ns using seq_induction with
  | nil =>
    intro seq pos i d _ _ e he
    simp [outsideEdges] at he
  | leaf n ns hn ih =>
    intro seq pos i d hs hd e he
    obtain ⟨h1, h2, h3⟩ := (sub_leaf hn).mp hs
    have h4 := h3.head
    rw [outsideEdges.eq_def] at he
    dsimp only at he
    rw [size_leaf hn] at he
    rcases List.mem_append.mp he with he | he
    · cases n with
      | group cs mt => exact absurd rfl (hn _ _)
      | deco t =>
        simp only [List.mem_cons, List.not_mem_nil, or_false] at he
        rcases he with rfl | rfl <;> simp [ConEdge, ConOk, ConFlow, plainEdge, h1, h2, h4, hd]
      | tok t mt =>
        simp only [List.mem_cons, List.not_mem_nil, or_false] at he
        rcases he with rfl | rfl <;> simp [ConEdge, ConOk, ConFlow, decisionEdge, h1, h2, h4, hd]
      | rstart =>
        simp only [List.mem_cons, List.not_mem_nil, or_false] at he
        rcases he with rfl | rfl | rfl <;>
          simp [ConEdge, ConOk, ConFlow, decisionEdge, h1, h2, h4, hd]
      | rend =>
        simp only [List.mem_cons, List.not_mem_nil, or_false] at he
        rcases he with rfl | rfl | rfl <;>
          simp [ConEdge, ConOk, ConFlow, decisionEdge, h1, h2, h4, hd]
      | exit =>
        simp only [List.mem_cons, List.not_mem_nil, or_false] at he
        rcases he with rfl | rfl | rfl | rfl <;>
          simp [ConEdge, ConOk, ConFlow, decisionEdge, exitEdge, h1, h2, h4, hd]
    · exact ih _ _ _ _ h3 hd e he
  | group cs mt ns ihc ih =>
    intro seq pos i d hs hd e he
    obtain ⟨h1, h2, ⟨g1, g2, g3, g4⟩, h3⟩ := sub_group.mp hs
    have h4 := h3.head
    have h5 := g4.head
    have h6 := g4.last
    rw [Nat.zero_add] at h6
    have h7 : dOf D (some i) = d + 1 := g3
    rw [outsideEdges.eq_def] at he
    dsimp only at he
    simp only [nodeSize] at he
    simp only [List.mem_append, List.mem_cons, List.not_mem_nil, or_false] at he
    rcases he with ((((((rfl | he) | rfl) | rfl) | he) | rfl)) | he
    · exact ⟨⟨h1, hd.symm⟩, ⟨h5, h7.symm⟩, g1⟩
    · exact ihc _ _ _ _ g4 h7 e he
    · exact ⟨⟨h6, h7.symm⟩, ⟨h4, hd.symm⟩, g2⟩
    · exact ⟨⟨h1, hd.symm⟩, ⟨h5, by omega⟩, g1⟩
    · exact inside_ok cs _ _ _ _ _ g4 h7 (by omega) e he
    · exact ⟨⟨h6, by omega⟩, ⟨h4, hd.symm⟩, g2⟩
    · exact ih _ _ _ _ h3 hd e he

theorem constraint_ok {proto : List (Node M)} (hs : Sub V A D none 0 0 0 proto) :
    ∀ e ∈ constraintEdges proto, ConEdge V A D e := by
  intro e he
  rcases List.mem_append.mp he with he | he
  · exact outside_ok proto none 0 0 0 hs rfl e he
  · rw [List.mem_singleton] at he
    subst he
    have := hs.last
    rw [Nat.zero_add] at this
    exact ⟨⟨this, rfl⟩, trivial, trivial⟩

end

/-! ## Edit DAGs -/

/-- Depths of the two sequences. -/
def OkAlign (dq dt : Nat) : EditAlign → Prop
  | .recDelete => dt < dq
  | .recInsert => dq < dt
  | _ => dq = dt

section
variable (V V' : Option Nat × Nat → Prop) (A A' : Option Nat × Nat → Option Nat × Nat → Prop)
  (D D' : Nat → Nat)

/-- States at places, with sequences at appropriate depths. -/
def EditOk : EditState → Prop
  | .final => True
  | .at al _ q p t u => V (q, p) ∧ V' (t, u) ∧ OkAlign (dOf D q) (dOf D' t) al

/-- To the next place in the prototype, or to the next place in the target, or downwards. -/
def EditFlow : EditState → EditState → Prop
  | .at al c q p t u, .at al' c' q' p' t' u' => A (q, p) (q', p') ∨
    ((q, p) = (q', p') ∧ (A' (t, u) (t', u') ∨
      ((t, u) = (t', u') ∧ editOffset (.at al c q p t u) < editOffset (.at al' c' q' p' t' u'))))
  | .at _ _ _ _ _ _, .final => True
  | .final, _ => False

def EditFine (e : EditEdge) : Prop :=
  EditOk V V' D D' e.source ∧ EditOk V V' D D' e.dest ∧ EditFlow A A' e.source e.dest

end

section
variable {V V' : Option Nat × Nat → Prop} {A A' : Option Nat × Nat → Option Nat × Nat → Prop}
  {D D' : Nat → Nat}

theorem mem_bothConf {f : Conf → List EditEdge} {e : EditEdge} :
    e ∈ bothConf f ↔ ∃ c, e ∈ f c := by
  constructor
  · intro h
    rcases List.mem_append.mp h with h | h
    · exact ⟨_, h⟩
    · exact ⟨_, h⟩
  · rintro ⟨c, h⟩
    cases c
    · exact List.mem_append_left _ h
    · exact List.mem_append_right _ h

/-- Inserting a leaf or a group, given that inserting the sequence of a group is fine. -/
theorem insertNode_ok (prm : Params) (al : EditAlign) (allow : Bool) (q : Option Nat) (p : Nat)
    (t : Option Nat) (u j d : Nat) (m : Node M) (ms : List (Node M)) (hv : V (q, p))
    (hs : Sub V' A' D' t u j d (m :: ms)) (hd : dOf D' t = d) (hal : OkAlign (dOf D q) d al)
    (hne : al ≠ .recDelete)
    (hin : ∀ cs mt, m = .group cs mt → dOf D q < d + 1 → ∀ e ∈ insertSeq prm q p (some j) 0 (j + 1) cs,
      EditFine V V' A A' D D' e) :
    ∀ e ∈ insertNode prm al allow q p t u j m, EditFine V V' A A' D D' e := by
  intro e he
  have hle : dOf D q ≤ d := by cases al <;> simp [OkAlign] at hal hne ⊢ <;> omega
  subst hd
  cases m with
  | group cs mt =>
    obtain ⟨h1, h2, ⟨g1, g2, g3, g4⟩, h3⟩ := sub_group.mp hs
    have h4 := h3.head
    have h5 := g4.head
    have h6 := g4.last
    rw [Nat.zero_add] at h6
    have h7 : dOf D' (some j) = dOf D' t + 1 := g3
    rw [insertNode] at he
    cases allow with
    | false => cases he
    | true =>
      rw [if_pos rfl] at he
      simp only [List.mem_append, mem_bothConf, List.mem_singleton] at he
      rcases he with (⟨c, rfl⟩ | he) | ⟨c, rfl⟩
      · exact ⟨⟨hv, h1, hal⟩, ⟨hv, h5, by simp only [OkAlign]; omega⟩, Or.inr ⟨rfl, Or.inl g1⟩⟩
      · exact hin cs mt rfl (by omega) e he
      · exact ⟨⟨hv, h6, by simp only [OkAlign]; omega⟩, ⟨hv, h4, hal⟩, Or.inr ⟨rfl, Or.inl g2⟩⟩
  | deco txt =>
    obtain ⟨h1, h2, h3⟩ := (sub_leaf (by simp)).mp hs
    rw [insertNode] at he
    simp only [mem_bothConf, List.mem_singleton] at he
    obtain ⟨c, rfl⟩ := he
    exact ⟨⟨hv, h1, hal⟩, ⟨hv, h3.head, hal⟩, Or.inr ⟨rfl, Or.inl h2⟩⟩
  | tok txt mt =>
    obtain ⟨h1, h2, h3⟩ := (sub_leaf (by simp)).mp hs
    rw [insertNode] at he
    cases allow with
    | false => cases he
    | true =>
      rw [if_pos rfl] at he
      simp only [mem_bothConf, List.mem_singleton] at he
      obtain ⟨c, rfl⟩ := he
      exact ⟨⟨hv, h1, hal⟩, ⟨hv, h3.head, hal⟩, Or.inr ⟨rfl, Or.inl h2⟩⟩
  | rstart => cases he
  | rend => cases he
  | exit => cases he

theorem insertSeq_ok (prm : Params) (q : Option Nat) (p : Nat) (hv : V (q, p)) (ms : List (Node M)) :
    ∀ (t : Option Nat) (u j d : Nat), Sub V' A' D' t u j d ms → dOf D' t = d → dOf D q < d →
    ∀ e ∈ insertSeq prm q p t u j ms, EditFine V V' A A' D D' e := by
  induction ms using seq_induction with
  | nil =>
    intro t u j d _ _ _ e he
    cases he
  | leaf n ns hn ih =>
    intro t u j d hs hd hlt e he
    rw [insertSeq] at he
    rcases List.mem_append.mp he with he | he
    · exact insertNode_ok prm .recInsert _ q p t u j d n ns hv hs hd hlt (by simp)
        (fun cs mt h => absurd h (hn cs mt)) e he
    · exact ih _ _ _ _ (sub_cons hs).2.2 hd hlt e he
  | group cs mt ns ihc ih =>
    intro t u j d hs hd hlt e he
    rw [insertSeq] at he
    rcases List.mem_append.mp he with he | he
    · refine insertNode_ok prm .recInsert _ q p t u j d _ ns hv hs hd hlt (by simp)
        (fun cs' mt' h hlt' e' he' => ?_) e he
      cases h
      obtain ⟨h1, h2, ⟨g1, g2, g3, g4⟩, h3⟩ := sub_group.mp hs
      exact ihc _ _ _ _ g4 g3 hlt' e' he'
    · exact ih _ _ _ _ (sub_cons hs).2.2 hd hlt e he

theorem deleteNode_ok (prm : Params) (al : EditAlign) (allow : Bool) (q : Option Nat) (p i d : Nat)
    (t : Option Nat) (u : Nat) (n : Node M) (ns : List (Node M)) (hv : V' (t, u))
    (hs : Sub V A D q p i d (n :: ns)) (hd : dOf D q = d) (hal : OkAlign d (dOf D' t) al)
    (hne : al ≠ .recInsert)
    (hin : ∀ cs mt, n = .group cs mt → dOf D' t < d + 1 → ∀ e ∈ deleteSeq prm (some i) 0 (i + 1) t u cs,
      EditFine V V' A A' D D' e) :
    ∀ e ∈ deleteNode prm al allow q p i t u n, EditFine V V' A A' D D' e := by
  intro e he
  have hle : dOf D' t ≤ d := by cases al <;> simp [OkAlign] at hal hne ⊢ <;> omega
  subst hd
  have leaf : ∀ c c', (∀ cs mt, n ≠ .group cs mt) → ∀ e : EditEdge, e.source = .at al c q p t u →
      (e.dest = .at al c' q (p + 1) t u ∨ e.dest = .final) → EditFine V V' A A' D D' e := by
    intro c c' hn e h h'
    obtain ⟨h1, h2, h3⟩ := (sub_leaf hn).mp hs
    unfold EditFine
    rw [h]
    rcases h' with h' | h' <;> rw [h']
    · exact ⟨⟨h1, hv, hal⟩, ⟨h3.head, hv, hal⟩, Or.inl h2⟩
    · exact ⟨⟨h1, hv, hal⟩, trivial, trivial⟩
  cases n with
  | group cs mt =>
    obtain ⟨h1, h2, ⟨g1, g2, g3, g4⟩, h3⟩ := sub_group.mp hs
    have h4 := h3.head
    have h5 := g4.head
    have h6 := g4.last
    rw [Nat.zero_add] at h6
    have h7 : dOf D (some i) = dOf D q + 1 := g3
    rw [deleteNode] at he
    cases allow with
    | false => cases he
    | true =>
      rw [if_pos rfl] at he
      simp only [List.mem_append, mem_bothConf, List.mem_singleton] at he
      rcases he with (⟨c, rfl⟩ | he) | ⟨c, rfl⟩
      · exact ⟨⟨h1, hv, hal⟩, ⟨h5, hv, by simp only [OkAlign]; omega⟩, Or.inl g1⟩
      · exact hin cs mt rfl (by omega) e he
      · exact ⟨⟨h6, hv, by simp only [OkAlign]; omega⟩, ⟨h4, hv, hal⟩, Or.inl g2⟩
  | deco txt =>
    rw [deleteNode] at he
    simp only [mem_bothConf, List.mem_singleton] at he
    obtain ⟨c, rfl⟩ := he
    exact leaf c c (by simp) _ rfl (Or.inl rfl)
  | tok txt mt =>
    rw [deleteNode] at he
    cases allow with
    | false => cases he
    | true =>
      rw [if_pos rfl] at he
      simp only [mem_bothConf, List.mem_singleton] at he
      obtain ⟨c, rfl⟩ := he
      exact leaf c c (by simp) _ rfl (Or.inl rfl)
  | rstart =>
    simp only [deleteNode, List.mem_cons, List.not_mem_nil, or_false] at he
    rcases he with rfl | rfl | rfl
    · exact leaf .high .high (by simp) _ rfl (Or.inl rfl)
    · exact leaf .high .low (by simp) _ rfl (Or.inl rfl)
    · exact leaf .low .low (by simp) _ rfl (Or.inl rfl)
  | rend =>
    simp only [deleteNode, List.mem_cons, List.not_mem_nil, or_false] at he
    rcases he with rfl | rfl | rfl
    · exact leaf .low .low (by simp) _ rfl (Or.inl rfl)
    · exact leaf .low .high (by simp) _ rfl (Or.inl rfl)
    · exact leaf .high .high (by simp) _ rfl (Or.inl rfl)
  | exit =>
    simp only [deleteNode, mem_bothConf, List.mem_cons, List.not_mem_nil, or_false] at he
    obtain ⟨c, rfl | rfl⟩ := he
    · exact leaf c c (by simp) _ rfl (Or.inr rfl)
    · exact leaf c c (by simp) _ rfl (Or.inl rfl)

theorem deleteSeq_ok (prm : Params) (t : Option Nat) (u : Nat) (hv : V' (t, u)) (ns : List (Node M)) :
    ∀ (q : Option Nat) (p i d : Nat), Sub V A D q p i d ns → dOf D q = d → dOf D' t < d →
    ∀ e ∈ deleteSeq prm q p i t u ns, EditFine V V' A A' D D' e := by
  induction ns using seq_induction with
  | nil =>
    intro q p i d _ _ _ e he
    cases he
  | leaf n ns hn ih =>
    intro q p i d hs hd hlt e he
    rw [deleteSeq] at he
    rcases List.mem_append.mp he with he | he
    · exact deleteNode_ok prm .recDelete _ q p i d t u n ns hv hs hd hlt (by simp)
        (fun cs mt h => absurd h (hn cs mt)) e he
    · exact ih _ _ _ _ (sub_cons hs).2.2 hd hlt e he
  | group cs mt ns ihc ih =>
    intro q p i d hs hd hlt e he
    rw [deleteSeq] at he
    rcases List.mem_append.mp he with he | he
    · refine deleteNode_ok prm .recDelete _ q p i d t u _ ns hv hs hd hlt (by simp)
        (fun cs' mt' h hlt' e' he' => ?_) e he
      cases h
      obtain ⟨h1, h2, ⟨g1, g2, g3, g4⟩, h3⟩ := sub_group.mp hs
      exact ihc _ _ _ _ g4 g3 hlt' e' he'
    · exact ih _ _ _ _ (sub_cons hs).2.2 hd hlt e he

/-- The node at a place, if there is one. -/
def Here (V : Option Nat × Nat → Prop) (A : Option Nat × Nat → Option Nat × Nat → Prop) (D : Nat → Nat)
    (seq : Option Nat) (pos i d : Nat) : Option (Node M) → Prop
  | none => True
  | some n => ∃ ns, Sub V A D seq pos i d (n :: ns)

theorem delete?_ok (prm : Params) (al : EditAlign) (allow : Bool) (q : Option Nat) (p i d : Nat)
    (t : Option Nat) (u : Nat) (n : Option (Node M)) (hv : V' (t, u)) (hs : Here V A D q p i d n)
    (hd : dOf D q = d) (ht : dOf D' t = d) (hal : al ≠ .recInsert ∧ al ≠ .recDelete) :
    ∀ e ∈ deleteNode? prm al allow q p i t u n, EditFine V V' A A' D D' e := by
  cases n with
  | none => intro e he; cases he
  | some n =>
    obtain ⟨ns, hs⟩ := hs
    refine deleteNode_ok prm al allow q p i d t u n ns hv hs hd ?_ hal.1 ?_
    · cases al <;> simp [OkAlign] at hal ⊢ <;> omega
    · rintro cs mt rfl hlt
      obtain ⟨h1, h2, ⟨g1, g2, g3, g4⟩, h3⟩ := sub_group.mp hs
      exact deleteSeq_ok prm t u hv cs _ _ _ _ g4 g3 hlt

theorem insert?_ok (prm : Params) (al : EditAlign) (allow : Bool) (q : Option Nat) (p : Nat)
    (t : Option Nat) (u j d : Nat) (m : Option (Node M)) (hv : V (q, p)) (hs : Here V' A' D' t u j d m)
    (hd : dOf D q = d) (ht : dOf D' t = d) (hal : al ≠ .recInsert ∧ al ≠ .recDelete) :
    ∀ e ∈ insertNode? prm al allow q p t u j m, EditFine V V' A A' D D' e := by
  cases m with
  | none => intro e he; cases he
  | some m =>
    obtain ⟨ms, hs⟩ := hs
    refine insertNode_ok prm al allow q p t u j d m ms hv hs ht ?_ hal.2 ?_
    · cases al <;> simp [OkAlign] at hal ⊢ <;> omega
    · rintro cs mt rfl hlt
      obtain ⟨h1, h2, ⟨g1, g2, g3, g4⟩, h3⟩ := sub_group.mp hs
      exact insertSeq_ok prm q p hv cs _ _ _ _ g4 g3 hlt

theorem Here.next {seq : Option Nat} {pos i d : Nat} {n : Node M}
    (h : Here V A D seq pos i d (some n)) : V (seq, pos + 1) ∧ A (seq, pos) (seq, pos + 1) := by
  obtain ⟨ns, h⟩ := h
  exact ⟨(sub_cons h).2.2.head, (sub_cons h).2.1⟩

variable [DecidableEq M]

theorem cell_ok (prm : Params) (q : Option Nat) (p i d : Nat) (t : Option Nat) (u j : Nat)
    (n m : Option (Node M)) (inner : List EditEdge) (hv : V (q, p)) (hv' : V' (t, u))
    (hn : Here V A D q p i d n) (hm : Here V' A' D' t u j d m) (hd : dOf D q = d) (ht : dOf D' t = d)
    (hin : ∀ cs mt cs' mt', n = some (.group cs mt) → m = some (.group cs' mt') →
      ∀ e ∈ inner, EditFine V V' A A' D D' e) :
    ∀ e ∈ cellEdges prm q p i t u j n m inner, EditFine V V' A A' D D' e := by
  intro e he
  have heq : dOf D q = dOf D' t := by omega
  rw [cellEdges] at he
  simp only [List.mem_append, mem_bothConf, List.mem_cons, List.not_mem_nil, or_false] at he
  rcases he with (((((((he | ⟨c, rfl | rfl⟩) | he) | ⟨c, rfl⟩) | he) | ⟨c, rfl⟩) | he) | he) | he
  · exact delete?_ok prm _ _ q p i d t u n hv' hn hd ht (by simp) e he
  · refine ⟨⟨hv, hv', heq⟩, ⟨hv, hv', heq⟩, Or.inr ⟨rfl, Or.inr ⟨rfl, ?_⟩⟩⟩
    cases c <;> norm_num [editOffset]
  · refine ⟨⟨hv, hv', heq⟩, ⟨hv, hv', heq⟩, Or.inr ⟨rfl, Or.inr ⟨rfl, ?_⟩⟩⟩
    cases c <;> norm_num [editOffset]
  · exact delete?_ok prm _ _ q p i d t u n hv' hn hd ht (by simp) e he
  · refine ⟨⟨hv, hv', heq⟩, ⟨hv, hv', heq⟩, Or.inr ⟨rfl, Or.inr ⟨rfl, ?_⟩⟩⟩
    cases c <;> norm_num [editOffset]
  · exact insert?_ok prm _ _ q p t u j d m hv hm hd ht (by simp) e he
  · refine ⟨⟨hv, hv', heq⟩, ⟨hv, hv', heq⟩, Or.inr ⟨rfl, Or.inr ⟨rfl, ?_⟩⟩⟩
    cases c <;> norm_num [editOffset]
  · exact insert?_ok prm _ _ q p t u j d m hv hm hd ht (by simp) e he
  · rw [keepTokenEdges.eq_def] at he
    split at he
    · split at he
      · simp only [mem_bothConf, List.mem_singleton] at he
        obtain ⟨c, rfl⟩ := he
        exact ⟨⟨hv, hv', heq⟩, ⟨hn.next.1, hm.next.1, heq⟩, Or.inl hn.next.2⟩
      · cases he
    · cases he
  · rw [matchGroupEdges.eq_def] at he
    split at he
    · split at he
      · rename_i cs mt cs' mt' _
        obtain ⟨ns, hns⟩ := hn
        obtain ⟨ms, hms⟩ := hm
        obtain ⟨h1, h2, ⟨g1, g2, g3, g4⟩, h3⟩ := sub_group.mp hns
        obtain ⟨k1, k2, ⟨l1, l2, l3, l4⟩, k3⟩ := sub_group.mp hms
        have h6 := g4.last
        have k6 := l4.last
        rw [Nat.zero_add] at h6 k6
        have hdd : dOf D (some i) = dOf D' (some j) := by
          show D i = D' j
          omega
        simp only [List.mem_append, mem_bothConf, List.mem_singleton] at he
        rcases he with (⟨c, rfl⟩ | he) | ⟨c, rfl⟩
        · exact ⟨⟨hv, hv', heq⟩, ⟨g4.head, l4.head, hdd⟩, Or.inl g1⟩
        · exact hin cs mt cs' mt' rfl rfl e he
        · exact ⟨⟨h6, k6, hdd⟩, ⟨h3.head, k3.head, heq⟩, Or.inl g2⟩
      · cases he
    · cases he

omit [DecidableEq M] in
theorem overTarget_ok {P : EditEdge → Prop} (body : Nat → Nat → Option (Node M) → List EditEdge)
    (t : Option Nat) (d : Nat) (ms : List (Node M)) :
    ∀ (u j : Nat), Sub V' A' D' t u j d ms →
      (∀ u j m, V' (t, u) → Here V' A' D' t u j d m → ∀ e ∈ body u j m, P e) →
      ∀ e ∈ overTarget body u j ms, P e := by
  induction ms with
  | nil =>
    intro u j hs hb e he
    exact hb u j none (sub_nil.mp hs) trivial e he
  | cons m ms ih =>
    intro u j hs hb e he
    rcases List.mem_append.mp he with he | he
    · exact hb u j (some m) hs.head ⟨ms, hs⟩ e he
    · exact ih _ _ (sub_cons hs).2.2 hb e he

theorem match_ok (prm : Params) (ns : List (Node M)) :
    ∀ (q : Option Nat) (p i d : Nat) (t : Option Nat) (j : Nat) (target : List (Node M)),
      Sub V A D q p i d ns → Sub V' A' D' t 0 j d target → dOf D q = d → dOf D' t = d →
      ∀ e ∈ matchEdges prm q p i t j target ns, EditFine V V' A A' D D' e := by
  induction ns using seq_induction with
  | nil =>
    intro q p i d t j target hs ht hd hd' e he
    rw [matchEdges] at he
    exact overTarget_ok _ t d target 0 j ht (fun u j m hu hm =>
      cell_ok prm q p i d t u j none m [] hs.head hu trivial hm hd hd'
        (fun cs mt cs' mt' h => by simp at h)) e he
  | leaf n ns hn ih =>
    intro q p i d t j target hs ht hd hd' e he
    rw [matchEdges] at he
    rcases List.mem_append.mp he with he | he
    · exact overTarget_ok _ t d target 0 j ht (fun u j m hu hm =>
        cell_ok prm q p i d t u j (some n) m _ hs.head hu ⟨ns, hs⟩ hm hd hd'
          (fun cs mt cs' mt' h => by cases h; exact absurd rfl (hn _ _))) e he
    · exact ih _ _ _ _ _ _ _ (sub_cons hs).2.2 ht hd hd' e he
  | group cs mt ns ihc ih =>
    intro q p i d t j target hs ht hd hd' e he
    rw [matchEdges] at he
    rcases List.mem_append.mp he with he | he
    · refine overTarget_ok _ t d target 0 j ht (fun u j m hu hm =>
        cell_ok prm q p i d t u j (some (.group cs mt)) m _ hs.head hu ⟨ns, hs⟩ hm hd hd'
          (fun cs1 mt1 cs' mt' h h' => ?_)) e he
      cases h'
      obtain ⟨ms, hms⟩ := hm
      obtain ⟨h1, h2, ⟨g1, g2, g3, g4⟩, h3⟩ := sub_group.mp hs
      obtain ⟨k1, k2, ⟨l1, l2, l3, l4⟩, k3⟩ := sub_group.mp hms
      exact ihc _ _ _ _ _ _ _ g4 l4 g3 l3
    · exact ih _ _ _ _ _ _ _ (sub_cons hs).2.2 ht hd hd' e he

theorem edit_ok (prm : Params) {proto target : List (Node M)} (hs : Sub V A D none 0 0 0 proto)
    (ht : Sub V' A' D' none 0 0 0 target) :
    ∀ e ∈ editEdges prm proto target, EditFine V V' A A' D D' e := by
  intro e he
  rcases List.mem_append.mp he with he | he
  · exact match_ok prm proto none 0 0 0 none 0 target hs ht rfl rfl e he
  · rw [List.mem_singleton] at he
    subst he
    have h1 := hs.last
    have h2 := ht.last
    rw [Nat.zero_add] at h1 h2
    exact ⟨⟨h1, h2, rfl⟩, trivial, trivial⟩

end

end RUSure.Draw
