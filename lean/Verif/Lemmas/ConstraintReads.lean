import Verif.Lemmas.ConstraintGrammar
import Verif.Lemmas.Reads

/-!
# The language of the constraint DAG
-/

set_option linter.unusedSimpArgs false

namespace RUSure.Lemmas
open RUSure RUSure.Spec
variable {M : Type}

/-- Sequence indices as numbers: the root is `0`. -/
def code : Option Nat → Nat
  | none => 0
  | some j => j + 1

@[simp] theorem code_some (j : Nat) : code (some j) = j + 1 := rfl

/-- The states a call of the builder for sequences within a region adds edges from. -/
def FootI (q lvl pos n i size : Nat) : ConstraintState → Prop
  | .at .forced q' p l =>
    l = lvl ∧ ((code q' = q ∧ pos ≤ p ∧ p < pos + n) ∨ (i < code q' ∧ code q' ≤ i + size))
  | _ => False

/-- The states a call of the builder for sequences outside of regions adds edges from. -/
def FootO (q lvl pos n i size : Nat) : ConstraintState → Prop
  | .at .forced q' _ l => i < code q' ∧ code q' ≤ i + size ∧ lvl ≤ l
  | .at _ q' p l =>
    (code q' = q ∧ l = lvl ∧ pos ≤ p ∧ p < pos + n)
    ∨ (i < code q' ∧ code q' ≤ i + size ∧ lvl < l)
  | .final => False

theorem nodeSize_pos (n : Node M) : 1 ≤ nodeSize n := by
  cases n <;> simp [nodeSize]

theorem inside_source : ∀ (ns : List (Node M)) (seq : Option Nat) (lvl pos i : Nat),
    ∀ e ∈ insideEdges seq lvl pos i ns,
      FootI (code seq) lvl pos ns.length i (seqSize ns) e.source
  | [], _, _, _, _ => by simp [insideEdges]
  | n :: ns, seq, lvl, pos, i => by
    intro e he
    have hr : e ∈ insideEdges seq lvl (pos + 1) (i + nodeSize n) ns →
        FootI (code seq) lvl pos (n :: ns).length i (seqSize (n :: ns)) e.source := by
      intro h
      have := inside_source ns seq lvl (pos + 1) (i + nodeSize n) e h
      generalize e.source = s at this
      match s, this with
      | .at .forced q p l, h =>
        simp only [FootI, seqSize, List.length_cons] at h ⊢
        omega
    cases n with
    | group cs mt =>
      simp only [insideEdges, List.mem_append, List.mem_cons, List.not_mem_nil, or_false] at he
      rcases he with ((rfl | h) | rfl) | h
      · simp [FootI, decisionEdge, seqSize, nodeSize]
      · have := inside_source cs (some i) lvl 0 (i + 1) e h
        generalize e.source = s at this
        match s, this with
        | .at .forced q p l, h =>
          simp only [FootI, seqSize, List.length_cons, nodeSize, code_some] at h ⊢
          omega
      · refine ⟨rfl, .inr ?_⟩
        simp only [seqSize, nodeSize, code_some]; omega
      · exact hr h
    | deco t =>
      simp only [insideEdges, List.mem_append, List.mem_cons, List.not_mem_nil, or_false] at he
      rcases he with rfl | h
      · simp [FootI, plainEdge]
      · exact hr h
    | tok t mt =>
      simp only [insideEdges, List.mem_append, List.mem_cons, List.not_mem_nil, or_false] at he
      rcases he with rfl | h
      · simp [FootI, decisionEdge]
      · exact hr h
    | rstart =>
      simp only [insideEdges, List.mem_append, List.mem_cons, List.not_mem_nil, or_false] at he
      rcases he with rfl | h
      · simp [FootI, decisionEdge]
      · exact hr h
    | rend =>
      simp only [insideEdges, List.mem_append, List.mem_cons, List.not_mem_nil, or_false] at he
      rcases he with rfl | h
      · simp [FootI, decisionEdge]
      · exact hr h
    | exit =>
      simp only [insideEdges, List.mem_append, List.mem_cons, List.not_mem_nil, or_false] at he
      rcases he with (rfl | rfl) | h
      · simp [FootI, exitEdge]
      · simp [FootI, decisionEdge]
      · exact hr h

theorem outside_source : ∀ (ns : List (Node M)) (seq : Option Nat) (lvl pos i : Nat),
    ∀ e ∈ outsideEdges seq lvl pos i ns,
      FootO (code seq) lvl pos ns.length i (seqSize ns) e.source
  | [], _, _, _, _ => by simp [outsideEdges]
  | n :: ns, seq, lvl, pos, i => by
    intro e he
    have hr : e ∈ outsideEdges seq lvl (pos + 1) (i + nodeSize n) ns →
        FootO (code seq) lvl pos (n :: ns).length i (seqSize (n :: ns)) e.source := by
      intro h
      have := outside_source ns seq lvl (pos + 1) (i + nodeSize n) e h
      generalize e.source = s at this
      match s, this with
      | .at .forced q p l, h | .at .outside q p l, h | .at .temporary q p l, h =>
        simp only [FootO, seqSize, List.length_cons] at h ⊢
        omega
    cases n with
    | group cs mt =>
      simp only [outsideEdges, List.mem_append, List.mem_cons, List.not_mem_nil, or_false] at he
      rcases he with (((((rfl | h) | rfl) | rfl) | h) | rfl) | h
      · simp [FootO, decisionEdge, seqSize, nodeSize]
      · have := outside_source cs (some i) (lvl + 1) 0 (i + 1) e h
        generalize e.source = s at this
        match s, this with
        | .at .forced q p l, h | .at .outside q p l, h | .at .temporary q p l, h =>
          simp only [FootO, seqSize, List.length_cons, nodeSize, code_some] at h ⊢
          omega
      · simp only [FootO, plainEdge, seqSize, nodeSize, code_some]; omega
      · simp [FootO, decisionEdge, seqSize, nodeSize]
      · have := inside_source cs (some i) lvl 0 (i + 1) e h
        generalize e.source = s at this
        match s, this with
        | .at .forced q p l, h =>
          simp only [FootI, FootO, seqSize, nodeSize, code_some] at h ⊢
          omega
      · simp only [FootO, plainEdge, seqSize, nodeSize, code_some]; omega
      · exact hr h
    | deco t =>
      simp only [outsideEdges, List.mem_append, List.mem_cons, List.not_mem_nil, or_false] at he
      rcases he with (rfl | rfl) | h
      · simp [FootO, plainEdge]
      · simp [FootO, plainEdge]
      · exact hr h
    | tok t mt =>
      simp only [outsideEdges, List.mem_append, List.mem_cons, List.not_mem_nil, or_false] at he
      rcases he with (rfl | rfl) | h
      · simp [FootO, decisionEdge]
      · simp [FootO, decisionEdge]
      · exact hr h
    | rstart =>
      simp only [outsideEdges, List.mem_append, List.mem_cons, List.not_mem_nil, or_false] at he
      rcases he with (rfl | rfl | rfl) | h
      · simp [FootO, decisionEdge]
      · simp [FootO, decisionEdge]
      · simp [FootO, decisionEdge]
      · exact hr h
    | rend =>
      simp only [outsideEdges, List.mem_append, List.mem_cons, List.not_mem_nil, or_false] at he
      rcases he with (rfl | rfl | rfl) | h
      · simp [FootO, decisionEdge]
      · simp [FootO, decisionEdge]
      · simp [FootO, decisionEdge]
      · exact hr h
    | exit =>
      simp only [outsideEdges, List.mem_append, List.mem_cons, List.not_mem_nil, or_false] at he
      rcases he with (rfl | rfl | rfl | rfl) | h
      · simp [FootO, exitEdge]
      · simp [FootO, decisionEdge]
      · simp [FootO, exitEdge]
      · simp [FootO, decisionEdge]
      · exact hr h

/-! ### What is read from each state -/

/-- What is read from a state of the constraint DAG. -/
abbrev CReads (E : List ConstraintEdge) : ConstraintState → Lang :=
  Reads Edge.source Edge.dest (fun e => e.req.toList) E .final

theorem creads_out {E : List ConstraintEdge} {c : ConstraintCat} {q : Option Nat} {p l : Nat}
    (L : List ConstraintEdge)
    (hL : ∀ e, (e ∈ E ∧ e.source = .at c q p l) ↔ e ∈ L) (ds : List Decision) :
    CReads E (.at c q p l) ds ↔
      ∃ e ∈ L, ∃ ds', ds = e.req.toList ++ ds' ∧ CReads E e.dest ds' :=
  reads_out (by simp) hL ds

/-- Ownership passes to the rest of the sequence. -/
theorem inside_own_rest {E : List ConstraintEdge} {n : Node M} {ns : List (Node M)}
    {seq : Option Nat} {lvl pos i : Nat} (hseq : code seq ≤ i)
    (hown : ∀ e ∈ E, FootI (code seq) lvl pos (n :: ns).length i (seqSize (n :: ns)) e.source →
      e ∈ insideEdges seq lvl pos i (n :: ns)) :
    ∀ e ∈ E, FootI (code seq) lvl (pos + 1) ns.length (i + nodeSize n) (seqSize ns) e.source →
      e ∈ insideEdges seq lvl (pos + 1) (i + nodeSize n) ns := by
  intro e he hf
  have hw := hown e he (by
    generalize e.source = s at hf
    match s, hf with
    | .at .forced q p l, h =>
      simp only [FootI, seqSize, List.length_cons] at h ⊢
      omega)
  cases n with
  | group cs mt =>
    simp only [insideEdges, List.mem_append, List.mem_cons, List.not_mem_nil, or_false] at hw
    rcases hw with ((rfl | h) | rfl) | h
    · simp only [FootI, decisionEdge, nodeSize] at hf; omega
    · have := inside_source cs (some i) lvl 0 (i + 1) e h
      generalize e.source = s at this hf
      match s, this, hf with
      | .at .forced q p l, h, hf =>
        simp only [FootI, nodeSize, code_some] at h hf
        omega
    · simp only [FootI, plainEdge, nodeSize, code_some] at hf; omega
    · exact h
  | deco t =>
    simp only [insideEdges, List.mem_append, List.mem_cons, List.not_mem_nil, or_false] at hw
    rcases hw with rfl | h
    · simp only [FootI, plainEdge, nodeSize] at hf; omega
    · exact h
  | tok t mt =>
    simp only [insideEdges, List.mem_append, List.mem_cons, List.not_mem_nil, or_false] at hw
    rcases hw with rfl | h
    · simp only [FootI, decisionEdge, nodeSize] at hf; omega
    · exact h
  | rstart =>
    simp only [insideEdges, List.mem_append, List.mem_cons, List.not_mem_nil, or_false] at hw
    rcases hw with rfl | h
    · simp only [FootI, decisionEdge, nodeSize] at hf; omega
    · exact h
  | rend =>
    simp only [insideEdges, List.mem_append, List.mem_cons, List.not_mem_nil, or_false] at hw
    rcases hw with rfl | h
    · simp only [FootI, decisionEdge, nodeSize] at hf; omega
    · exact h
  | exit =>
    simp only [insideEdges, List.mem_append, List.mem_cons, List.not_mem_nil, or_false] at hw
    rcases hw with (rfl | rfl) | h
    · simp only [FootI, exitEdge, nodeSize] at hf; omega
    · simp only [FootI, decisionEdge, nodeSize] at hf; omega
    · exact h

/-- Within a region, the DAG reads the grammar. -/
theorem inside_reads : ∀ (ns : List (Node M)) (seq : Option Nat) (lvl pos i : Nat)
    (E : List ConstraintEdge) (K : Lang), code seq ≤ i →
    (∀ ds, CReads E .final ds ↔ ds = []) →
    (∀ e ∈ insideEdges seq lvl pos i ns, e ∈ E) →
    (∀ e ∈ E, FootI (code seq) lvl pos ns.length i (seqSize ns) e.source →
      e ∈ insideEdges seq lvl pos i ns) →
    (∀ ds, CReads E (.at .forced seq (pos + ns.length) lvl) ds ↔ K ds) →
    ∀ ds, CReads E (.at .forced seq pos lvl) ds ↔ G true ns i K ds
  | [], seq, lvl, pos, i, E, K, hseq, hfin, hsub, hown, hK => by
    intro ds
    rw [G_nil, ← hK]; simp
  | n :: ns, seq, lvl, pos, i, E, K, hseq, hfin, hsub, hown, hK => by
    have ih := inside_reads ns seq lvl (pos + 1) (i + nodeSize n) E K (by omega) hfin
      (fun e he => hsub e (by cases n <;> simp [insideEdges, he]))
      (inside_own_rest hseq hown)
      (by intro ds; rw [← hK]; simp [Nat.add_assoc, Nat.add_comm 1])
    -- the edges leaving the first state
    have hfirst : ∀ e, e ∈ E → e.source = .at .forced seq pos lvl →
        e ∈ insideEdges seq lvl pos i (n :: ns)
          ∧ e ∉ insideEdges seq lvl (pos + 1) (i + nodeSize n) ns := by
      intro e he hs
      refine ⟨hown e he (by rw [hs]; simp [FootI]), fun h => ?_⟩
      have := inside_source ns seq lvl (pos + 1) _ e h
      rw [hs] at this
      simp only [FootI] at this
      omega
    have hout : ∀ L, insideEdges seq lvl pos i (n :: ns)
          = L ++ insideEdges seq lvl (pos + 1) (i + nodeSize n) ns →
        (∀ e ∈ L, e.source = .at .forced seq pos lvl) →
        ∀ ds, CReads E (.at .forced seq pos lvl) ds ↔
          ∃ e ∈ L, ∃ ds', ds = e.req.toList ++ ds' ∧ CReads E e.dest ds' := by
      intro L h1 h2
      refine creads_out L fun e => ⟨fun ⟨h3, h4⟩ => ?_, fun h => ⟨hsub e ?_, h2 e h⟩⟩
      · obtain ⟨h5, h6⟩ := hfirst e h3 h4
        rw [h1, List.mem_append] at h5
        exact h5.resolve_right h6
      · rw [h1, List.mem_append]; exact .inl h
    intro ds
    cases n with
    | group cs mt =>
      have hleave : ∀ ds, CReads E (.at .forced (some i) (0 + cs.length) lvl) ds ↔
          G true ns (i + 1 + seqSize cs) K ds := by
        intro ds
        rw [creads_out [plainEdge (.at .forced (some i) cs.length lvl)
          (.at .forced seq (pos + 1) lvl)]]
        · have := ih ds
          simp only [nodeSize, ← Nat.add_assoc] at this
          simpa [plainEdge] using this
        · intro e
          constructor
          · rintro ⟨h1, h2⟩
            have h3 := hown e h1 (by
              rw [h2]; simp only [FootI, seqSize, nodeSize, code_some]
              refine ⟨trivial, .inr ?_⟩; omega)
            simp only [insideEdges, List.mem_append, List.mem_cons, List.not_mem_nil, or_false]
              at h3
            rcases h3 with ((rfl | h) | rfl) | h
            · simp only [decisionEdge, ConstraintState.at.injEq, true_and, and_true] at h2
              rw [h2.1] at hseq
              simp only [code_some] at hseq; omega
            · have := inside_source cs (some i) lvl 0 (i + 1) e h
              rw [h2] at this
              simp only [FootI, code_some] at this; omega
            · simp
            · have := inside_source ns seq lvl (pos + 1) _ e h
              rw [h2] at this
              simp only [FootI, code_some, nodeSize] at this; omega
          · intro h
            simp only [List.mem_singleton] at h
            subst h
            exact ⟨hsub _ (by simp [insideEdges]), by simp [plainEdge]⟩
      have ihc := inside_reads cs (some i) lvl 0 (i + 1) E _ (by simp) hfin
        (fun e he => hsub e (by simp [insideEdges, he]))
        (by
          intro e he hf
          have hw := hown e he (by
            generalize e.source = s at hf
            match s, hf with
            | .at .forced q p l, h =>
              simp only [FootI, seqSize, List.length_cons, nodeSize, code_some] at h ⊢
              omega)
          simp only [insideEdges, List.mem_append, List.mem_cons, List.not_mem_nil, or_false] at hw
          rcases hw with ((rfl | h) | rfl) | h
          · simp only [FootI, decisionEdge, code_some] at hf; omega
          · exact h
          · simp only [FootI, plainEdge, code_some] at hf; omega
          · have := inside_source ns seq lvl (pos + 1) _ e h
            generalize e.source = s at this hf
            match s, this, hf with
            | .at .forced q p l, h, hf =>
              simp only [FootI, nodeSize, code_some] at h hf
              omega)
        hleave
      rw [creads_out [decisionEdge (.at .forced seq pos lvl) (.at .forced (some i) 0 lvl) i .inRegion
        .yes], G_group]
      · simp [decisionEdge, pre, ihc, inValue]
      · intro e
        constructor
        · rintro ⟨h1, h2⟩
          obtain ⟨h3, h4⟩ := hfirst e h1 h2
          simp only [insideEdges, List.mem_append, List.mem_cons, List.not_mem_nil, or_false] at h3
          rcases h3 with ((rfl | h) | rfl) | h
          · simp
          · have := inside_source cs (some i) lvl 0 (i + 1) e h
            rw [h2] at this
            simp only [FootI, code_some] at this; omega
          · simp only [plainEdge, ConstraintState.at.injEq, true_and, and_true] at h2
            rw [← h2.1] at hseq
            simp only [code_some] at hseq; omega
          · exact absurd h h4
        · intro h
          simp only [List.mem_singleton] at h
          subst h
          exact ⟨hsub _ (by simp [insideEdges]), by simp [decisionEdge]⟩
    | deco t =>
      rw [hout [plainEdge (.at .forced seq pos lvl) (.at .forced seq (pos + 1) lvl)]
        (by simp [insideEdges]) (by simp [plainEdge]), G_deco]
      simp only [nodeSize] at ih
      simpa [plainEdge] using ih ds
    | tok t mt =>
      rw [hout [decisionEdge (.at .forced seq pos lvl) (.at .forced seq (pos + 1) lvl) i .inRegion .yes]
        (by simp [insideEdges]) (by simp [decisionEdge]), G_tok]
      simp only [nodeSize] at ih
      simp [decisionEdge, pre, ih, inValue]
    | rstart =>
      rw [hout [decisionEdge (.at .forced seq pos lvl) (.at .forced seq (pos + 1) lvl) i .start .na]
        (by simp [insideEdges]) (by simp [decisionEdge]), G_rstart_in]
      simp only [nodeSize] at ih
      simp [decisionEdge, pre, ih]
    | rend =>
      rw [hout [decisionEdge (.at .forced seq pos lvl) (.at .forced seq (pos + 1) lvl) i .stop .no]
        (by simp [insideEdges]) (by simp [decisionEdge]), G_rend]
      simp only [nodeSize] at ih
      simp [decisionEdge, pre, ih]
    | exit =>
      rw [hout [exitEdge (.at .forced seq pos lvl) i, decisionEdge (.at .forced seq pos lvl)
        (.at .forced seq (pos + 1) lvl) i .exit .no]
        (by simp [insideEdges]) (by simp [decisionEdge, exitEdge]), G_exit]
      simp only [nodeSize] at ih
      simp [decisionEdge, exitEdge, pre, ih, hfin]

/-- Ownership passes to the rest of the sequence. -/
theorem outside_own_rest {E : List ConstraintEdge} {n : Node M} {ns : List (Node M)}
    {seq : Option Nat} {lvl pos i : Nat} (hseq : code seq ≤ i)
    (hown : ∀ e ∈ E, FootO (code seq) lvl pos (n :: ns).length i (seqSize (n :: ns)) e.source →
      e ∈ outsideEdges seq lvl pos i (n :: ns)) :
    ∀ e ∈ E, FootO (code seq) lvl (pos + 1) ns.length (i + nodeSize n) (seqSize ns) e.source →
      e ∈ outsideEdges seq lvl (pos + 1) (i + nodeSize n) ns := by
  intro e he hf
  have hw := hown e he (by
    generalize e.source = s at hf
    match s, hf with
    | .at .forced q p l, h | .at .outside q p l, h | .at .temporary q p l, h =>
      simp only [FootO, seqSize, List.length_cons] at h ⊢
      omega)
  cases n with
  | group cs mt =>
    simp only [outsideEdges, List.mem_append, List.mem_cons, List.not_mem_nil, or_false] at hw
    rcases hw with (((((rfl | h) | rfl) | rfl) | h) | rfl) | h
    · simp only [FootO, decisionEdge, nodeSize] at hf; omega
    · have := outside_source cs (some i) (lvl + 1) 0 (i + 1) e h
      generalize e.source = s at this hf
      match s, this, hf with
      | .at .forced q p l, h, hf | .at .outside q p l, h, hf | .at .temporary q p l, h, hf =>
        simp only [FootO, nodeSize, code_some] at h hf
        omega
    · simp only [FootO, plainEdge, nodeSize, code_some] at hf; omega
    · simp only [FootO, decisionEdge, nodeSize] at hf; omega
    · have := inside_source cs (some i) lvl 0 (i + 1) e h
      generalize e.source = s at this hf
      match s, this, hf with
      | .at .forced q p l, h, hf =>
        simp only [FootI, FootO, nodeSize, code_some] at h hf
        omega
    · simp only [FootO, plainEdge, nodeSize, code_some] at hf; omega
    · exact h
  | deco t =>
    simp only [outsideEdges, List.mem_append, List.mem_cons, List.not_mem_nil, or_false] at hw
    rcases hw with (rfl | rfl) | h
    · simp only [FootO, plainEdge, nodeSize] at hf; omega
    · simp only [FootO, plainEdge, nodeSize] at hf; omega
    · exact h
  | tok t mt =>
    simp only [outsideEdges, List.mem_append, List.mem_cons, List.not_mem_nil, or_false] at hw
    rcases hw with (rfl | rfl) | h
    · simp only [FootO, decisionEdge, nodeSize] at hf; omega
    · simp only [FootO, decisionEdge, nodeSize] at hf; omega
    · exact h
  | rstart =>
    simp only [outsideEdges, List.mem_append, List.mem_cons, List.not_mem_nil, or_false] at hw
    rcases hw with (rfl | rfl | rfl) | h
    · simp only [FootO, decisionEdge, nodeSize] at hf; omega
    · simp only [FootO, decisionEdge, nodeSize] at hf; omega
    · simp only [FootO, decisionEdge, nodeSize] at hf; omega
    · exact h
  | rend =>
    simp only [outsideEdges, List.mem_append, List.mem_cons, List.not_mem_nil, or_false] at hw
    rcases hw with (rfl | rfl | rfl) | h
    · simp only [FootO, decisionEdge, nodeSize] at hf; omega
    · simp only [FootO, decisionEdge, nodeSize] at hf; omega
    · simp only [FootO, decisionEdge, nodeSize] at hf; omega
    · exact h
  | exit =>
    simp only [outsideEdges, List.mem_append, List.mem_cons, List.not_mem_nil, or_false] at hw
    rcases hw with (rfl | rfl | rfl | rfl) | h
    · simp only [FootO, exitEdge, nodeSize] at hf; omega
    · simp only [FootO, decisionEdge, nodeSize] at hf; omega
    · simp only [FootO, exitEdge, nodeSize] at hf; omega
    · simp only [FootO, decisionEdge, nodeSize] at hf; omega
    · exact h

/-- Where regions may start, the DAG reads the grammar. -/
theorem outside_reads : ∀ (ns : List (Node M)) (seq : Option Nat) (lvl pos i : Nat)
    (E : List ConstraintEdge) (K : Lang), code seq ≤ i →
    (∀ ds, CReads E .final ds ↔ ds = []) →
    (∀ e ∈ outsideEdges seq lvl pos i ns, e ∈ E) →
    (∀ e ∈ E, FootO (code seq) lvl pos ns.length i (seqSize ns) e.source →
      e ∈ outsideEdges seq lvl pos i ns) →
    (∀ e ∈ E, e.source ≠ .at .temporary seq (pos + ns.length) lvl) →
    (∀ ds, CReads E (.at .outside seq (pos + ns.length) lvl) ds ↔ K ds) →
    (∀ ds, CReads E (.at .outside seq pos lvl) ds ↔ G false ns i K ds)
    ∧ ∀ ds, CReads E (.at .temporary seq pos lvl) ds ↔ GTemp ns i K ds
  | [], seq, lvl, pos, i, E, K, hseq, hfin, hsub, hown, hend, hK => by
    constructor
    · intro ds
      rw [G_nil, ← hK]; simp
    · intro ds
      rw [creads_out []]
      · simp [GTemp_nil]
      · intro e
        simpa using hend e
  | n :: ns, seq, lvl, pos, i, E, K, hseq, hfin, hsub, hown, hend, hK => by
    have ih := outside_reads ns seq lvl (pos + 1) (i + nodeSize n) E K (by omega) hfin
      (fun e he => hsub e (by cases n <;> simp [outsideEdges, he]))
      (outside_own_rest hseq hown)
      (by
        intro e he
        have := hend e he
        simpa [Nat.add_assoc, Nat.add_comm 1] using this)
      (by intro ds; rw [← hK]; simp [Nat.add_assoc, Nat.add_comm 1])
    obtain ⟨ih1, ih2⟩ := ih
    -- the edges leaving the first states
    have hfirst : ∀ c, c = .outside ∨ c = .temporary → ∀ e, e ∈ E → e.source = .at c seq pos lvl →
        e ∈ outsideEdges seq lvl pos i (n :: ns)
          ∧ e ∉ outsideEdges seq lvl (pos + 1) (i + nodeSize n) ns := by
      intro c hc e he hs
      refine ⟨hown e he (by rw [hs]; rcases hc with rfl | rfl <;> simp [FootO]), fun h => ?_⟩
      have := outside_source ns seq lvl (pos + 1) _ e h
      rw [hs] at this
      rcases hc with rfl | rfl <;> simp only [FootO] at this <;> omega
    have hout : ∀ c, c = .outside ∨ c = .temporary → ∀ H : List ConstraintEdge,
        outsideEdges seq lvl pos i (n :: ns)
          = H ++ outsideEdges seq lvl (pos + 1) (i + nodeSize n) ns →
        ∀ ds, CReads E (.at c seq pos lvl) ds ↔ ∃ e ∈ H, e.source = .at c seq pos lvl ∧
          ∃ ds', ds = e.req.toList ++ ds' ∧ CReads E e.dest ds' := by
      intro c hc H h1 ds
      unfold CReads
      rw [reads_step (by simp)]
      constructor
      · rintro ⟨e, h3, h4, h5⟩
        obtain ⟨h6, h7⟩ := hfirst c hc e h3 h4
        rw [h1, List.mem_append] at h6
        exact ⟨e, h6.resolve_right h7, h4, h5⟩
      · rintro ⟨e, h3, h4, h5⟩
        exact ⟨e, hsub e (by rw [h1, List.mem_append]; exact .inl h3), h4, h5⟩
    cases n with
    | group cs mt =>
      have hlo : ∀ e ∈ E, e.source = .at .outside (some i) cs.length (lvl + 1) → e ∈ ([plainEdge (.at .outside (some i) cs.length (lvl + 1)) (.at .outside seq (pos + 1) lvl)] : List ConstraintEdge) := by
        intro e h1 h2
        have h3 := hown e h1 (by
          rw [h2]; simp only [FootO, seqSize, nodeSize, code_some]; omega)
        simp only [outsideEdges, List.mem_append, List.mem_cons, List.not_mem_nil, or_false] at h3
        rcases h3 with (((((rfl | h) | rfl) | rfl) | h) | rfl) | h
        · simp [decisionEdge] at h2
        · have := outside_source cs (some i) (lvl + 1) 0 (i + 1) e h
          rw [h2] at this
          simp only [FootO, code_some] at this; omega
        · simp [plainEdge] at h2 ⊢
        · simp [decisionEdge] at h2
        · have := inside_source cs (some i) lvl 0 (i + 1) e h
          rw [h2] at this
          simp only [FootI, code_some] at this
          try omega
        · simp [plainEdge] at h2 ⊢
        · have := outside_source ns seq lvl (pos + 1) _ e h
          rw [h2] at this
          simp only [FootO, code_some, nodeSize] at this; omega

      have hlt : ∀ e ∈ E, e.source = .at .temporary (some i) cs.length (lvl + 1) → e ∈ ([] : List ConstraintEdge) := by
        intro e h1 h2
        have h3 := hown e h1 (by
          rw [h2]; simp only [FootO, seqSize, nodeSize, code_some]; omega)
        simp only [outsideEdges, List.mem_append, List.mem_cons, List.not_mem_nil, or_false] at h3
        rcases h3 with (((((rfl | h) | rfl) | rfl) | h) | rfl) | h
        · simp [decisionEdge] at h2
        · have := outside_source cs (some i) (lvl + 1) 0 (i + 1) e h
          rw [h2] at this
          simp only [FootO, code_some] at this; omega
        · simp [plainEdge] at h2 ⊢
        · simp [decisionEdge] at h2
        · have := inside_source cs (some i) lvl 0 (i + 1) e h
          rw [h2] at this
          simp only [FootI, code_some] at this
          try omega
        · simp [plainEdge] at h2 ⊢
        · have := outside_source ns seq lvl (pos + 1) _ e h
          rw [h2] at this
          simp only [FootO, code_some, nodeSize] at this; omega

      have hlf : ∀ e ∈ E, e.source = .at .forced (some i) cs.length lvl → e ∈ ([plainEdge (.at .forced (some i) cs.length lvl) (.at .temporary seq (pos + 1) lvl)] : List ConstraintEdge) := by
        intro e h1 h2
        have h3 := hown e h1 (by
          rw [h2]; simp only [FootO, seqSize, nodeSize, code_some]; omega)
        simp only [outsideEdges, List.mem_append, List.mem_cons, List.not_mem_nil, or_false] at h3
        rcases h3 with (((((rfl | h) | rfl) | rfl) | h) | rfl) | h
        · simp [decisionEdge] at h2
        · have := outside_source cs (some i) (lvl + 1) 0 (i + 1) e h
          rw [h2] at this
          simp only [FootO, code_some] at this; omega
        · simp [plainEdge] at h2 ⊢
        · simp [decisionEdge] at h2
        · have := inside_source cs (some i) lvl 0 (i + 1) e h
          rw [h2] at this
          simp only [FootI, code_some] at this
          try omega
        · simp [plainEdge] at h2 ⊢
        · have := outside_source ns seq lvl (pos + 1) _ e h
          rw [h2] at this
          simp only [FootO, code_some, nodeSize] at this; omega

      have hleaveo : ∀ ds, CReads E (.at .outside (some i) (0 + cs.length) (lvl + 1)) ds ↔
          G false ns (i + 1 + seqSize cs) K ds := by
        intro ds
        rw [Nat.zero_add, creads_out [plainEdge (.at .outside (some i) cs.length (lvl + 1))
          (.at .outside seq (pos + 1) lvl)]]
        · have := ih1 ds
          simp only [nodeSize, ← Nat.add_assoc] at this
          simpa [plainEdge] using this
        · refine fun e => ⟨fun ⟨h1, h2⟩ => hlo e h1 h2, fun h => ?_⟩
          simp only [List.mem_singleton] at h
          subst h
          exact ⟨hsub _ (by simp [outsideEdges]), by simp [plainEdge]⟩
      have hleavef : ∀ ds, CReads E (.at .forced (some i) (0 + cs.length) lvl) ds ↔
          GTemp ns (i + 1 + seqSize cs) K ds := by
        intro ds
        rw [Nat.zero_add, creads_out [plainEdge (.at .forced (some i) cs.length lvl)
          (.at .temporary seq (pos + 1) lvl)]]
        · have := ih2 ds
          simp only [nodeSize, ← Nat.add_assoc] at this
          simpa [plainEdge] using this
        · refine fun e => ⟨fun ⟨h1, h2⟩ => hlf e h1 h2, fun h => ?_⟩
          simp only [List.mem_singleton] at h
          subst h
          exact ⟨hsub _ (by simp [outsideEdges]), by simp [plainEdge]⟩
      have ihco := (outside_reads cs (some i) (lvl + 1) 0 (i + 1) E _ (by simp) hfin
        (fun e he => hsub e (by simp [outsideEdges, he]))
        (by
          intro e he hf
          have hw := hown e he (by
            generalize e.source = s at hf
            match s, hf with
            | .at .forced q p l, h | .at .outside q p l, h | .at .temporary q p l, h =>
              simp only [FootO, seqSize, List.length_cons, nodeSize, code_some] at h ⊢
              omega)
          simp only [outsideEdges, List.mem_append, List.mem_cons, List.not_mem_nil, or_false] at hw
          rcases hw with (((((rfl | h) | rfl) | rfl) | h) | rfl) | h
          · simp only [FootO, decisionEdge, code_some] at hf; omega
          · exact h
          · simp only [FootO, plainEdge, code_some] at hf; omega
          · simp only [FootO, decisionEdge, code_some] at hf; omega
          · have := inside_source cs (some i) lvl 0 (i + 1) e h
            generalize e.source = s at this hf
            match s, this, hf with
            | .at .forced q p l, h, hf =>
              simp only [FootI, FootO, code_some] at h hf
              omega
          · simp only [FootO, plainEdge, code_some] at hf; omega
          · have := outside_source ns seq lvl (pos + 1) _ e h
            generalize e.source = s at this hf
            match s, this, hf with
            | .at .forced q p l, h, hf | .at .outside q p l, h, hf | .at .temporary q p l, h, hf =>
              simp only [FootO, nodeSize, code_some] at h hf
              omega)
        (fun e he h => by simpa using hlt e he (by simpa using h)) hleaveo).1
      have ihcf := inside_reads cs (some i) lvl 0 (i + 1) E _ (by simp) hfin
        (fun e he => hsub e (by simp [outsideEdges, he]))
        (by
          intro e he hf
          have hw := hown e he (by
            generalize e.source = s at hf
            match s, hf with
            | .at .forced q p l, h =>
              simp only [FootI, FootO, seqSize, List.length_cons, nodeSize, code_some] at h ⊢
              omega)
          simp only [outsideEdges, List.mem_append, List.mem_cons, List.not_mem_nil, or_false] at hw
          rcases hw with (((((rfl | h) | rfl) | rfl) | h) | rfl) | h
          · simp [FootI, decisionEdge] at hf
          · have := outside_source cs (some i) (lvl + 1) 0 (i + 1) e h
            generalize e.source = s at this hf
            match s, this, hf with
            | .at .forced q p l, h, hf =>
              simp only [FootI, FootO, code_some] at h hf
              omega
          · simp [FootI, plainEdge] at hf
          · simp [FootI, decisionEdge] at hf
          · exact h
          · simp only [FootI, plainEdge, code_some] at hf; omega
          · have := outside_source ns seq lvl (pos + 1) _ e h
            generalize e.source = s at this hf
            match s, this, hf with
            | .at .forced q p l, h, hf =>
              simp only [FootI, FootO, nodeSize, code_some] at h hf
              omega)
        hleavef
      have hentry : ∀ c, c = .outside ∨ c = .temporary → ∀ e ∈ E, e.source = .at c seq pos lvl →
          e ∈ [decisionEdge (.at .outside seq pos lvl) (.at .outside (some i) 0 (lvl + 1)) i
              .inRegion .no,
            decisionEdge (.at .temporary seq pos lvl) (.at .forced (some i) 0 lvl) i
              .inRegion .yes] := by
        intro c hc e h1 h2
        obtain ⟨h3, h4⟩ := hfirst c hc e h1 h2
        simp only [outsideEdges, List.mem_append, List.mem_cons, List.not_mem_nil, or_false] at h3
        rcases h3 with (((((rfl | h) | rfl) | rfl) | h) | rfl) | h
        · simp
        · have := outside_source cs (some i) (lvl + 1) 0 (i + 1) e h
          rw [h2] at this
          rcases hc with rfl | rfl <;> simp only [FootO, code_some] at this <;> omega
        · simp only [plainEdge, ConstraintState.at.injEq] at h2
          omega
        · simp
        · have := inside_source cs (some i) lvl 0 (i + 1) e h
          rw [h2] at this
          rcases hc with rfl | rfl <;> simp only [FootI] at this
        · rcases hc with rfl | rfl <;> simp [plainEdge] at h2
        · exact absurd h h4
      refine ⟨fun ds => ?_, fun ds => ?_⟩
      · rw [creads_out [decisionEdge (.at .outside seq pos lvl) (.at .outside (some i) 0 (lvl + 1)) i
          .inRegion .no], G_group]
        · simp [decisionEdge, pre, ihco, inValue]
        · refine fun e => ⟨fun ⟨h1, h2⟩ => ?_, fun h => ?_⟩
          · have h3 := hentry _ (by simp) e h1 h2
            simp only [List.mem_cons, List.not_mem_nil, or_false] at h3 ⊢
            rcases h3 with h3 | rfl
            · exact h3
            · simp [decisionEdge] at h2
          · simp only [List.mem_singleton] at h
            subst h
            exact ⟨hsub _ (by simp [outsideEdges]), by simp [decisionEdge]⟩
      · rw [creads_out [decisionEdge (.at .temporary seq pos lvl) (.at .forced (some i) 0 lvl) i
          .inRegion .yes], GTemp_group]
        · simp [decisionEdge, pre, ihcf]
        · refine fun e => ⟨fun ⟨h1, h2⟩ => ?_, fun h => ?_⟩
          · have h3 := hentry _ (by simp) e h1 h2
            simp only [List.mem_cons, List.not_mem_nil, or_false] at h3 ⊢
            rcases h3 with rfl | h3
            · simp [decisionEdge] at h2
            · exact h3
          · simp only [List.mem_singleton] at h
            subst h
            exact ⟨hsub _ (by simp [outsideEdges]), by simp [decisionEdge]⟩
    | deco t =>
      simp only [nodeSize] at ih1 ih2
      have ho := fun c hc => hout c hc [plainEdge (.at .outside seq pos lvl) (.at .outside seq (pos + 1) lvl),
        plainEdge (.at .temporary seq pos lvl) (.at .temporary seq (pos + 1) lvl)]
        (by simp [outsideEdges, inRegionValue])
      refine ⟨fun ds => ?_, fun ds => ?_⟩
      · rw [ho .outside (by simp), G_deco]
        simp [plainEdge, decisionEdge, exitEdge, pre, ih1, ih2, inValue, hfin]
      · rw [ho .temporary (by simp), GTemp_deco]
        simp [plainEdge, decisionEdge, exitEdge, pre, ih1, ih2, hfin]
    | tok t mt =>
      simp only [nodeSize] at ih1 ih2
      have ho := fun c hc => hout c hc [decisionEdge (.at .outside seq pos lvl) (.at .outside seq (pos + 1) lvl) i .inRegion .no,
        decisionEdge (.at .temporary seq pos lvl) (.at .temporary seq (pos + 1) lvl) i .inRegion .yes]
        (by simp [outsideEdges, inRegionValue])
      refine ⟨fun ds => ?_, fun ds => ?_⟩
      · rw [ho .outside (by simp), G_tok]
        simp [plainEdge, decisionEdge, exitEdge, pre, ih1, ih2, inValue, hfin]
      · rw [ho .temporary (by simp), GTemp_tok]
        simp [plainEdge, decisionEdge, exitEdge, pre, ih1, ih2, hfin]
    | rstart =>
      simp only [nodeSize] at ih1 ih2
      have ho := fun c hc => hout c hc [decisionEdge (.at .outside seq pos lvl) (.at .outside seq (pos + 1) lvl) i .start .no,
        decisionEdge (.at .outside seq pos lvl) (.at .temporary seq (pos + 1) lvl) i .start .yes,
        decisionEdge (.at .temporary seq pos lvl) (.at .temporary seq (pos + 1) lvl) i .start .na]
        (by simp [outsideEdges, inRegionValue])
      refine ⟨fun ds => ?_, fun ds => ?_⟩
      · rw [ho .outside (by simp), G_rstart_out]
        simp [plainEdge, decisionEdge, exitEdge, pre, ih1, ih2, inValue, hfin]
      · rw [ho .temporary (by simp), GTemp_rstart]
        simp [plainEdge, decisionEdge, exitEdge, pre, ih1, ih2, hfin]
    | rend =>
      simp only [nodeSize] at ih1 ih2
      have ho := fun c hc => hout c hc [decisionEdge (.at .temporary seq pos lvl) (.at .temporary seq (pos + 1) lvl) i .stop .no,
        decisionEdge (.at .temporary seq pos lvl) (.at .outside seq (pos + 1) lvl) i .stop .yes,
        decisionEdge (.at .outside seq pos lvl) (.at .outside seq (pos + 1) lvl) i .stop .na]
        (by simp [outsideEdges, inRegionValue])
      refine ⟨fun ds => ?_, fun ds => ?_⟩
      · rw [ho .outside (by simp), G_rend]
        simp [plainEdge, decisionEdge, exitEdge, pre, ih1, ih2, inValue, hfin]
      · rw [ho .temporary (by simp), GTemp_rend]
        simp [plainEdge, decisionEdge, exitEdge, pre, ih1, ih2, hfin]
    | exit =>
      simp only [nodeSize] at ih1 ih2
      have ho := fun c hc => hout c hc [exitEdge (.at .outside seq pos lvl) i,
        decisionEdge (.at .outside seq pos lvl) (.at .outside seq (pos + 1) lvl) i .exit .no,
        exitEdge (.at .temporary seq pos lvl) i,
        decisionEdge (.at .temporary seq pos lvl) (.at .temporary seq (pos + 1) lvl) i .exit .no]
        (by simp [outsideEdges, inRegionValue])
      refine ⟨fun ds => ?_, fun ds => ?_⟩
      · rw [ho .outside (by simp), G_exit]
        simp [plainEdge, decisionEdge, exitEdge, pre, ih1, ih2, inValue, hfin]
      · rw [ho .temporary (by simp), GTemp_exit]
        simp [plainEdge, decisionEdge, exitEdge, pre, ih1, ih2, hfin]

end RUSure.Lemmas
