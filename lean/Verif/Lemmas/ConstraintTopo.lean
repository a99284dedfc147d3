import Verif.Lemmas.ConstraintReads

/-!
# The edges of the constraint DAG are in topological order
-/

set_option linter.unusedSimpArgs false

namespace RUSure.Lemmas
open RUSure RUSure.Spec
variable {M : Type}

theorem topo_append {σ ε : Type} {src dst : ε → σ} {a b : List ε} (ha : TopoWeak src dst a)
    (hb : TopoWeak src dst b) (hab : ∀ x ∈ a, ∀ y ∈ b, dst y ≠ src x) :
    TopoWeak src dst (a ++ b) :=
  List.pairwise_append.mpr ⟨ha, hb, hab⟩

theorem topo_singleton {σ ε : Type} {src dst : ε → σ} (e : ε) : TopoWeak src dst [e] :=
  List.pairwise_singleton _ _

/-- The states a call of the builder for sequences within a region adds edges to. -/
def DestI (q lvl pos n i size : Nat) : ConstraintState → Prop
  | .at .forced q' p l =>
    l = lvl ∧ ((code q' = q ∧ pos < p ∧ p ≤ pos + n) ∨ (i < code q' ∧ code q' ≤ i + size))
  | .final => True
  | _ => False

/-- The states a call of the builder for sequences outside of regions adds edges to. -/
def DestO (q lvl pos n i size : Nat) : ConstraintState → Prop
  | .at .forced q' _ l => i < code q' ∧ code q' ≤ i + size ∧ lvl ≤ l
  | .at _ q' p l =>
    (code q' = q ∧ l = lvl ∧ pos < p ∧ p ≤ pos + n)
    ∨ (i < code q' ∧ code q' ≤ i + size ∧ lvl < l)
  | .final => True

theorem inside_dest : ∀ (ns : List (Node M)) (seq : Option Nat) (lvl pos i : Nat),
    ∀ e ∈ insideEdges seq lvl pos i ns,
      DestI (code seq) lvl pos ns.length i (seqSize ns) e.dest
  | [], _, _, _, _ => by simp [insideEdges]
  | n :: ns, seq, lvl, pos, i => by
    intro e he
    have hr : e ∈ insideEdges seq lvl (pos + 1) (i + nodeSize n) ns →
        DestI (code seq) lvl pos (n :: ns).length i (seqSize (n :: ns)) e.dest := by
      intro h
      have := inside_dest ns seq lvl (pos + 1) (i + nodeSize n) e h
      generalize e.dest = s at this
      match s, this with
      | .final, _ => trivial
      | .at .forced q p l, h =>
        simp only [DestI, seqSize, List.length_cons] at h ⊢
        omega
    cases n with
    | group cs mt =>
      simp only [insideEdges, List.mem_append, List.mem_cons, List.not_mem_nil, or_false] at he
      rcases he with ((rfl | h) | rfl) | h
      · refine ⟨rfl, .inr ?_⟩
        simp only [seqSize, nodeSize, code_some]; omega
      · have := inside_dest cs (some i) lvl 0 (i + 1) e h
        generalize e.dest = s at this
        match s, this with
        | .final, _ => trivial
        | .at .forced q p l, h =>
          simp only [DestI, seqSize, List.length_cons, nodeSize, code_some] at h ⊢
          omega
      · simp [DestI, plainEdge]
      · exact hr h
    | deco t =>
      simp only [insideEdges, List.mem_append, List.mem_cons, List.not_mem_nil, or_false] at he
      rcases he with rfl | h
      · simp [DestI, plainEdge]
      · exact hr h
    | tok t mt =>
      simp only [insideEdges, List.mem_append, List.mem_cons, List.not_mem_nil, or_false] at he
      rcases he with rfl | h
      · simp [DestI, decisionEdge]
      · exact hr h
    | rstart =>
      simp only [insideEdges, List.mem_append, List.mem_cons, List.not_mem_nil, or_false] at he
      rcases he with rfl | h
      · simp [DestI, decisionEdge]
      · exact hr h
    | rend =>
      simp only [insideEdges, List.mem_append, List.mem_cons, List.not_mem_nil, or_false] at he
      rcases he with rfl | h
      · simp [DestI, decisionEdge]
      · exact hr h
    | exit =>
      simp only [insideEdges, List.mem_append, List.mem_cons, List.not_mem_nil, or_false] at he
      rcases he with (rfl | rfl) | h
      · simp [DestI, exitEdge]
      · simp [DestI, decisionEdge]
      · exact hr h

theorem outside_dest : ∀ (ns : List (Node M)) (seq : Option Nat) (lvl pos i : Nat),
    ∀ e ∈ outsideEdges seq lvl pos i ns,
      DestO (code seq) lvl pos ns.length i (seqSize ns) e.dest
  | [], _, _, _, _ => by simp [outsideEdges]
  | n :: ns, seq, lvl, pos, i => by
    intro e he
    have hr : e ∈ outsideEdges seq lvl (pos + 1) (i + nodeSize n) ns →
        DestO (code seq) lvl pos (n :: ns).length i (seqSize (n :: ns)) e.dest := by
      intro h
      have := outside_dest ns seq lvl (pos + 1) (i + nodeSize n) e h
      generalize e.dest = s at this
      match s, this with
      | .final, _ => trivial
      | .at .forced q p l, h | .at .outside q p l, h | .at .temporary q p l, h =>
        simp only [DestO, seqSize, List.length_cons] at h ⊢
        omega
    cases n with
    | group cs mt =>
      simp only [outsideEdges, List.mem_append, List.mem_cons, List.not_mem_nil, or_false] at he
      rcases he with (((((rfl | h) | rfl) | rfl) | h) | rfl) | h
      · refine .inr ?_
        simp only [seqSize, nodeSize, code_some]; omega
      · have := outside_dest cs (some i) (lvl + 1) 0 (i + 1) e h
        generalize e.dest = s at this
        match s, this with
        | .final, _ => trivial
        | .at .forced q p l, h | .at .outside q p l, h | .at .temporary q p l, h =>
          simp only [DestO, seqSize, List.length_cons, nodeSize, code_some] at h ⊢
          omega
      · simp [DestO, plainEdge]
      · simp only [DestO, decisionEdge, seqSize, nodeSize, code_some]; omega
      · have := inside_dest cs (some i) lvl 0 (i + 1) e h
        generalize e.dest = s at this
        match s, this with
        | .final, _ => trivial
        | .at .forced q p l, h =>
          simp only [DestI, DestO, seqSize, nodeSize, code_some] at h ⊢
          omega
      · simp [DestO, plainEdge]
      · exact hr h
    | deco t =>
      simp only [outsideEdges, List.mem_append, List.mem_cons, List.not_mem_nil, or_false] at he
      rcases he with (rfl | rfl) | h
      · simp [DestO, plainEdge]
      · simp [DestO, plainEdge]
      · exact hr h
    | tok t mt =>
      simp only [outsideEdges, List.mem_append, List.mem_cons, List.not_mem_nil, or_false] at he
      rcases he with (rfl | rfl) | h
      · simp [DestO, decisionEdge]
      · simp [DestO, decisionEdge]
      · exact hr h
    | rstart =>
      simp only [outsideEdges, List.mem_append, List.mem_cons, List.not_mem_nil, or_false] at he
      rcases he with (rfl | rfl | rfl) | h
      · simp [DestO, decisionEdge]
      · simp [DestO, decisionEdge]
      · simp [DestO, decisionEdge]
      · exact hr h
    | rend =>
      simp only [outsideEdges, List.mem_append, List.mem_cons, List.not_mem_nil, or_false] at he
      rcases he with (rfl | rfl | rfl) | h
      · simp [DestO, decisionEdge]
      · simp [DestO, decisionEdge]
      · simp [DestO, decisionEdge]
      · exact hr h
    | exit =>
      simp only [outsideEdges, List.mem_append, List.mem_cons, List.not_mem_nil, or_false] at he
      rcases he with (rfl | rfl | rfl | rfl) | h
      · simp [DestO, exitEdge]
      · simp [DestO, decisionEdge]
      · simp [DestO, exitEdge]
      · simp [DestO, decisionEdge]
      · exact hr h

theorem inside_no_loop : ∀ (ns : List (Node M)) (seq : Option Nat) (lvl pos i : Nat),
    code seq ≤ i → ∀ e ∈ insideEdges seq lvl pos i ns, e.dest ≠ e.source
  | [], _, _, _, _, _ => by simp [insideEdges]
  | n :: ns, seq, lvl, pos, i, hseq => by
    intro e he
    have hr : e ∈ insideEdges seq lvl (pos + 1) (i + nodeSize n) ns → e.dest ≠ e.source :=
      fun h => inside_no_loop ns seq lvl _ _ (by omega) e h
    have hne : seq ≠ some i := by rintro rfl; simp at hseq; omega
    cases n with
    | group cs mt =>
      simp only [insideEdges, List.mem_append, List.mem_cons, List.not_mem_nil, or_false] at he
      rcases he with ((rfl | h) | rfl) | h
      · simp [decisionEdge, hne.symm]
      · exact inside_no_loop cs _ _ _ _ (by simp) e h
      · simp [plainEdge, hne]
      · exact hr h
    | deco t =>
      simp only [insideEdges, List.mem_append, List.mem_cons, List.not_mem_nil, or_false] at he
      rcases he with rfl | h
      · simp [plainEdge]
      · exact hr h
    | tok t mt =>
      simp only [insideEdges, List.mem_append, List.mem_cons, List.not_mem_nil, or_false] at he
      rcases he with rfl | h
      · simp [decisionEdge]
      · exact hr h
    | rstart =>
      simp only [insideEdges, List.mem_append, List.mem_cons, List.not_mem_nil, or_false] at he
      rcases he with rfl | h
      · simp [decisionEdge]
      · exact hr h
    | rend =>
      simp only [insideEdges, List.mem_append, List.mem_cons, List.not_mem_nil, or_false] at he
      rcases he with rfl | h
      · simp [decisionEdge]
      · exact hr h
    | exit =>
      simp only [insideEdges, List.mem_append, List.mem_cons, List.not_mem_nil, or_false] at he
      rcases he with (rfl | rfl) | h
      · simp [exitEdge]
      · simp [decisionEdge]
      · exact hr h

theorem outside_no_loop : ∀ (ns : List (Node M)) (seq : Option Nat) (lvl pos i : Nat),
    code seq ≤ i → ∀ e ∈ outsideEdges seq lvl pos i ns, e.dest ≠ e.source
  | [], _, _, _, _, _ => by simp [outsideEdges]
  | n :: ns, seq, lvl, pos, i, hseq => by
    intro e he
    have hr : e ∈ outsideEdges seq lvl (pos + 1) (i + nodeSize n) ns → e.dest ≠ e.source :=
      fun h => outside_no_loop ns seq lvl _ _ (by omega) e h
    cases n with
    | group cs mt =>
      simp only [outsideEdges, List.mem_append, List.mem_cons, List.not_mem_nil, or_false] at he
      rcases he with (((((rfl | h) | rfl) | rfl) | h) | rfl) | h
      · simp [decisionEdge]
      · exact outside_no_loop cs _ _ _ _ (by simp) e h
      · simp [plainEdge]
      · simp [decisionEdge]
      · exact inside_no_loop cs _ _ _ _ (by simp) e h
      · simp [plainEdge]
      · exact hr h
    | deco t =>
      simp only [outsideEdges, List.mem_append, List.mem_cons, List.not_mem_nil, or_false] at he
      rcases he with (rfl | rfl) | h
      · simp [plainEdge]
      · simp [plainEdge]
      · exact hr h
    | tok t mt =>
      simp only [outsideEdges, List.mem_append, List.mem_cons, List.not_mem_nil, or_false] at he
      rcases he with (rfl | rfl) | h
      · simp [decisionEdge]
      · simp [decisionEdge]
      · exact hr h
    | rstart =>
      simp only [outsideEdges, List.mem_append, List.mem_cons, List.not_mem_nil, or_false] at he
      rcases he with (rfl | rfl | rfl) | h
      · simp [decisionEdge]
      · simp [decisionEdge]
      · simp [decisionEdge]
      · exact hr h
    | rend =>
      simp only [outsideEdges, List.mem_append, List.mem_cons, List.not_mem_nil, or_false] at he
      rcases he with (rfl | rfl | rfl) | h
      · simp [decisionEdge]
      · simp [decisionEdge]
      · simp [decisionEdge]
      · exact hr h
    | exit =>
      simp only [outsideEdges, List.mem_append, List.mem_cons, List.not_mem_nil, or_false] at he
      rcases he with (rfl | rfl | rfl | rfl) | h
      · simp [exitEdge]
      · simp [decisionEdge]
      · simp [exitEdge]
      · simp [decisionEdge]
      · exact hr h

theorem inside_topo : ∀ (ns : List (Node M)) (seq : Option Nat) (lvl pos i : Nat),
    code seq ≤ i → TopoWeak Edge.source Edge.dest (insideEdges seq lvl pos i ns)
  | [], _, _, _, _, _ => by simp [insideEdges, TopoWeak]
  | n :: ns, seq, lvl, pos, i, hseq => by
    have ih := inside_topo ns seq lvl (pos + 1) (i + nodeSize n) (by omega)
    have hdest := inside_dest ns seq lvl (pos + 1) (i + nodeSize n)
    cases n with
    | group cs mt =>
      have ihc := inside_topo cs (some i) lvl 0 (i + 1) (by simp)
      have hds := inside_dest cs (some i) lvl 0 (i + 1)
      have hsr := inside_source cs (some i) lvl 0 (i + 1)
      rw [insideEdges]
      refine topo_append (topo_append (topo_append (topo_singleton _) ihc ?_) (topo_singleton _) ?_)
        ih ?_
      · intro a ha b hb h
        simp only [List.mem_singleton] at ha
        subst ha
        have hd := hds b hb
        rw [h] at hd
        simp only [decisionEdge, DestI, code_some] at hd
        omega
      · intro a ha b hb h
        simp only [List.mem_singleton] at hb
        subst hb
        rcases List.mem_append.mp ha with ha | ha
        · simp only [List.mem_singleton] at ha
          subst ha
          simp [plainEdge, decisionEdge] at h
        · have hd := hsr a ha
          rw [← h] at hd
          simp only [plainEdge, FootI, code_some] at hd
          omega
      · intro a ha b hb h
        have hd := hdest b hb
        rw [h] at hd
        simp only [List.mem_append, List.mem_cons, List.not_mem_nil, or_false] at ha
        rcases ha with (rfl | ha) | rfl
        · simp only [decisionEdge, DestI] at hd; omega
        · have hs := hsr a ha
          generalize a.source = s at hs hd
          match s, hs, hd with
          | .at .forced q p l, hs, hd =>
            simp only [FootI, DestI, nodeSize, code_some] at hs hd
            omega
        · simp only [plainEdge, DestI, nodeSize, code_some] at hd; omega
    | deco t =>
      rw [insideEdges]
      refine topo_append ?_ ih (fun a ha b hb => ?_)
      · simp [TopoWeak, plainEdge, decisionEdge, exitEdge]
      · simp only [List.mem_cons, List.not_mem_nil, or_false] at ha
        have hd := hdest b hb
        intro h
        rw [h] at hd
        rcases ha with rfl
        simp only [plainEdge, decisionEdge, exitEdge, DestI, DestO, nodeSize] at hd; omega
    | tok t mt =>
      rw [insideEdges]
      refine topo_append ?_ ih (fun a ha b hb => ?_)
      · simp [TopoWeak, plainEdge, decisionEdge, exitEdge]
      · simp only [List.mem_cons, List.not_mem_nil, or_false] at ha
        have hd := hdest b hb
        intro h
        rw [h] at hd
        rcases ha with rfl
        simp only [plainEdge, decisionEdge, exitEdge, DestI, DestO, nodeSize] at hd; omega
    | rstart =>
      rw [insideEdges]
      refine topo_append ?_ ih (fun a ha b hb => ?_)
      · simp [TopoWeak, plainEdge, decisionEdge, exitEdge]
      · simp only [List.mem_cons, List.not_mem_nil, or_false] at ha
        have hd := hdest b hb
        intro h
        rw [h] at hd
        rcases ha with rfl
        simp only [plainEdge, decisionEdge, exitEdge, DestI, DestO, nodeSize] at hd; omega
    | rend =>
      rw [insideEdges]
      refine topo_append ?_ ih (fun a ha b hb => ?_)
      · simp [TopoWeak, plainEdge, decisionEdge, exitEdge]
      · simp only [List.mem_cons, List.not_mem_nil, or_false] at ha
        have hd := hdest b hb
        intro h
        rw [h] at hd
        rcases ha with rfl
        simp only [plainEdge, decisionEdge, exitEdge, DestI, DestO, nodeSize] at hd; omega
    | exit =>
      rw [insideEdges]
      refine topo_append ?_ ih (fun a ha b hb => ?_)
      · simp [TopoWeak, plainEdge, decisionEdge, exitEdge]
      · simp only [List.mem_cons, List.not_mem_nil, or_false] at ha
        have hd := hdest b hb
        intro h
        rw [h] at hd
        rcases ha with rfl | rfl <;>
          (simp only [plainEdge, decisionEdge, exitEdge, DestI, DestO, nodeSize] at hd; omega)

theorem outside_topo : ∀ (ns : List (Node M)) (seq : Option Nat) (lvl pos i : Nat),
    code seq ≤ i → TopoWeak Edge.source Edge.dest (outsideEdges seq lvl pos i ns)
  | [], _, _, _, _, _ => by simp [outsideEdges, TopoWeak]
  | n :: ns, seq, lvl, pos, i, hseq => by
    have ih := outside_topo ns seq lvl (pos + 1) (i + nodeSize n) (by omega)
    have hdest := outside_dest ns seq lvl (pos + 1) (i + nodeSize n)
    cases n with
    | group cs mt =>
      have ihc := outside_topo cs (some i) (lvl + 1) 0 (i + 1) (by simp)
      have ihi := inside_topo cs (some i) lvl 0 (i + 1) (by simp)
      have hds := outside_dest cs (some i) (lvl + 1) 0 (i + 1)
      have hsr := outside_source cs (some i) (lvl + 1) 0 (i + 1)
      have hdi := inside_dest cs (some i) lvl 0 (i + 1)
      have hsi := inside_source cs (some i) lvl 0 (i + 1)
      rw [outsideEdges]
      refine topo_append (topo_append (topo_append (topo_append (topo_append (topo_append
        (topo_singleton _) ihc ?_) (topo_singleton _) ?_) (topo_singleton _) ?_) ihi ?_)
        (topo_singleton _) ?_) ih ?_
      · intro a ha b hb h
        simp only [List.mem_singleton] at ha
        subst ha
        have hd := hds b hb
        rw [h] at hd
        simp only [decisionEdge, DestO, code_some] at hd
        omega
      · intro a ha b hb h
        simp only [List.mem_singleton] at hb
        subst hb
        simp only [List.mem_append, List.mem_cons, List.not_mem_nil, or_false] at ha
        rcases ha with rfl | ha
        · simp [plainEdge, decisionEdge] at h
        · have hd := hsr a ha
          rw [← h] at hd
          simp only [plainEdge, FootO, code_some] at hd
          omega
      · intro a ha b hb h
        simp only [List.mem_singleton] at hb
        subst hb
        simp only [List.mem_append, List.mem_cons, List.not_mem_nil, or_false] at ha
        rcases ha with (rfl | ha) | rfl
        · simp [decisionEdge] at h
        · have hd := hsr a ha
          rw [← h] at hd
          simp only [decisionEdge, FootO, code_some] at hd
          omega
        · simp [plainEdge, decisionEdge] at h
      · intro a ha b hb h
        have hd := hdi b hb
        rw [h] at hd
        simp only [List.mem_append, List.mem_cons, List.not_mem_nil, or_false] at ha
        rcases ha with ((rfl | ha) | rfl) | rfl
        · simp [decisionEdge, DestI] at hd
        · have hs := hsr a ha
          generalize a.source = s at hs hd
          match s, hs, hd with
          | .at .forced q p l, hs, hd =>
            simp only [FootO, DestI, nodeSize, code_some] at hs hd
            omega
        · simp [plainEdge, DestI] at hd
        · simp [decisionEdge, DestI] at hd
      · intro a ha b hb h
        simp only [List.mem_singleton] at hb
        subst hb
        simp only [List.mem_append, List.mem_cons, List.not_mem_nil, or_false] at ha
        rcases ha with (((rfl | ha) | rfl) | rfl) | ha
        · simp [decisionEdge, plainEdge] at h
        · have hs := hsr a ha
          rw [← h] at hs
          simp only [plainEdge, FootO, code_some] at hs
          omega
        · simp [plainEdge] at h
        · simp [plainEdge, decisionEdge] at h
        · have hs := hsi a ha
          rw [← h] at hs
          simp [plainEdge, FootI, code_some] at hs
      · intro a ha b hb h
        have hd := hdest b hb
        rw [h] at hd
        simp only [List.mem_append, List.mem_cons, List.not_mem_nil, or_false] at ha
        rcases ha with ((((rfl | ha) | rfl) | rfl) | ha) | rfl
        · simp only [decisionEdge, DestO, nodeSize] at hd; omega
        · have hs := hsr a ha
          generalize a.source = s at hs hd
          match s, hs, hd with
          | .at .forced q p l, hs, hd | .at .outside q p l, hs, hd | .at .temporary q p l, hs, hd =>
            simp only [FootO, DestO, nodeSize, code_some] at hs hd
            omega
        · simp only [plainEdge, DestO, nodeSize, code_some] at hd; omega
        · simp only [decisionEdge, DestO, nodeSize] at hd; omega
        · have hs := hsi a ha
          generalize a.source = s at hs hd
          match s, hs, hd with
          | .at .forced q p l, hs, hd =>
            simp only [FootI, DestO, nodeSize, code_some] at hs hd
            omega
        · simp only [plainEdge, DestO, nodeSize, code_some] at hd; omega
    | deco t =>
      rw [outsideEdges]
      refine topo_append ?_ ih (fun a ha b hb => ?_)
      · simp [TopoWeak, plainEdge, decisionEdge, exitEdge]
      · simp only [List.mem_cons, List.not_mem_nil, or_false] at ha
        have hd := hdest b hb
        intro h
        rw [h] at hd
        rcases ha with rfl | rfl <;>
          (simp only [plainEdge, decisionEdge, exitEdge, DestI, DestO, nodeSize] at hd; omega)
    | tok t mt =>
      rw [outsideEdges]
      refine topo_append ?_ ih (fun a ha b hb => ?_)
      · simp [TopoWeak, plainEdge, decisionEdge, exitEdge]
      · simp only [List.mem_cons, List.not_mem_nil, or_false] at ha
        have hd := hdest b hb
        intro h
        rw [h] at hd
        rcases ha with rfl | rfl <;>
          (simp only [plainEdge, decisionEdge, exitEdge, DestI, DestO, nodeSize] at hd; omega)
    | rstart =>
      rw [outsideEdges]
      refine topo_append ?_ ih (fun a ha b hb => ?_)
      · simp [TopoWeak, plainEdge, decisionEdge, exitEdge]
      · simp only [List.mem_cons, List.not_mem_nil, or_false] at ha
        have hd := hdest b hb
        intro h
        rw [h] at hd
        rcases ha with rfl | rfl | rfl <;>
          (simp only [plainEdge, decisionEdge, exitEdge, DestI, DestO, nodeSize] at hd; omega)
    | rend =>
      rw [outsideEdges]
      refine topo_append ?_ ih (fun a ha b hb => ?_)
      · simp [TopoWeak, plainEdge, decisionEdge, exitEdge]
      · simp only [List.mem_cons, List.not_mem_nil, or_false] at ha
        have hd := hdest b hb
        intro h
        rw [h] at hd
        rcases ha with rfl | rfl | rfl <;>
          (simp only [plainEdge, decisionEdge, exitEdge, DestI, DestO, nodeSize] at hd; omega)
    | exit =>
      rw [outsideEdges]
      refine topo_append ?_ ih (fun a ha b hb => ?_)
      · simp [TopoWeak, plainEdge, decisionEdge, exitEdge]
      · simp only [List.mem_cons, List.not_mem_nil, or_false] at ha
        have hd := hdest b hb
        intro h
        rw [h] at hd
        rcases ha with rfl | rfl | rfl | rfl <;>
          (simp only [plainEdge, decisionEdge, exitEdge, DestI, DestO, nodeSize] at hd; omega)

/-- The edges of the constraint DAG are in topological order. -/
theorem constraint_topo (proto : List (Node M)) :
    Topo Edge.source Edge.dest (constraintEdges proto) := by
  constructor
  · refine topo_append (outside_topo proto none 0 0 0 (by simp [code])) (topo_singleton _) ?_
    intro a ha b hb h
    simp only [List.mem_singleton] at hb
    subst hb
    have := outside_source proto none 0 0 0 a ha
    rw [← h] at this
    simp [plainEdge, FootO] at this
  · intro e he
    rcases List.mem_append.mp he with he | he
    · exact outside_no_loop proto none 0 0 0 (by simp [code]) e he
    · simp only [List.mem_singleton] at he
      subst he
      simp [plainEdge]

end RUSure.Lemmas
