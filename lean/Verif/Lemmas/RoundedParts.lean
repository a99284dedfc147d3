import Verif.Lemmas.RoundedGrowth
import Verif.Lemmas.EditScripts
import Verif.Lemmas.ConstraintMain
import Verif.Lemmas.SelectionDag
import Mathlib.Data.List.ProdSigma

/-! # Costs and numbers of states of the DAGs of a system -/

namespace RUSure.Lemmas.Rnd
open RUSure RUSure.Spec RUSure.Lemmas RUSure.Rounded

/-! ## Packing -/

section
variable {S K V I : Type} [DecidableEq S] [LinearOrder K] [LinearOrder V]
  {d : Dag S K V I} {missing : V} {ordering : Option (List V)} {c : Conversion S K V}

theorem convert_costs (ht : Topo Edge.source Edge.dest d.edges)
    (h : d.convert missing ordering = .ok c) :
    ∀ pe ∈ c.packed.edges, pe.cost = 0 ∨ ∃ e ∈ d.edges, pe.cost = e.cost := by
  obtain ⟨T, hT⟩ := convert_ok ht h
  intro pe hpe
  obtain ⟨k, hk⟩ := List.getElem?_of_mem hpe
  obtain ⟨e, he, hp⟩ := hT.asm.edge_at hk
  rw [(packEdge_some hp).2.2.1]
  rcases (hT.mem e).1 (List.mem_of_getElem? he) with ⟨s, -, τ, -, -, rfl⟩ | ⟨e0, i, h1, -, -, rfl⟩
  · exact .inl rfl
  · refine .inr ⟨e0, List.mem_of_getElem? h1, ?_⟩
    unfold copyOf
    split <;> rfl

theorem convert_states (ht : Topo Edge.source Edge.dest d.edges)
    (h : d.convert missing ordering = .ok c) :
    c.packed.numStates ≤ (d.edges.length + 1) * (c.keys.length + 1) := by
  obtain ⟨T, hT⟩ := convert_ok ht h
  rw [hT.asm.numStates, hT.asm.keys_eq]
  have hsub : c.taggedStates ⊆ (d.sourcesInOrder ++ [d.final]) ×ˢ List.range (d.orderedKeys.length + 1) := by
    intro x hx
    have hle := hT.asm.tag_le hT.emit hx
    refine List.mem_product.2 ⟨?_, List.mem_range.2 (by omega)⟩
    rw [hT.asm.states_eq, List.mem_append, mem_firstSeen] at hx
    rcases hx with ⟨e, he, rfl⟩ | hx
    · rw [← hT.asm.edges_eq] at he
      rcases (hT.mem e).1 he with ⟨s, hs, τ, -, -, rfl⟩ | ⟨e0, i, h1, -, -, rfl⟩
      · exact hs
      · have hm := source_mem (List.mem_of_getElem? h1)
        refine List.mem_append_left _ ?_
        unfold copyOf
        split <;> exact hm
    · rw [List.mem_singleton.1 hx]
      simp
  have hle := (List.subperm_of_subset hT.asm.nodup hsub).length_le
  refine hle.trans ?_
  rw [List.length_product, List.length_range]
  refine Nat.mul_le_mul_right _ ?_
  rw [List.length_append]
  have : d.sourcesInOrder.length ≤ d.edges.length := by
    rw [sources_eq]
    have := (List.subperm_of_subset (firstSeen_nodup Edge.source d.edges)
      (l₂ := d.edges.map Edge.source) (by
        intro s hs
        rw [mem_firstSeen] at hs
        obtain ⟨e, he, rfl⟩ := hs
        exact List.mem_map_of_mem he)).length_le
    simpa using this
  simp only [List.length_singleton]
  omega

end

/-! ## Costs of edits -/

section
variable {M : Type}

theorem table_occurs : ∀ (ns : List (Node M)) (seq : Option Nat) (pos i : Nat) (q : Option Nat)
    (p : Nat) (x : Nat × Node M), Lemmas.nodeAt seq pos i ns q p = some x → Occurs ns x.2
  | [], _, _, _, _, _, _ => by simp [nodeAt_nil]
  | n :: ns, seq, pos, i, q, p, x => by
    intro h
    rw [nodeAt_cons] at h
    rw [occurs_cons]
    split at h
    · cases h; exact .inl rfl
    · rw [Option.or_eq_some_iff] at h
      rcases h with h | ⟨-, h⟩
      · cases n with
        | group cs mt =>
          exact .inr (.inl ⟨cs, mt, rfl, table_occurs cs (some i) 0 (i + 1) q p x h⟩)
        | _ => simp [nodeBelow] at h
      · exact .inr (.inr (table_occurs ns seq (pos + 1) _ q p x h))

/-- A finite cost with a property. -/
def CostIn (P : ℚ → Prop) (x : Cost) : Prop := ∃ q : ℚ, x = q ∧ P q

variable {P : ℚ → Prop} {prm : Params} {proto target : List (Node M)}

theorem advanceOut_cost (h : StepCosts P prm proto target) {al allow c q p t u}
    {x : Option (Nat × Node M)} (hx : ∀ y, x = some y → Occurs proto y.2) {e}
    (he : e ∈ advanceOut prm al allow c q p t u x) : CostIn P e.cost := by
  have h0 : CostIn P 0 := ⟨0, rfl, h.zero⟩
  match x, c, he with
  | some (i, .deco _), _, he => simp [advanceOut] at he; rw [he]; exact h0
  | some (i, .tok txt mt), c, he =>
    have := h.delete txt mt (hx _ rfl)
    cases allow <;> simp [advanceOut] at he
    rw [he]
    cases c
    · exact ⟨_, rfl, this.1⟩
    · exact ⟨_, rfl, this.2⟩
  | some (i, .group _ _), _, he =>
    cases allow <;> simp [advanceOut] at he
    rw [he]; exact h0
  | some (i, .rstart), .high, he =>
    simp [advanceOut] at he
    rcases he with rfl | rfl
    · exact h0
    · exact ⟨_, rfl, h.region⟩
  | some (i, .rstart), .low, he => simp [advanceOut] at he; rw [he]; exact h0
  | some (i, .rend), .low, he => simp [advanceOut] at he; rcases he with rfl | rfl <;> exact h0
  | some (i, .rend), .high, he => simp [advanceOut] at he; rw [he]; exact h0
  | some (i, .exit), _, he => simp [advanceOut] at he; rcases he with rfl | rfl <;> exact h0

theorem insertOut_cost (h : StepCosts P prm proto target) {al allow c q p t u}
    {x : Option (Nat × Node M)} (hx : ∀ y, x = some y → Occurs target y.2) {e}
    (he : e ∈ insertOut prm al allow c q p t u x) : CostIn P e.cost := by
  have h0 : CostIn P 0 := ⟨0, rfl, h.zero⟩
  match x, he with
  | some (i, .deco _), he => simp [insertOut] at he; rw [he]; exact h0
  | some (i, .tok txt mt), he =>
    have := h.insert txt mt (hx _ rfl)
    cases allow <;> simp [insertOut] at he
    rw [he]
    exact ⟨_, rfl, this⟩
  | some (i, .group _ _), he =>
    cases allow <;> simp [insertOut] at he
    rw [he]; exact h0

variable [DecidableEq M]

theorem matchOut_cost (h : StepCosts P prm proto target) {c q p t u} {x y : Option (Nat × Node M)}
    (hx : ∀ z, x = some z → Occurs proto z.2) {e} (he : e ∈ matchOut prm c q p t u x y) :
    CostIn P e.cost := by
  have h0 : CostIn P 0 := ⟨0, rfl, h.zero⟩
  unfold matchOut at he
  split at he
  · rename_i i txt mt j txt' mt'
    have := h.keep txt mt (hx _ rfl)
    split at he
    · rw [List.mem_singleton] at he
      rw [he]
      cases c
      · exact ⟨_, rfl, this.1⟩
      · exact ⟨_, rfl, this.2⟩
    · simp at he
  · split at he
    · rw [List.mem_singleton] at he
      rw [he]; exact h0
    · simp at he
  · simp at he

theorem editEdges_cost (h : StepCosts P prm proto target) :
    ∀ e ∈ editEdges prm proto target, CostIn P e.cost := by
  have h0 : CostIn P 0 := ⟨0, rfl, h.zero⟩
  have hA : ∀ q p z, (treeTable proto).node q p = some z → Occurs proto z.2 :=
    fun q p z hz => table_occurs proto none 0 0 q p z hz
  have hB : ∀ q p z, (treeTable target).node q p = some z → Occurs target z.2 :=
    fun q p z hz => table_occurs target none 0 0 q p z hz
  intro e he
  have he := editEdges_local prm proto target e he
  cases hs : e.source with
  | final => rw [hs] at he; simp [editOut] at he
  | «at» al c q p t u =>
    rw [hs] at he
    cases al with
    | process =>
      simp only [editOut, List.mem_append, List.mem_cons, List.not_mem_nil, or_false] at he
      rcases he with he | rfl | rfl
      · exact advanceOut_cost h (hA q p) he
      · cases c
        · exact ⟨_, rfl, h.highStart⟩
        · exact ⟨_, rfl, h.lowStart⟩
      · exact h0
    | mayDelete =>
      simp only [editOut, List.mem_append, List.mem_cons, List.not_mem_nil, or_false] at he
      rcases he with he | rfl
      · exact advanceOut_cost h (hA q p) he
      · exact h0
    | mayInsert =>
      simp only [editOut, List.mem_append, List.mem_cons, List.not_mem_nil, or_false] at he
      rcases he with he | rfl
      · exact insertOut_cost h (hB t u) he
      · exact h0
    | matching =>
      simp only [editOut, List.mem_append] at he
      rcases he with (he | he) | he
      · exact insertOut_cost h (hB t u) he
      · exact matchOut_cost h (hA q p) he
      · split at he
        · unfold endOut at he
          split at he
          · rw [List.mem_singleton] at he
            rw [he]; exact h0
          · split at he
            · rw [List.mem_singleton] at he
              rw [he]; exact h0
            · simp at he
          · simp at he
        · simp at he
    | recDelete =>
      simp only [editOut] at he
      split at he
      · rename_i x hx
        exact advanceOut_cost h (fun y hy => hA q p y (hx.trans hy)) he
      · split at he
        · rw [List.mem_singleton] at he
          rw [he]; exact h0
        · simp at he
    | recInsert =>
      simp only [editOut] at he
      split at he
      · rename_i x hx
        exact insertOut_cost h (fun y hy => hB t u y (hx.trans hy)) he
      · split at he
        · rw [List.mem_singleton] at he
          rw [he]; exact h0
        · simp at he

end

/-! ## Numbers of edges -/

section
variable {M : Type}

theorem bothConf_length (f : Conf → List EditEdge) : (bothConf f).length = (f .high).length + (f .low).length := by
  simp [bothConf]

theorem nodeSize_pos (n : Node M) : 1 ≤ nodeSize n := by cases n <;> simp [nodeSize]

mutual
theorem insertNode_length (prm : Params) (al : EditAlign) (allow : Bool) (q : Option Nat) (p : Nat)
    (t : Option Nat) (u j : Nat) : ∀ m : Node M,
    (insertNode prm al allow q p t u j m).length ≤ 4 * nodeSize m
  | .deco _ => by simp [insertNode, bothConf_length, nodeSize]
  | .tok _ _ => by cases allow <;> simp [insertNode, bothConf_length, nodeSize]
  | .group cs _ => by
    have := insertSeq_length prm q p (some j) 0 (j + 1) cs
    cases allow <;> simp [insertNode, bothConf_length, nodeSize]
    omega
  | .rstart => by simp [insertNode]
  | .rend => by simp [insertNode]
  | .exit => by simp [insertNode]
theorem insertSeq_length (prm : Params) (q : Option Nat) (p : Nat) (t : Option Nat) (u j : Nat) :
    ∀ ms : List (Node M), (insertSeq prm q p t u j ms).length ≤ 4 * seqSize ms
  | [] => by simp [insertSeq]
  | m :: ms => by
    have h1 := insertNode_length prm .recInsert true q p t u j m
    have h2 := insertSeq_length prm q p t (u + 1) (j + nodeSize m) ms
    simp only [insertSeq, List.length_append, seqSize]
    omega
end

mutual
theorem deleteNode_length (prm : Params) (al : EditAlign) (allow : Bool) (q : Option Nat) (p i : Nat)
    (t : Option Nat) (u : Nat) : ∀ n : Node M,
    (deleteNode prm al allow q p i t u n).length ≤ 4 * nodeSize n
  | .deco _ => by simp [deleteNode, bothConf_length, nodeSize]
  | .tok _ _ => by cases allow <;> simp [deleteNode, bothConf_length, nodeSize]
  | .group cs _ => by
    have := deleteSeq_length prm (some i) 0 (i + 1) t u cs
    cases allow <;> simp [deleteNode, bothConf_length, nodeSize]
    omega
  | .rstart => by simp [deleteNode, nodeSize]
  | .rend => by simp [deleteNode, nodeSize]
  | .exit => by simp [deleteNode, bothConf_length, nodeSize]
theorem deleteSeq_length (prm : Params) (q : Option Nat) (p i : Nat) (t : Option Nat) (u : Nat) :
    ∀ ns : List (Node M), (deleteSeq prm q p i t u ns).length ≤ 4 * seqSize ns
  | [] => by simp [deleteSeq]
  | n :: ns => by
    have h1 := deleteNode_length prm .recDelete true q p i t u n
    have h2 := deleteSeq_length prm q (p + 1) (i + nodeSize n) t u ns
    simp only [deleteSeq, List.length_append, seqSize]
    omega
end

/-- The size of a node, none of which has size zero. -/
def optSize : Option (Node M) → Nat
  | none => 0
  | some n => nodeSize n

/-- The edges of the inner subproblem count for two groups only. -/
def innerCount (k : Nat) : Option (Node M) → Option (Node M) → Nat
  | some (.group _ _), some (.group _ _) => k
  | _, _ => 0

variable [DecidableEq M]

theorem groupEdges_length (q : Option Nat) (p i : Nat) (t : Option Nat) (u j : Nat)
    (n m : Option (Node M)) (inner : List EditEdge) :
    (matchGroupEdges q p i t u j inner n m).length ≤ 4 + innerCount inner.length n m := by
  unfold matchGroupEdges
  split
  · split
    · simp only [List.length_append, bothConf_length, List.length_singleton, innerCount]
      omega
    · simp
  · simp

theorem keepEdges_length (prm : Params) (q : Option Nat) (p i : Nat) (t : Option Nat) (u j : Nat)
    (n m : Option (Node M)) : (keepTokenEdges prm q p i t u j n m).length ≤ 2 := by
  unfold keepTokenEdges
  split
  · split <;> simp [bothConf_length]
  · simp

theorem cellEdges_length (prm : Params) (q : Option Nat) (p i : Nat) (t : Option Nat) (u j : Nat)
    (n m : Option (Node M)) (inner : List EditEdge) :
    (cellEdges prm q p i t u j n m inner).length
      ≤ 8 * optSize n + 8 * optSize m + 14 + innerCount inner.length n m := by
  have d : ∀ al allow, (deleteNode? prm al allow q p i t u n).length ≤ 4 * optSize n := by
    intro al allow
    cases n with
    | none => simp [deleteNode?]
    | some n => exact deleteNode_length prm al allow q p i t u n
  have ii : ∀ al allow, (insertNode? prm al allow q p t u j m).length ≤ 4 * optSize m := by
    intro al allow
    cases m with
    | none => simp [insertNode?]
    | some m => exact insertNode_length prm al allow q p t u j m
  have h1 := d .process false
  have h2 := d .mayDelete true
  have h3 := ii .mayInsert true
  have h4 := ii .matching false
  have h5 := keepEdges_length prm q p i t u j n m
  have h6 := groupEdges_length q p i t u j n m inner
  simp only [cellEdges, List.length_append, bothConf_length, List.length_cons, List.length_nil]
  omega

omit [DecidableEq M] in
theorem overTarget_length (body : Nat → Nat → Option (Node M) → List EditEdge) (w : Nat)
    (h0 : ∀ u j, (body u j none).length ≤ 22 * w)
    (h1 : ∀ u j m, (body u j (some m)).length ≤ 22 * (w * (2 * nodeSize m))) :
    ∀ (ms : List (Node M)) (u j : Nat),
      (overTarget body u j ms).length ≤ 22 * (w * (2 * seqSize ms + 1))
  | [], u, j => by
    have := h0 u j
    simpa [overTarget, seqSize] using this
  | m :: ms, u, j => by
    have a := h1 u j m
    have b := overTarget_length body w h0 h1 ms (u + 1) (j + nodeSize m)
    simp only [overTarget, List.length_append, seqSize]
    refine (Nat.add_le_add a b).trans (le_of_eq ?_)
    ring

/-- The weight of a node or of the end of a sequence. -/
def optWeight : Option (Node M) → Nat
  | none => 1
  | some n => 2 * nodeSize n

omit [DecidableEq M] in
theorem cell_weight (n m : Option (Node M)) (k : Nat)
    (hk : ∀ cs mt cs' mt', n = some (.group cs mt) → m = some (.group cs' mt') →
      k ≤ 22 * ((2 * seqSize cs + 1) * (2 * seqSize cs' + 1))) :
    8 * optSize n + 8 * optSize m + 14 + innerCount k n m ≤ 22 * (optWeight n * optWeight m) := by
  have plain : ∀ n m : Option (Node M), 8 * optSize n + 8 * optSize m + 14
      ≤ 22 * (optWeight n * optWeight m) := by
    intro n m
    cases n with
    | none =>
      cases m with
      | none => simp [optSize, optWeight]
      | some m =>
        have := nodeSize_pos m
        simp only [optSize, optWeight]
        omega
    | some n =>
      have := nodeSize_pos n
      cases m with
      | none =>
        simp only [optSize, optWeight]
        omega
      | some m =>
        have := nodeSize_pos m
        simp only [optSize, optWeight]
        nlinarith
  by_cases hg : ∃ cs mt cs' mt', n = some (.group cs mt) ∧ m = some (.group cs' mt')
  · obtain ⟨cs, mt, cs', mt', rfl, rfl⟩ := hg
    have := hk cs mt cs' mt' rfl rfl
    simp only [optSize, optWeight, innerCount, nodeSize]
    nlinarith
  · have : innerCount k n m = 0 := by
      unfold innerCount
      split
      · exact absurd ⟨_, _, _, _, rfl, rfl⟩ hg
      · rfl
    rw [this]
    exact plain n m

theorem matchEdges_length (prm : Params) : ∀ (ns : List (Node M)) (q : Option Nat) (p i : Nat)
    (t : Option Nat) (j : Nat) (target : List (Node M)),
    (matchEdges prm q p i t j target ns).length ≤ 22 * ((2 * seqSize ns + 1) * (2 * seqSize target + 1))
  | [], q, p, i, t, j, target => by
    rw [matchEdges]
    have cell := fun (u j' : Nat) (m : Option (Node M)) =>
      (cellEdges_length prm q p i t u j' none m []).trans
        (cell_weight none m 0 (by intro _ _ _ _ h; cases h))
    refine (overTarget_length _ 1 (fun u j' => by simpa [optWeight] using cell u j' none)
      (fun u j' m => by simpa [optWeight] using cell u j' (some m)) target 0 j).trans (le_of_eq ?_)
    simp [seqSize]
  | n :: ns, q, p, i, t, j, target => by
    have hr := matchEdges_length prm ns q (p + 1) (i + nodeSize n) t j target
    rw [matchEdges, List.length_append]
    have cell := fun (u j' : Nat) (m : Option (Node M)) (inner : List EditEdge)
        (hk : ∀ cs mt cs' mt', some n = some (.group cs mt) → m = some (.group cs' mt') →
          inner.length ≤ 22 * ((2 * seqSize cs + 1) * (2 * seqSize cs' + 1))) =>
      (cellEdges_length prm q p i t u j' (some n) m inner).trans
        (cell_weight (some n) m inner.length hk)
    have hc : ∀ cs mt, n = .group cs mt → ∀ (j' : Nat) (cs' : List (Node M)),
        (matchEdges prm (some i) 0 (i + 1) (some j') (j' + 1) cs' cs).length
          ≤ 22 * ((2 * seqSize cs + 1) * (2 * seqSize cs' + 1)) := by
      rintro cs mt rfl j' cs'
      exact matchEdges_length prm cs (some i) 0 (i + 1) (some j') (j' + 1) cs'
    refine (Nat.add_le_add (overTarget_length _ (2 * nodeSize n) ?_ ?_ target 0 j) hr).trans
      (le_of_eq (by simp only [seqSize]; ring))
    · intro u j'
      refine (cell u j' none _ (by intro _ _ _ _ _ h; cases h)).trans (le_of_eq ?_)
      simp [optWeight]
    · intro u j' m
      refine (cell u j' (some m) _ ?_).trans (le_of_eq (by simp [optWeight]))
      intro cs mt cs' mt' h1 h2
      cases h1; cases h2
      exact hc cs mt rfl j' cs'

theorem editEdges_length (prm : Params) (proto target : List (Node M)) :
    (editEdges prm proto target).length
      ≤ 22 * ((2 * seqSize proto + 1) * (2 * seqSize target + 1)) + 1 := by
  have := matchEdges_length prm proto none 0 0 none 0 target
  simp only [editEdges, List.length_append, List.length_singleton]
  omega

omit [DecidableEq M] in
theorem inside_length : ∀ (ns : List (Node M)) (seq : Option Nat) (lvl pos i : Nat),
    (insideEdges seq lvl pos i ns).length ≤ 2 * seqSize ns
  | [], _, _, _, _ => by simp [insideEdges]
  | n :: ns, seq, lvl, pos, i => by
    have hr := inside_length ns seq lvl (pos + 1) (i + nodeSize n)
    cases n with
    | group cs mt =>
      have hc := inside_length cs (some i) lvl 0 (i + 1)
      simp only [insideEdges, List.length_append, List.length_cons, List.length_nil, seqSize, nodeSize]
        at hr ⊢
      omega
    | _ =>
      simp only [insideEdges, List.length_append, List.length_cons, List.length_nil, seqSize, nodeSize]
        at hr ⊢
      omega

omit [DecidableEq M] in
theorem outside_length : ∀ (ns : List (Node M)) (seq : Option Nat) (lvl pos i : Nat),
    (outsideEdges seq lvl pos i ns).length ≤ 4 * seqSize ns ^ 2
  | [], _, _, _, _ => by simp [outsideEdges]
  | n :: ns, seq, lvl, pos, i => by
    have hr := outside_length ns seq lvl (pos + 1) (i + nodeSize n)
    cases n with
    | group cs mt =>
      have hc := outside_length cs (some i) (lvl + 1) 0 (i + 1)
      have hi := inside_length cs (some i) lvl 0 (i + 1)
      simp only [outsideEdges, List.length_append, List.length_cons, List.length_nil, seqSize, nodeSize]
        at hr ⊢
      rw [show 4 * (1 + seqSize cs + seqSize ns) ^ 2 = 4 + 4 * seqSize cs ^ 2 + 4 * seqSize ns ^ 2
        + 8 * seqSize cs + 8 * seqSize ns + 8 * (seqSize cs * seqSize ns) by ring]
      have := Nat.zero_le (seqSize cs * seqSize ns)
      omega
    | _ =>
      simp only [outsideEdges, List.length_append, List.length_cons, List.length_nil, seqSize, nodeSize]
        at hr ⊢
      rw [show 4 * (1 + seqSize ns) ^ 2 = 4 + 4 * seqSize ns ^ 2 + 8 * seqSize ns by ring]
      omega

omit [DecidableEq M] in
theorem constraintEdges_length (proto : List (Node M)) :
    (constraintEdges proto).length ≤ 4 * seqSize proto ^ 2 + 1 := by
  have := outside_length proto none 0 0 0
  simp only [constraintEdges, List.length_append, List.length_singleton]
  omega

end

/-! ## Costs of selections -/

section
variable {M : Type}

theorem items_tok : ∀ (ns : List (Node M)) (i j : Nat) (t : Text) (mt : M),
    SelItem.tok j t mt ∈ items i ns → Occurs ns (.tok t mt)
  | [], _, _, _, _, h => by simp [items] at h
  | .tok t' mt' :: ns, i, j, t, mt, h => by
    rw [items] at h
    rw [occurs_cons]
    rcases List.mem_cons.1 h with h | h
    · simp only [SelItem.tok.injEq] at h
      exact .inl (by rw [h.2.1, h.2.2])
    · exact .inr (.inr (items_tok ns _ _ _ _ h))
  | .group cs mt' :: ns, i, j, t, mt, h => by
    rw [items] at h
    rw [occurs_cons]
    rcases List.mem_cons.1 h with h | h
    · cases h
    · rcases List.mem_append.1 h with h | h
      · exact .inr (.inl ⟨cs, mt', rfl, items_tok cs _ _ _ _ h⟩)
      · rcases List.mem_cons.1 h with h | h
        · cases h
        · exact .inr (.inr (items_tok ns _ _ _ _ h))
  | .rstart :: ns, i, j, t, mt, h => by
    rw [items] at h
    rw [occurs_cons]
    rcases List.mem_cons.1 h with h | h
    · cases h
    · exact .inr (.inr (items_tok ns _ _ _ _ h))
  | .rend :: ns, i, j, t, mt, h => by
    rw [items] at h
    rw [occurs_cons]
    rcases List.mem_cons.1 h with h | h
    · cases h
    · exact .inr (.inr (items_tok ns _ _ _ _ h))
  | .exit :: ns, i, j, t, mt, h => by
    rw [items] at h
    rw [occurs_cons]
    rcases List.mem_cons.1 h with h | h
    · cases h
    · exact .inr (.inr (items_tok ns _ _ _ _ h))
  | .deco _ :: ns, i, j, t, mt, h => by
    rw [items] at h
    rw [occurs_cons]
    exact .inr (.inr (items_tok ns _ _ _ _ h))

theorem items_length : ∀ (ns : List (Node M)) (i : Nat), (items i ns).length ≤ 2 * seqSize ns
  | [], _ => by simp [items]
  | .tok _ _ :: ns, i => by
    have := items_length ns (i + 1)
    simp only [items, seqSize, nodeSize, List.length_cons]; omega
  | .group cs mt :: ns, i => by
    have := items_length ns (i + 1 + seqSize cs)
    have := items_length cs (i + 1)
    simp only [items, seqSize, nodeSize, List.length_cons, List.length_append]; omega
  | .rstart :: ns, i => by
    have := items_length ns (i + 1)
    simp only [items, seqSize, nodeSize, List.length_cons]; omega
  | .rend :: ns, i => by
    have := items_length ns (i + 1)
    simp only [items, seqSize, nodeSize, List.length_cons]; omega
  | .exit :: ns, i => by
    have := items_length ns (i + 1)
    simp only [items, seqSize, nodeSize, List.length_cons]; omega
  | .deco _ :: ns, i => by
    have := items_length ns (i + 1)
    simp only [items, seqSize, nodeSize]; omega

variable [DecidableEq M] {P : ℚ → Prop} {f : SelUtility M} {proto : List (Node M)}

theorem selCell_cost (h : LookupCosts P f proto) {p u : Nat} {x : SelItem M}
    (hx : ∀ i t mt, x = .tok i t mt → Occurs proto (.tok t mt)) {y : Option (SelItem M)} {b : Bool}
    {e : SelEdge} (he : e ∈ selCell f p u x y b) : CostIn P e.cost := by
  have h0 : CostIn P 0 := ⟨0, rfl, h.zero⟩
  unfold selCell at he
  simp only [List.mem_append] at he
  rcases he with (((((he | he) | he) | he) | he) | he) | he
  · cases x <;> simp [selSkip] at he <;> rw [he] <;> exact h0
  · cases x <;> simp [selStart] at he
    rcases he with rfl | rfl <;> exact h0
  · unfold selTarget at he
    split at he
    · simp only [List.mem_cons, List.not_mem_nil, or_false] at he
      rcases he with rfl | rfl <;> exact h0
    · cases he
  · unfold selMatch at he
    split at he
    · split at he
      · rw [List.mem_singleton.1 he]
        exact ⟨_, rfl, h.found _ _ (hx _ _ _ rfl)⟩
      · cases he
    · split at he
      · rw [List.mem_singleton.1 he]; exact h0
      · cases he
    · split at he
      · rw [List.mem_singleton.1 he]; exact h0
      · cases he
    · rw [List.mem_singleton.1 he]; exact h0
    · cases he
  · cases x <;> simp [selEndMatch] at he
    rcases he with rfl | rfl <;> exact h0
  · split at he
    · rw [List.mem_singleton.1 he]
      cases x with
      | tok i t mt => exact ⟨_, rfl, h.missed t mt (hx _ _ _ rfl)⟩
      | _ => exact h0
    · cases he
  · cases x <;> simp [selEndPass] at he
    rw [he]; exact h0

theorem selCell_length (p u : Nat) (x : SelItem M) (y : Option (SelItem M)) (b : Bool) :
    (selCell f p u x y b).length ≤ 10 := by
  have h1 : (selSkip p u x).length ≤ 1 := by cases x <;> simp [selSkip]
  have h2 : (selStart p u x).length ≤ 2 := by cases x <;> simp [selStart]
  have h3 : (selTarget p u y).length ≤ 2 := by unfold selTarget; split <;> simp
  have h4 : (selMatch f p u x y).length ≤ 1 := by
    unfold selMatch
    split <;> try split
    all_goals simp
  have h5 : (selEndMatch p u x).length ≤ 2 := by cases x <;> simp [selEndMatch]
  have h6 : (if b then [selPass f p u x] else []).length ≤ 1 := by split <;> simp
  have h7 : (selEndPass p u x).length ≤ 1 := by cases x <;> simp [selEndPass]
  unfold selCell
  simp only [List.length_append]
  omega

theorem rowEdges_cost (h : LookupCosts P f proto) {p : Nat} {x : SelItem M}
    (hx : ∀ i t mt, x = .tok i t mt → Occurs proto (.tok t mt)) {b : Bool} {e : SelEdge} :
    ∀ (ys : List (Option (SelItem M))) (u : Nat), e ∈ rowEdges f p x b u ys → CostIn P e.cost
  | [], _, he => by simp [rowEdges] at he
  | y :: ys, u, he => by
    rw [rowEdges] at he
    rcases List.mem_append.1 he with he | he
    · exact selCell_cost h hx he
    · exact rowEdges_cost h hx ys _ he

theorem rowEdges_length (p : Nat) (x : SelItem M) (b : Bool) :
    ∀ (ys : List (Option (SelItem M))) (u : Nat), (rowEdges f p x b u ys).length ≤ 10 * ys.length
  | [], _ => by simp [rowEdges]
  | y :: ys, u => by
    have h1 := rowEdges_length p x b ys (u + 1)
    have h2 := selCell_length (f := f) p u x y b
    simp only [rowEdges, List.length_append, List.length_cons]
    omega

theorem rowsEdges_cost (h : LookupCosts P f proto) {ys : List (Option (SelItem M))} {e : SelEdge} :
    ∀ (xs : List (SelItem M)) (p : Nat) (flag : Option Bool),
    (∀ i t mt, .tok i t mt ∈ xs → Occurs proto (.tok t mt)) → e ∈ rowsEdges f ys p xs flag →
    CostIn P e.cost
  | [], _, _, _, he => by simp [rowsEdges] at he
  | x :: xs, p, flag, hx, he => by
    rw [rowsEdges] at he
    rcases List.mem_append.1 he with he | he
    · exact rowEdges_cost h (fun i t mt hxt => hx i t mt (by rw [hxt]; simp)) _ _ he
    · exact rowsEdges_cost h xs _ _ (fun i t mt hm => hx i t mt (List.mem_cons_of_mem _ hm)) he

theorem rowsEdges_length (ys : List (Option (SelItem M))) :
    ∀ (xs : List (SelItem M)) (p : Nat) (flag : Option Bool),
    (rowsEdges f ys p xs flag).length ≤ xs.length * (10 * ys.length)
  | [], _, _ => by simp [rowsEdges]
  | x :: xs, p, flag => by
    have h1 := rowsEdges_length ys xs (p + 1) (advanceFlag flag x)
    have h2 := rowEdges_length (f := f) p x ((advanceFlag flag x).getD false) ys 0
    simp only [rowsEdges, List.length_append, List.length_cons]
    rw [Nat.add_mul, one_mul]
    omega

/-- The costs of selection DAGs. -/
theorem goodEdges_cost (h : LookupCosts P f proto) (target : List (Node M)) :
    ∀ e ∈ goodEdges f (items 0 proto) (items 0 target), CostIn P e.cost := by
  intro e he
  rcases List.mem_append.1 he with he | he
  · exact rowsEdges_cost h _ _ _ (fun i t mt hm => items_tok proto 0 i t mt hm) he
  · obtain ⟨u, -, rfl⟩ := List.mem_map.1 he
    exact ⟨0, rfl, h.zero⟩

/-- The number of edges of selection DAGs. -/
theorem goodEdges_length (proto target : List (Node M)) :
    (goodEdges f (items 0 proto) (items 0 target)).length
      ≤ (20 * seqSize proto + 1) * (2 * seqSize target + 1) := by
  have h1 := rowsEdges_length (f := f) ((items 0 target).map some ++ [none]) (items 0 proto) 0 none
  have h2 := items_length proto 0
  have h3 := items_length target 0
  unfold goodEdges selFinals
  simp only [List.length_append, List.length_map, List.length_singleton, List.length_range] at h1 ⊢
  have h4 : (items 0 proto).length * (10 * ((items 0 target).length + 1))
      ≤ (2 * seqSize proto) * (10 * (2 * seqSize target + 1)) :=
    Nat.mul_le_mul h2 (by omega)
  have h5 : (20 * seqSize proto + 1) * (2 * seqSize target + 1)
      = (2 * seqSize proto) * (10 * (2 * seqSize target + 1)) + (2 * seqSize target + 1) := by ring
  omega

end

end RUSure.Lemmas.Rnd
