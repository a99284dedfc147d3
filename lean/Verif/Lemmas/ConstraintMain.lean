import Verif.Lemmas.ConstraintTopo

/-!
# The constraint DAG as a whole
-/

namespace RUSure.Lemmas
open RUSure RUSure.Spec
variable {M : Type}

theorem constructConstraintDag_ok (proto : List (Node M)) :
    constructConstraintDag proto = .ok ⟨constraintInitial, constraintEdges proto, .final⟩ := by
  obtain ⟨d, h1, h2, h3⟩ := addAll_start (constraintEdges proto) constraintInitial
    (constraint_topo proto).1
  unfold constructConstraintDag
  rw [h1]
  simp only [PartialDag.finish, h2, h3]

theorem constraint_source_final (proto : List (Node M)) :
    ∀ e ∈ constraintEdges proto, e.source ≠ .final := by
  intro e he
  rcases List.mem_append.mp he with he | he
  · have := outside_source proto none 0 0 0 e he
    intro h
    rw [h] at this
    exact this
  · simp only [List.mem_singleton] at he
    subst he
    simp [plainEdge]

/-- The decisions read on complete paths are those of the grammar. -/
theorem constraint_language (proto : List (Node M)) (ds : List Decision) :
    CReads (constraintEdges proto) constraintInitial ds ↔ ∃ x, RegionSeq false x 0 proto ds := by
  have hfin := reads_final (dst := Edge.dest) (lab := fun e => e.req.toList)
    (constraint_source_final proto)
  have hlast : ∀ e ∈ constraintEdges proto, ∀ c, e.source = .at c none proto.length 0 →
      c = .outside ∧ e = plainEdge (.at .outside none proto.length 0) .final := by
    intro e he c h
    rcases List.mem_append.mp he with he | he
    · have := outside_source proto none 0 0 0 e he
      rw [h] at this
      cases c <;> simp [FootO, code] at this
    · simp only [List.mem_singleton] at he
      subst he
      simp only [plainEdge, ConstraintState.at.injEq, and_true] at h
      exact ⟨h.symm, rfl⟩
  have := (outside_reads proto none 0 0 0 (constraintEdges proto) (fun ds => ds = []) (by simp [code])
    hfin (fun e he => List.mem_append_left _ he)
    (by
      intro e he hf
      rcases List.mem_append.mp he with he | he
      · exact he
      · simp only [List.mem_singleton] at he
        subst he
        simp [plainEdge, FootO, code] at hf)
    (by
      intro e he h
      rw [Nat.zero_add] at h
      exact absurd (hlast e he _ h).1 (by simp))
    (by
      intro ds
      rw [Nat.zero_add, creads_out [plainEdge (.at .outside none proto.length 0) .final]]
      · simp only [plainEdge, List.mem_singleton, exists_eq_left, Option.toList_none,
          List.nil_append, exists_eq_left', hfin]
      · intro e
        constructor
        · rintro ⟨h1, h2⟩
          simp [(hlast e h1 _ h2).2]
        · intro h
          simp only [List.mem_singleton] at h
          subst h
          exact ⟨by simp [constraintEdges], rfl⟩)).1 ds
  unfold constraintInitial
  rw [this]
  constructor
  · rintro (⟨ds1, ds2, h1, rfl, rfl⟩ | h)
    · exact ⟨false, by simpa using h1⟩
    · exact ⟨true, h⟩
  · rintro ⟨x, h⟩
    cases x
    · exact .inl ⟨ds, [], h, rfl, by simp⟩
    · exact .inr h

theorem inside_cost : ∀ (ns : List (Node M)) (seq : Option Nat) (lvl pos i : Nat),
    ∀ e ∈ insideEdges seq lvl pos i ns, e.cost = 0
  | [], _, _, _, _ => by simp [insideEdges]
  | n :: ns, seq, lvl, pos, i => by
    intro e he
    have hr := inside_cost ns seq lvl (pos + 1) (i + nodeSize n) e
    cases n with
    | group cs mt =>
      have hc := inside_cost cs (some i) lvl 0 (i + 1) e
      simp only [insideEdges, List.mem_append, List.mem_cons, List.not_mem_nil, or_false] at he
      rcases he with ((rfl | h) | rfl) | h
      · rfl
      · exact hc h
      · rfl
      · exact hr h
    | _ =>
      simp only [insideEdges, List.mem_append, List.mem_cons, List.not_mem_nil, or_false] at he
      rcases he with h | h
      · first
          | (subst h; rfl)
          | (rcases h with h | h <;> subst h <;> rfl)
      · exact hr h

theorem outside_cost : ∀ (ns : List (Node M)) (seq : Option Nat) (lvl pos i : Nat),
    ∀ e ∈ outsideEdges seq lvl pos i ns, e.cost = 0
  | [], _, _, _, _ => by simp [outsideEdges]
  | n :: ns, seq, lvl, pos, i => by
    intro e he
    have hr := outside_cost ns seq lvl (pos + 1) (i + nodeSize n) e
    cases n with
    | group cs mt =>
      have hc := outside_cost cs (some i) (lvl + 1) 0 (i + 1) e
      have hi := inside_cost cs (some i) lvl 0 (i + 1) e
      simp only [outsideEdges, List.mem_append, List.mem_cons, List.not_mem_nil, or_false] at he
      rcases he with (((((rfl | h) | rfl) | rfl) | h) | rfl) | h
      · rfl
      · exact hc h
      · rfl
      · rfl
      · exact hi h
      · rfl
      · exact hr h
    | _ =>
      simp only [outsideEdges, List.mem_append, List.mem_cons, List.not_mem_nil, or_false] at he
      rcases he with h | h
      · first
          | (rcases h with h | h <;> subst h <;> rfl)
          | (rcases h with h | h | h <;> subst h <;> rfl)
          | (rcases h with h | h | h | h <;> subst h <;> rfl)
      · exact hr h

theorem constraintEdges_cost (proto : List (Node M)) : ∀ e ∈ constraintEdges proto, e.cost = 0 := by
  intro e he
  rcases List.mem_append.mp he with he | he
  · exact outside_cost _ _ _ _ _ e he
  · simp only [List.mem_singleton] at he
    subst he
    rfl

/-! ### Keys -/

theorem key_lt {a b : DecisionKey} : a < b ↔
    a.index < b.index ∨ (a.index = b.index ∧ a.cat.toNat < b.cat.toNat) := by
  change toLex (a.index, a.cat.toNat) < toLex (b.index, b.cat.toNat) ↔ _
  rw [Prod.Lex.lt_iff]
  rfl

theorem seqKeys_range : ∀ (ns : List (Node M)) (i : Nat), ∀ k ∈ seqKeys i ns,
    i ≤ k.index ∧ k.index < i + seqSize ns
  | [], i => by simp [seqKeys]
  | n :: ns, i => by
    intro k hk
    have hr := seqKeys_range ns (i + nodeSize n) k
    have hn := nodeSize_pos n
    rw [seqKeys, List.mem_append] at hk
    rcases hk with hk | hk
    · cases n with
      | group cs mt =>
        have hc := seqKeys_range cs (i + 1) k
        simp only [nodeKeys, List.mem_cons] at hk
        simp only [seqSize, nodeSize]
        rcases hk with rfl | hk
        · simp only; omega
        · have := hc hk; omega
      | deco => simp [nodeKeys] at hk
      | _ =>
        simp only [nodeKeys, List.mem_cons, List.not_mem_nil, or_false] at hk
        subst hk
        simp only [seqSize, nodeSize]
        omega
    · have := hr hk
      simp only [seqSize]
      omega

theorem seqKeys_sorted : ∀ (ns : List (Node M)) (i : Nat), (seqKeys i ns).Pairwise (· < ·)
  | [], i => by simp [seqKeys]
  | n :: ns, i => by
    have hr := seqKeys_sorted ns (i + nodeSize n)
    have hrr := seqKeys_range ns (i + nodeSize n)
    rw [seqKeys]
    refine List.pairwise_append.mpr ⟨?_, hr, ?_⟩
    · cases n with
      | group cs mt =>
        have hc := seqKeys_sorted cs (i + 1)
        have hcr := seqKeys_range cs (i + 1)
        rw [nodeKeys, List.pairwise_cons]
        refine ⟨fun k hk => ?_, hc⟩
        have := hcr k hk
        rw [key_lt]; left; simp only; omega
      | _ => simp [nodeKeys]
    · intro a ha b hb
      have h2 := hrr b hb
      have h1 : a.index < i + nodeSize n := by
        have := seqKeys_range [n] i a (by rw [seqKeys]; exact List.mem_append_left _ ha)
        simpa [seqSize] using this.2
      rw [key_lt]; left; omega

/-- The decisions are made in the order of the keys, and all are made unless there is an exit. -/
theorem regionSeq_keys {b x : Bool} {i : Nat} {ns : List (Node M)} {ds : List Decision}
    (h : RegionSeq b x i ns ds) :
    ds.map Prod.fst <+: seqKeys i ns ∧ (x = false → ds.map Prod.fst = seqKeys i ns) := by
  have app : ∀ (ms ns : List (Node M)) (i : Nat),
      seqKeys i (ms ++ ns) = seqKeys i ms ++ seqKeys (i + seqSize ms) ns := by
    intro ms
    induction ms with
    | nil => intro ns i; simp [seqKeys, seqSize]
    | cons m ms ih => intro ns i; simp [seqKeys, seqSize, ih, Nat.add_assoc]
  induction h with
  | nil => simp [seqKeys]
  | deco _ ih => simpa [seqKeys, nodeKeys, nodeSize] using ih
  | tok _ ih =>
    simp only [seqKeys, nodeKeys, nodeSize, List.map_cons, List.singleton_append]
    exact ⟨(List.prefix_cons_inj _).mpr ih.1, fun hx => by rw [ih.2 hx]⟩
  | skipStart _ ih =>
    simp only [seqKeys, nodeKeys, nodeSize, List.map_cons, List.singleton_append]
    exact ⟨(List.prefix_cons_inj _).mpr ih.1, fun hx => by rw [ih.2 hx]⟩
  | skipEnd _ ih =>
    simp only [seqKeys, nodeKeys, nodeSize, List.map_cons, List.singleton_append]
    exact ⟨(List.prefix_cons_inj _).mpr ih.1, fun hx => by rw [ih.2 hx]⟩
  | skipExit _ ih =>
    simp only [seqKeys, nodeKeys, nodeSize, List.map_cons, List.singleton_append]
    exact ⟨(List.prefix_cons_inj _).mpr ih.1, fun hx => by rw [ih.2 hx]⟩
  | @group b x i cs mt ns ds ds' _ _ ih1 ih2 =>
    have e : i + (1 + seqSize cs) = i + 1 + seqSize cs := by omega
    simp only [seqKeys, nodeKeys, nodeSize, List.map_cons, List.map_append, List.cons_append,
      ih1.2 rfl, e]
    exact ⟨(List.prefix_cons_inj _).mpr ((List.prefix_append_right_inj _).mpr ih2.1),
      fun hx => by rw [ih2.2 hx]⟩
  | @region x i mid ns ds ds' _ _ ih1 ih2 =>
    have e : i + 1 + seqSize mid + 1 = i + 1 + (seqSize mid + 1) := by omega
    simp only [List.cons_append, seqKeys, nodeKeys, nodeSize, app, List.map_cons, List.map_append,
      ih1.2 rfl]
    simp only [List.nil_append]
    exact ⟨(List.prefix_cons_inj _).mpr ((List.prefix_append_right_inj _).mpr
      ((List.prefix_cons_inj _).mpr ih2.1)), fun hx => by rw [ih2.2 hx]⟩
  | exit =>
    simp only [seqKeys, nodeKeys, List.map_cons, List.map_nil]
    exact ⟨List.prefix_append _ _, by simp⟩
  | exitGroup _ ih =>
    simp only [seqKeys, nodeKeys, List.map_cons, List.cons_append]
    exact ⟨(List.prefix_cons_inj _).mpr (ih.1.trans (List.prefix_append _ _)), by simp⟩
  | exitRegion _ ih =>
    simp only [seqKeys, nodeKeys, nodeSize, List.map_cons, List.singleton_append]
    exact ⟨(List.prefix_cons_inj _).mpr ih.1, by simp⟩

/-- The value a path assigns is found among the decisions read on it. -/
theorem valueOn_lookup {S I : Type} (p : List (Edge S DecisionKey DecisionValue I))
    (k : DecisionKey) : valueOn p k = (p.flatMap fun e => e.req.toList).lookup k := by
  induction p with
  | nil => rfl
  | cons e p ih =>
    unfold valueOn at ih ⊢
    rw [List.findSome?_cons, List.flatMap_cons]
    cases hr : e.req with
    | none => simpa [hr] using ih
    | some kv =>
      obtain ⟨k', v⟩ := kv
      by_cases h : k' = k
      · subst h; simp
      · have h' : (k == k') = false := by
          simpa using fun hc : k = k' => h hc.symm
        simp only [h, if_false, Option.toList_some, List.singleton_append, List.lookup_cons, h']
        exact ih

theorem assignedKeys_eq {S I : Type} (p : List (Edge S DecisionKey DecisionValue I)) :
    assignedKeys p = (p.flatMap fun e => e.req.toList).map Prod.fst := by
  induction p with
  | nil => rfl
  | cons e p ih =>
    unfold assignedKeys at ih ⊢
    rw [List.filterMap_cons, List.flatMap_cons]
    cases hr : e.req with
    | none => simpa [hr] using ih
    | some kv => simp [ih]

end RUSure.Lemmas
