import Verif.Lemmas.ConvertAssemble

/-! # The conversion as a whole -/

set_option linter.unusedSectionVars false

namespace RUSure.Lemmas
open RUSure RUSure.Spec

section
variable {S K V I : Type} [DecidableEq S] [LinearOrder K] [LinearOrder V]
variable {d : Dag S K V I} {missing : V} {T : ConvertTables S}

/-- Everything emitted. -/
def emittedOf (d : Dag S K V I) (missing : V) (T : ConvertTables S) : List (Nat × TaggedEdge S V) :=
  (d.sourcesInOrder ++ [d.final]).flatMap
    (d.emitState d.orderedKeys missing T (fun s => decide (s ∈ d.sourcesInOrder ++ [d.final])))

theorem mem_emittedOf {x : Nat × TaggedEdge S V} : x ∈ emittedOf d missing T ↔
    ∃ s ∈ d.sourcesInOrder ++ [d.final], x ∈ d.emitState d.orderedKeys missing T
      (fun s => decide (s ∈ d.sourcesInOrder ++ [d.final])) s := by
  unfold emittedOf
  rw [List.mem_flatMap]

theorem source_mem {e : Edge S K V I} (he : e ∈ d.edges) : e.source ∈ d.sourcesInOrder := by
  rw [sources_eq, mem_firstSeen]; exact ⟨e, he, rfl⟩

theorem states_nodup (hf : d.final ∉ d.sourcesInOrder) : (d.sourcesInOrder ++ [d.final]).Nodup := by
  rw [List.nodup_append]
  refine ⟨firstSeen_nodup _ _, by simp, ?_⟩
  intro a ha b hb hab
  rw [List.mem_singleton] at hb
  rw [hab, hb] at ha
  exact hf ha

theorem emit_ok (ht : Topo Edge.source Edge.dest d.edges) (hf : d.final ∉ d.sourcesInOrder) :
    EmitOK d (emittedOf d missing T) := by
  refine ⟨?_, ?_, ?_⟩
  · intro x hx
    obtain ⟨s, -, hs⟩ := mem_emittedOf.1 hx
    exact ⟨s, emit_shape hs⟩
  · unfold emittedOf
    rw [List.pairwise_flatMap]
    constructor
    · intro s hs
      refine List.Pairwise.imp_of_mem (R := fun _ _ => True) ?_
        (List.pairwise_of_forall (fun _ _ => trivial))
      intro x y hx hy _ hxy h0 hc
      obtain ⟨-, e, he, h1, h2⟩ := (emit_shape hy).even (by omega)
      rw [hc, (emit_shape hx).src] at h2
      exact ht.2 e he (h2.trans h1.symm)
    · have hp : (d.sourcesInOrder ++ [d.final]).Pairwise
          (fun x y => ∀ e ∈ d.edges, e.source = y → e.dest ≠ x) := by
        rw [List.pairwise_append]
        refine ⟨firstSeen_topo ht.1, by simp, ?_⟩
        intro a _ b hb e he hs
        rw [List.mem_singleton] at hb
        exfalso
        apply hf
        rw [← hb, ← hs]
        exact source_mem he
      refine hp.imp ?_
      intro s s' hss x hx y hy hxy h0 hc
      obtain ⟨-, e, he, h1, h2⟩ := (emit_shape hy).even (by omega)
      rw [hc, (emit_shape hx).src] at h2
      exact hss e he h1 h2
  · intro x hx hc
    obtain ⟨s, -, hs⟩ := mem_emittedOf.1 hx
    have sh := emit_shape hs
    rcases Nat.mod_two_eq_zero_or_one x.1 with h0 | h0
    · obtain ⟨-, e, he, h1, h2⟩ := sh.even h0
      rw [hc, sh.src] at h2
      exact ht.2 e he (h2.trans h1.symm)
    · have := sh.dst
      rw [hc, sh.src] at this
      simp only at this
      omega

theorem largest_le (hT : TablesOK d d.orderedKeys T) (s : S) :
    T.largest s ≤ d.orderedKeys.length := by
  rcases hT.largest_case s with ⟨e, -, -, hk⟩ | ⟨h, -⟩
  · obtain ⟨_, _, _, _, h⟩ := keyIndex_some hk
    omega
  · rw [h]; exact hT.lp_le s

theorem tagged_mem (hT : TablesOK d d.orderedKeys T) :
    TaggedMem d d.orderedKeys missing T (d.sourcesInOrder ++ [d.final])
      (flatEdges d.orderedKeys.length (emittedOf d missing T)) := by
  intro e
  rw [mem_flatEdges]
  constructor
  · rintro ⟨g, -, hg⟩
    obtain ⟨s, hs, hm⟩ := mem_emittedOf.1 hg
    rcases mem_emitState.1 hm with ⟨τ, h1, h2, h3⟩ | ⟨e0, i, h1, h2, h3, h4, h5⟩
    · exact .inl ⟨s, hs, τ, h1, h2, by rw [← h3]⟩
    · exact .inr ⟨e0, i, h1, of_decide_eq_true h3, h4, by rw [← h5]⟩
  · rintro (⟨s, hs, τ, h1, h2, rfl⟩ | ⟨e0, i, h1, h2, h3, rfl⟩)
    · refine ⟨2 * τ + 1, ?_, mem_emittedOf.2 ⟨s, hs, mem_emitState.2 (.inl ⟨τ, h1, h2, rfl⟩)⟩⟩
      have := largest_le hT s
      omega
    · have he0 := List.mem_of_getElem? h1
      refine ⟨(copyOf d.orderedKeys T e0 i).1, ?_, mem_emittedOf.2 ⟨e0.source,
        List.mem_append_left _ (source_mem he0), mem_emitState.2 (.inr ⟨e0, i, h1, rfl,
          decide_eq_true h2, h3, rfl⟩)⟩⟩
      cases hk : e0.keyIndex d.orderedKeys with
      | none =>
        rw [copyOf_none hk]
        have := hT.lp_le e0.source
        simp only
        omega
      | some v =>
        obtain ⟨k, x, hr, -, hlt⟩ := keyIndex_some hk
        rw [copyOf_some hk hr]
        simp only
        omega

/-- What a successful conversion means. -/
structure Converted (d : Dag S K V I) (missing : V) (ordering : Option (List V))
    (c : Conversion S K V) (T : ConvertTables S) : Prop where
  tables : TablesOK d d.orderedKeys T
  emit : EmitOK d (emittedOf d missing T)
  asm : Assembled d.initial d.final d.orderedKeys (d.orderedValues missing ordering)
    (emittedOf d missing T) c
  final_new : d.final ∉ d.sourcesInOrder
  init_mem : d.initial ∈ d.sourcesInOrder

theorem no_edge_to_initial (ht : Topo Edge.source Edge.dest d.edges) {s : S} {r : List S}
    (hs : d.sourcesInOrder = s :: r) : ∀ e ∈ d.edges, e.dest ≠ s := by
  rw [sources_eq] at hs
  cases hE : d.edges with
  | nil => simp
  | cons e0 es =>
    rw [hE] at hs ht
    obtain ⟨r', hr⟩ := firstSeen_head Edge.source e0 es
    rw [hr] at hs
    simp only [List.cons.injEq] at hs
    rw [← hs.1]
    intro e he
    rcases List.mem_cons.1 he with rfl | he
    · exact ht.2 e (by simp)
    · exact (List.pairwise_cons.1 ht.1).1 e he

theorem convert_ok (ht : Topo Edge.source Edge.dest d.edges) {ordering : Option (List V)}
    {c : Conversion S K V} (h : d.convert missing ordering = .ok c) :
    ∃ T, Converted d missing ordering c T := by
  unfold Dag.convert at h
  dsimp only at h
  cases hs : d.sourcesInOrder with
  | nil => rw [hs] at h; simp at h
  | cons s r =>
    rw [hs] at h
    dsimp only at h
    split at h
    · simp at h
    rename_i h1
    split at h
    · simp at h
    rename_i h2
    split at h
    · simp at h
    rename_i lpb hlpb
    split at h
    · simp at h
    rename_i after hafter
    split at h
    · simp at h
    rw [← hs] at h h2
    have hinit : s = d.initial := by simpa using h1
    refine ⟨_, tables_ok ht ?_ hlpb hafter, emit_ok ht h2, assemble_ok h, h2, ?_⟩
    · rw [← hinit]; exact no_edge_to_initial ht hs
    · rw [hs, hinit]; simp

variable {ordering : Option (List V)} {c : Conversion S K V}

theorem Converted.mem (h : Converted d missing ordering c T) :
    TaggedMem d d.orderedKeys missing T (d.sourcesInOrder ++ [d.final]) c.taggedEdges := by
  rw [h.asm.edges_eq]; exact tagged_mem h.tables

theorem Converted.final_sink (h : Converted d missing ordering c T) :
    ∀ e ∈ c.taggedEdges, ∀ t, lp T d.final ≤ t → e.source ≠ (d.final, t) := by
  intro e he t ht hc
  rcases (h.mem e).1 he with ⟨s, hs, τ, h1, h2, rfl⟩ | ⟨e0, i, h1, h2, h3, rfl⟩
  · simp only [missingEdge, Prod.mk.injEq] at hc
    obtain ⟨rfl, rfl⟩ := hc
    rcases h.tables.largest_case d.final with ⟨e, he, hse, -⟩ | ⟨h4, -⟩
    · apply h.final_new
      rw [← hse]
      exact source_mem he
    · omega
  · have : e0.source = d.final := by
      cases hk : e0.keyIndex d.orderedKeys with
      | none => rw [copyOf_none hk] at hc; simp only [Prod.mk.injEq] at hc; exact hc.1
      | some v =>
        obtain ⟨k, x, hr, -, -⟩ := keyIndex_some hk
        rw [copyOf_some hk hr] at hc; simp only [Prod.mk.injEq] at hc; exact hc.1
    apply h.final_new
    rw [← this]
    exact source_mem (List.mem_of_getElem? h1)

theorem Converted.index_initial (h : Converted d missing ordering c T) :
    dictIndex c.taggedStates (d.initial, 0) = some 0 := by
  obtain ⟨r, hr⟩ := h.asm.first
  apply dictIndex_of_get h.asm.nodup
  rw [h.asm.states_eq, hr]; simp

theorem Converted.index_final (h : Converted d missing ordering c T) :
    dictIndex c.taggedStates (d.final, d.orderedKeys.length) = some (c.packed.numStates - 1) := by
  rw [h.asm.numStates]
  apply dictIndex_of_get h.asm.nodup
  rw [h.asm.states_eq]; simp

/-- Every original solution has a packed counterpart. -/
theorem Converted.forward (h : Converted d missing ordering c T) {p : List (Edge S K V I)}
    (hp : DagSolution d p) :
    ∃ q, IndexedPath c.packed q ∧ Complete c.packed (q.map Prod.snd) ∧ c.originalPath d q = p := by
  obtain ⟨q, hq, ho⟩ := forward_walk h.tables h.mem
    (fun e he => List.mem_append_left _ (source_mem he)) hp.1 (by simp) hp.2 0
    (by rw [h.tables.gu_init]) (by omega)
  obtain ⟨q', ib, h1, h2, h3, h4⟩ := h.asm.pack_walk hq h.index_initial
  have hmem := dictIndex_mem h3
  have hlp : (d.final, lp T d.final) = (d.final, d.orderedKeys.length) := by
    rw [h.asm.states_eq, List.mem_append, List.mem_singleton, mem_firstSeen] at hmem
    rcases hmem with ⟨e, he, hs⟩ | hmem
    · rw [← h.asm.edges_eq] at he
      exact absurd hs (h.final_sink e he _ (le_refl _))
    · exact hmem
  rw [hlp, h.index_final] at h3
  simp only [Option.some.injEq] at h3
  refine ⟨q', h2, ?_, ?_⟩
  · unfold Complete
    rw [h3]; exact h4
  · rw [← ho]; exact h1.original

/-- Every packed path comes from an original solution. -/
theorem Converted.backward (h : Converted d missing ordering c T) {q : List (Nat × PackedEdge)}
    (hi : IndexedPath c.packed q) (hq : Complete c.packed (q.map Prod.snd)) :
    ∃ t, Corr c (d.orderedValues missing ordering) q t
      ∧ TWalk c.taggedEdges (d.initial, 0) (d.final, d.orderedKeys.length) t := by
  obtain ⟨t, b, h1, h2, h3⟩ := h.asm.unpack_walk hq hi h.index_initial
  have := dictIndex_inj h2 h.index_final
  rw [this] at h3
  exact ⟨t, h1, h3⟩

/-! ## Uniqueness -/

theorem copyOf_info {keys : List K} {e : Edge S K V I} {i : Nat} :
    (copyOf keys T e i).2.info = some i := by
  unfold copyOf
  split <;> rfl

theorem emitState_pairwise {keys : List K} {kept : S → Bool} (s : S) :
    (d.emitState keys missing T kept s).Pairwise (fun x y => x.2 ≠ y.2) := by
  unfold Dag.emitState
  dsimp only
  rw [List.pairwise_append]
  refine ⟨?_, ?_, ?_⟩
  · rw [List.pairwise_map]
    refine List.Pairwise.imp ?_ (List.nodup_range' (n := T.largest s - (T.guaranteed s).getD 0)
      (s := (T.guaranteed s).getD 0))
    intro a b hab hc
    apply hab
    simp only [missingEdge, TaggedEdge.mk.injEq, Prod.mk.injEq, true_and] at hc
    exact hc.1
  · rw [List.pairwise_filterMap]
    have h0 : (d.edgesBySource s).Pairwise (fun x y => x.2 ≠ y.2) := by
      unfold Dag.edgesBySource
      refine List.Pairwise.sublist List.filter_sublist ?_
      rw [List.pairwise_iff_getElem]
      intro i j hi hj hij
      rw [List.getElem_zipIdx, List.getElem_zipIdx]
      simp only
      omega
    refine h0.imp ?_
    intro x y hxy a ha b hb hab
    rw [copyEdge_eq] at ha hb
    split at ha
    · split at hb
      · simp only [Option.some.injEq] at ha hb
        rw [← ha, ← hb] at hab
        have := congrArg TaggedEdge.info hab
        rw [copyOf_info, copyOf_info] at this
        exact hxy (by simpa using this)
      · simp at hb
    · simp at ha
  · intro x hx y hy hxy
    obtain ⟨τ, -, rfl⟩ := List.mem_map.1 hx
    obtain ⟨z, -, hz⟩ := List.mem_filterMap.1 hy
    rw [copyEdge_eq] at hz
    split at hz
    · simp only [Option.some.injEq] at hz
      have := congrArg TaggedEdge.info hxy
      rw [← hz, copyOf_info] at this
      simp [missingEdge] at this
    · simp at hz

theorem Converted.edges_nodup (h : Converted d missing ordering c T) : c.taggedEdges.Nodup := by
  rw [h.asm.edges_eq]
  apply flat_pairwise
  · have : (emittedOf d missing T).Pairwise (fun x y => x.2 ≠ y.2) := by
      unfold emittedOf
      rw [List.pairwise_flatMap]
      refine ⟨fun s _ => emitState_pairwise s, ?_⟩
      refine List.Pairwise.imp ?_ (states_nodup h.final_new)
      intro s s' hss x hx y hy hxy
      have h1 := (emit_shape hx).src
      have h2 := (emit_shape hy).src
      rw [hxy, h2] at h1
      simp only [Prod.mk.injEq] at h1
      exact hss h1.1.symm
    refine this.imp ?_
    intro _ _ h _
    exact h
  · intro x hx y hy hxy hc
    obtain ⟨s, hs⟩ := h.emit.shape x hx
    obtain ⟨s', hs'⟩ := h.emit.shape y hy
    have h1 := hs.src
    have h2 := hs.dst
    rw [hc, hs'.src] at h1
    rw [hc, hs'.dst] at h2
    simp only [Prod.mk.injEq] at h1
    omega

theorem first_copy (h : Converted d missing ordering c T) {a b : S × Nat}
    {q : List (TaggedEdge S V)} (hw : TWalk c.taggedEdges a b q) {i : Nat} {r : List Nat}
    (hr : q.filterMap TaggedEdge.info = i :: r) :
    ∃ e ∈ c.taggedEdges, e.info = some i ∧ a.2 ≤ e.source.2 := by
  induction hw with
  | nil a => simp at hr
  | @cons e b q he hw ih =>
    cases hinfo : e.info with
    | some j =>
      rw [List.filterMap_cons, hinfo] at hr
      simp only [List.cons.injEq] at hr
      exact ⟨e, he, by rw [hinfo, hr.1], le_refl _⟩
    | none =>
      rw [List.filterMap_cons, hinfo] at hr
      obtain ⟨e', h1, h2, h3⟩ := ih hr
      refine ⟨e', h1, h2, le_trans ?_ h3⟩
      exact (backward_walk (orderedKeys_nodup d) h.tables h.mem (Walk.single he)).2.2.2.1

theorem Converted.copy_unique (h : Converted d missing ordering c T) {e e' : TaggedEdge S V}
    (he : e ∈ c.taggedEdges) (he' : e' ∈ c.taggedEdges) {i : Nat} (hi : e.info = some i)
    (hi' : e'.info = some i) : e = e' := by
  have key : ∀ {e}, e ∈ c.taggedEdges → e.info = some i →
      ∃ e0, d.edges[i]? = some e0 ∧ e = (copyOf d.orderedKeys T e0 i).2 := by
    intro e he hi
    rcases (h.mem e).1 he with ⟨s, hs, τ, h1, h2, rfl⟩ | ⟨e0, j, h1, h2, h3, rfl⟩
    · simp [missingEdge] at hi
    · rw [copyOf_info] at hi
      simp only [Option.some.injEq] at hi
      subst hi
      exact ⟨e0, h1, rfl⟩
  obtain ⟨e0, h1, rfl⟩ := key he hi
  obtain ⟨e1, h2, rfl⟩ := key he' hi'
  rw [h1] at h2
  simp only [Option.some.injEq] at h2
  rw [h2]

theorem Converted.missing_unique (h : Converted d missing ordering c T) {e e' : TaggedEdge S V}
    (he : e ∈ c.taggedEdges) (he' : e' ∈ c.taggedEdges) (hi : e.info = none)
    (hi' : e'.info = none) (hs : e.source = e'.source) : e = e' := by
  have key : ∀ {e}, e ∈ c.taggedEdges → e.info = none →
      e = (missingEdge missing e.source.1 e.source.2).2 := by
    intro e he hi
    rcases (h.mem e).1 he with ⟨s, hs, τ, h1, h2, rfl⟩ | ⟨e0, j, h1, h2, h3, rfl⟩
    · rfl
    · rw [copyOf_info] at hi
      simp at hi
  rw [key he hi, key he' hi', hs]

theorem Converted.missing_dest (h : Converted d missing ordering c T) {e : TaggedEdge S V}
    (he : e ∈ c.taggedEdges) (hi : e.info = none) : e.dest.2 = e.source.2 + 1 := by
  rcases (h.mem e).1 he with ⟨s, hs, τ, h1, h2, rfl⟩ | ⟨e0, j, h1, h2, h3, rfl⟩
  · rfl
  · rw [copyOf_info] at hi
    simp at hi

theorem Converted.unique_walk (h : Converted d missing ordering c T) {a b : S × Nat}
    {q q' : List (TaggedEdge S V)} (hb : ∀ e ∈ c.taggedEdges, e.source ≠ b)
    (hw : TWalk c.taggedEdges a b q) (hw' : TWalk c.taggedEdges a b q')
    (hi : q.filterMap TaggedEdge.info = q'.filterMap TaggedEdge.info) : q = q' := by
  induction q generalizing a q' with
  | nil =>
    rw [TWalk, Walk.nil_iff] at hw
    subst hw
    rcases q' with _ | ⟨e, q'⟩
    · rfl
    · obtain ⟨h1, h2, -⟩ := Walk.cons_iff.1 hw'
      exact absurd h2.symm (hb e h1)
  | cons e q ih =>
    obtain ⟨h1, h2, h3⟩ := Walk.cons_iff.1 hw
    rcases q' with _ | ⟨e', q'⟩
    · rw [TWalk, Walk.nil_iff] at hw'
      subst hw'
      exact absurd h2.symm (hb e h1)
    · obtain ⟨g1, g2, g3⟩ := Walk.cons_iff.1 hw'
      have hsrc : e.source = e'.source := by rw [← h2, ← g2]
      have mixed : ∀ {e e' : TaggedEdge S V} {q q' : List (TaggedEdge S V)}, e ∈ c.taggedEdges →
          e' ∈ c.taggedEdges → e.source = e'.source → e.info = none → ∀ j, e'.info = some j →
          TWalk c.taggedEdges e.dest b q →
          (e :: q).filterMap TaggedEdge.info = (e' :: q').filterMap TaggedEdge.info → False := by
        intro e e' q q' h1 g1 hsrc hi1 j hj h3 hi
        rw [List.filterMap_cons, List.filterMap_cons, hi1, hj] at hi
        obtain ⟨e2, k1, k2, k3⟩ := first_copy h h3 hi
        have := h.copy_unique k1 g1 k2 hj
        rw [this, h.missing_dest h1 hi1, hsrc] at k3
        omega
      have heq : e = e' := by
        cases hi1 : e.info with
        | none =>
          cases hj : e'.info with
          | none => exact h.missing_unique h1 g1 hi1 hj hsrc
          | some j => exact absurd (mixed h1 g1 hsrc hi1 j hj h3 hi) id
        | some i =>
          cases hj : e'.info with
          | none => exact absurd (mixed g1 h1 hsrc.symm hj i hi1 g3 hi.symm) id
          | some j =>
            rw [List.filterMap_cons, List.filterMap_cons, hi1, hj] at hi
            simp only [List.cons.injEq] at hi
            exact h.copy_unique h1 g1 hi1 (by rw [hj, hi.1])
      subst heq
      congr 1
      refine ih h3 g3 ?_
      rw [List.filterMap_cons, List.filterMap_cons] at hi
      cases hi1 : e.info with
      | none => rw [hi1] at hi; exact hi
      | some i => rw [hi1] at hi; exact (List.cons.inj hi).2

theorem Converted.corr_unique (h : Converted d missing ordering c T)
    {q q' : List (Nat × PackedEdge)} {t : List (TaggedEdge S V)} {values : List V}
    (h1 : Corr c values q t) (h2 : Corr c values q' t) : q = q' := by
  induction h1 generalizing q' with
  | nil => cases h2; rfl
  | @cons o e q t ho h1 ih =>
    cases h2 with
    | @cons o' e' q' t' ho' h2 =>
      rw [ih h2]
      congr 1
      have hk : o.1 = o'.1 := by
        have hlt := (List.getElem?_eq_some_iff.1 ho.1).1
        exact (List.getElem?_inj hlt h.edges_nodup).1 (ho.1.trans ho'.1.symm)
      have hv := ho.2.symm.trans ho'.2
      simp only [Option.some.injEq] at hv
      exact Prod.ext hk hv

/-! ## Acceptance -/

theorem lp_edge (hT : TablesOK d d.orderedKeys T) {e : Edge S K V I} (he : e ∈ d.edges) :
    lp T e.source ≤ lp T e.dest := by
  have h := hT.arrive_lp e he
  cases hk : e.keyIndex d.orderedKeys with
  | none => rwa [arrivalTag_none hk] at h
  | some i =>
    rw [arrivalTag_some hk] at h
    have := (hT.order e he i hk).1
    omega

theorem lp_walk (hT : TablesOK d d.orderedKeys T) {a b : S} {p : List (Edge S K V I)}
    (hw : DagWalk d a b p) : lp T a ≤ lp T b := by
  induction hw with
  | nil a => exact le_refl _
  | cons he _ ih => exact le_trans (lp_edge hT he) ih

/-- Accepted DAGs assign keys in order along all paths. -/
theorem ordered_walk (hT : TablesOK d d.orderedKeys T) {a b : S} {p : List (Edge S K V I)}
    (hw : DagWalk d a b p) :
    (assignedKeys p).Pairwise (· < ·)
    ∧ ∀ k ∈ assignedKeys p, ∃ i, d.orderedKeys[i]? = some k ∧ lp T a ≤ i := by
  induction hw with
  | nil a => exact ⟨by simp [assignedKeys], by simp [assignedKeys]⟩
  | @cons e b p he hw ih =>
    obtain ⟨h1, h2⟩ := ih
    have hle := lp_edge hT he
    have harr := hT.arrive_lp e he
    cases hk : e.keyIndex d.orderedKeys with
    | none =>
      have hr := hT.keys_none e he hk
      have : assignedKeys (e :: p) = assignedKeys p := by simp [assignedKeys, hr]
      rw [this]
      refine ⟨h1, ?_⟩
      intro k hk
      obtain ⟨i, hi, hl⟩ := h2 k hk
      exact ⟨i, hi, by omega⟩
    | some v =>
      obtain ⟨k, x, hr, hkv, -⟩ := keyIndex_some hk
      rw [arrivalTag_some hk] at harr
      have ho := (hT.order e he v hk).1
      have : assignedKeys (e :: p) = k :: assignedKeys p := by simp [assignedKeys, hr]
      rw [this, List.pairwise_cons]
      refine ⟨⟨?_, h1⟩, ?_⟩
      · intro k' hk'
        obtain ⟨i, hi, hl⟩ := h2 k' hk'
        exact (sorted_index (orderedKeys_sorted d) hkv hi).2 (by omega)
      · intro k' hk'
        rcases List.mem_cons.1 hk' with rfl | hk'
        · exact ⟨v, hkv, ho⟩
        · obtain ⟨i, hi, hl⟩ := h2 k' hk'
          exact ⟨i, hi, by omega⟩

/-- In topological order, the edge into the source of an edge comes earlier. -/
theorem topo_earlier (ht : Topo Edge.source Edge.dest d.edges) {i j : Nat} {e e' : Edge S K V I}
    (hi : d.edges[i]? = some e) (hj : d.edges[j]? = some e') (h : e'.dest = e.source) : j < i := by
  by_contra hc
  obtain ⟨hi', rfl⟩ := List.getElem?_eq_some_iff.1 hi
  obtain ⟨hj', rfl⟩ := List.getElem?_eq_some_iff.1 hj
  rcases Nat.lt_or_eq_of_le (Nat.le_of_not_lt hc) with hlt | rfl
  · exact (List.pairwise_iff_getElem.1 ht.1) i j hi' hj' hlt h
  · exact ht.2 _ (List.getElem_mem hi') h

/-- `largest_possible_before` is attained by a path. -/
theorem lpb_path (ht : Topo Edge.source Edge.dest d.edges) {keys : List K} {lpb : S → Option Nat}
    (hreach : ∀ e ∈ d.edges, ∃ p, DagWalk d d.initial e.source p)
    (hatt : ∀ s c, lpb s = some c → tableSingle d.initial 0 s = some c
      ∨ ∃ e ∈ d.edges, e.dest = s ∧ e.arrivalTag keys lpb = c)
    (i : Nat) (e : Edge S K V I) (hi : d.edges[i]? = some e) (v : Nat)
    (ha : e.arrivalTag keys lpb = v + 1) :
    ∃ p k, DagWalk d d.initial e.dest p ∧ keys[v]? = some k ∧ k ∈ assignedKeys p := by
  induction i using Nat.strong_induction_on generalizing e with
  | _ i ih =>
    have he := List.mem_of_getElem? hi
    cases hk : e.keyIndex keys with
    | some w =>
      obtain ⟨k, x, hr, hkw, -⟩ := keyIndex_some hk
      obtain ⟨p, hp⟩ := hreach e he
      have : w = v := by simp only [Edge.arrivalTag, hk] at ha; omega
      subst this
      refine ⟨p ++ [e], k, Walk.append hp (Walk.single he), hkw, ?_⟩
      simp [assignedKeys, hr]
    | none =>
      simp only [Edge.arrivalTag, hk] at ha
      cases hs : lpb e.source with
      | none => rw [hs] at ha; simp at ha
      | some c =>
        rw [hs] at ha
        simp only [Option.getD_some] at ha
        rcases hatt e.source c hs with h | ⟨e', he', hd, harr⟩
        · simp only [tableSingle] at h
          split at h
          · simp only [Option.some.injEq] at h; omega
          · simp at h
        · obtain ⟨j, hj⟩ := List.mem_iff_getElem?.1 he'
          obtain ⟨p, k, h1, h2, h3⟩ := ih j (topo_earlier ht hi hj hd) e' hj (harr.trans ha)
          rw [hd] at h1
          refine ⟨p ++ [e], k, Walk.append h1 (Walk.single he), h2, ?_⟩
          unfold assignedKeys at *
          rw [List.filterMap_append]
          exact List.mem_append_left _ h3

theorem topo_acyclic (ht : Topo Edge.source Edge.dest d.edges) {a b : S} {p : List (Edge S K V I)}
    (hw : DagWalk d a b p) : ∀ (i : Nat) (e : Edge S K V I), d.edges[i]? = some e → e.source = b →
      p = [] ∨ ∃ (j : Nat) (e' : Edge S K V I), d.edges[j]? = some e' ∧ e'.source = a ∧ j < i := by
  induction hw with
  | nil a => intro _ _ _ _; left; rfl
  | @cons e0 b p he hw ih =>
    intro i e hi hs
    right
    obtain ⟨j, hj⟩ := List.mem_iff_getElem?.1 he
    refine ⟨j, e0, hj, rfl, ?_⟩
    rcases ih i e hi hs with h | ⟨j', e', h1, h2, h3⟩
    · subst h
      rw [Walk.nil_iff] at hw
      exact topo_earlier ht hi hj (hw.trans hs.symm)
    · have := topo_earlier ht h1 hj h2.symm
      omega

theorem no_return (ht : Topo Edge.source Edge.dest d.edges) {e : Edge S K V I} (he : e ∈ d.edges)
    {p : List (Edge S K V I)} (hw : DagWalk d e.dest e.source p) : False := by
  have key : ∀ (i : Nat) (e' : Edge S K V I), d.edges[i]? = some e' → e'.source ≠ e.source := by
    intro i
    induction i using Nat.strong_induction_on with
    | _ i ih =>
      intro e' hi hs
      rcases topo_acyclic ht (Walk.cons he hw) i e' hi hs with h | ⟨j, e'', h1, h2, h3⟩
      · simp at h
      · exact ih j h3 e'' h1 h2
  obtain ⟨i, hi⟩ := List.mem_iff_getElem?.1 he
  exact key i e hi rfl

theorem pruned_first (ht : Topo Edge.source Edge.dest d.edges) (hp : Pruned d)
    (hne : d.edges ≠ []) : ∃ r, d.sourcesInOrder = d.initial :: r := by
  cases hE : d.edges with
  | nil => exact absurd hE hne
  | cons e0 es =>
    obtain ⟨r, hr⟩ := firstSeen_head Edge.source e0 es
    obtain ⟨-, ⟨p, hw⟩, -⟩ := hp e0 (by rw [hE]; simp)
    have : d.initial = e0.source := by
      rw [DagWalk, hE] at hw
      rw [hE] at ht
      exact walk_to_first ht.1 hw
    exact ⟨r, by rw [sources_eq, hE, hr, this]⟩

theorem pruned_final (ht : Topo Edge.source Edge.dest d.edges) (hp : Pruned d) :
    d.final ∉ d.sourcesInOrder := by
  intro h
  rw [sources_eq, mem_firstSeen] at h
  obtain ⟨e, he, hs⟩ := h
  obtain ⟨-, -, q, hq⟩ := hp e he
  rw [← hs] at hq
  exact no_return ht he hq

theorem pruned_kept (hp : Pruned d) {e : Edge S K V I} (he : e ∈ d.edges) :
    e.dest ∈ d.sourcesInOrder ++ [d.final] := by
  obtain ⟨-, -, q, hq⟩ := hp e he
  rcases q with _ | ⟨e', q⟩
  · rw [DagWalk, Walk.nil_iff] at hq
    simp [hq]
  · obtain ⟨h1, h2, -⟩ := Walk.cons_iff.1 hq
    rw [h2]
    exact List.mem_append_left _ (source_mem h1)

theorem pruned_possible (ht : Topo Edge.source Edge.dest d.edges) (hp : Pruned d) :
    ∃ lpb, possibleLoop d.orderedKeys d.edges (tableSingle d.initial 0) = some lpb := by
  apply possibleLoop_isSome
  intro es1 e es2 hE
  have he : e ∈ d.edges := by rw [hE]; simp
  obtain ⟨-, ⟨p, hw⟩, -⟩ := hp e he
  rcases List.eq_nil_or_concat p with rfl | ⟨p', e', rfl⟩
  · rw [DagWalk, Walk.nil_iff] at hw
    left
    simp [tableSingle, ← hw]
  · right
    rw [DagWalk, List.concat_eq_append, Walk.snoc_iff] at hw
    obtain ⟨h1, h2, -⟩ := hw
    refine ⟨e', ?_, h2.symm⟩
    have hi : d.edges[es1.length]? = some e := by rw [hE]; simp
    obtain ⟨j, hj⟩ := List.mem_iff_getElem?.1 h1
    have hlt := topo_earlier ht hi hj h2.symm
    rw [hE, List.getElem?_append_left hlt] at hj
    exact List.mem_of_getElem? hj

theorem mem_orderedValues {ordering : Option (List V)}
    (ho : ∀ o, ordering = some o → missing ∈ o ∧ ∀ e ∈ d.edges, ∀ k x, e.req = some (k, x) → x ∈ o) :
    missing ∈ d.orderedValues missing ordering
    ∧ ∀ e ∈ d.edges, ∀ k x, e.req = some (k, x) → x ∈ d.orderedValues missing ordering := by
  cases ordering with
  | some o => exact ho o rfl
  | none =>
    simp only [Dag.orderedValues, List.mem_mergeSort, List.mem_dedup, List.mem_cons,
      List.mem_filterMap]
    refine ⟨.inl trivial, ?_⟩
    intro e he k x hr
    exact .inr ⟨e, he, by simp [hr]⟩

theorem group_head {s : S} {r : List S} {g : Nat} {f : S → List (Nat × TaggedEdge S V)}
    (hf : ∀ x ∈ f s, x.2.source = (s, x.1 / 2)) (hx : ∃ x ∈ f s, x.1 = g) :
    ∃ e l, groupEdges ((s :: r).flatMap f) g = e :: l ∧ e.source = (s, g / 2) := by
  obtain ⟨x, hx, hg⟩ := hx
  unfold groupEdges
  rw [List.flatMap_cons, List.filter_append, List.map_append]
  cases hl : (f s).filter (fun x => decide (x.1 = g)) with
  | nil =>
    have : x ∈ (f s).filter (fun x => decide (x.1 = g)) := List.mem_filter.2 ⟨hx, by simp [hg]⟩
    rw [hl] at this
    simp at this
  | cons y l =>
    have hy : y ∈ (f s).filter (fun x => decide (x.1 = g)) := by rw [hl]; simp
    rw [List.mem_filter] at hy
    refine ⟨y.2, _, by rw [List.map_cons, List.cons_append], ?_⟩
    rw [hf y hy.1]
    have : y.1 = g := by simpa using hy.2
    rw [this]

/-- Assembly succeeds on pruned DAGs. -/
theorem assemble_succeeds (ht : Topo Edge.source Edge.dest d.edges) (hp : Pruned d)
    (hne : d.edges ≠ []) (hT : TablesOK d d.orderedKeys T) {ordering : Option (List V)}
    (ho : ∀ o, ordering = some o → missing ∈ o ∧ ∀ e ∈ d.edges, ∀ k x, e.req = some (k, x) → x ∈ o) :
    ∃ c, assemble d.initial d.final d.orderedKeys (d.orderedValues missing ordering)
      (emittedOf d missing T) = .ok c := by
  have hmem := tagged_mem (missing := missing) hT
  obtain ⟨r, hsrc⟩ := pruned_first ht hp hne
  have hfin := pruned_final ht hp
  have hkept := fun e he => pruned_kept hp (e := e) he
  -- the final state reaches the last tag
  have hlast : lp T d.final = d.orderedKeys.length := by
    apply le_antisymm (hT.lp_le _)
    cases hn : d.orderedKeys.length with
    | zero => omega
    | succ m =>
      have hk : m < d.orderedKeys.length := by omega
      obtain ⟨e, he, x, hr⟩ := mem_orderedKeys.1 (List.getElem_mem hk)
      have hki : e.keyIndex d.orderedKeys = some m := by
        simp only [Edge.keyIndex, hr]
        exact dictIndex_of_get (orderedKeys_nodup d) (List.getElem?_eq_getElem hk)
      have h1 := hT.arrive_lp e he
      rw [arrivalTag_some hki] at h1
      obtain ⟨-, -, q, hq⟩ := hp e he
      exact le_trans h1 (lp_walk hT hq)
  have hlargestF : T.largest d.final = lp T d.final := by
    rcases hT.largest_case d.final with ⟨e, he, hs, -⟩ | ⟨h, -⟩
    · exact absurd (hs ▸ source_mem he) hfin
    · exact h
  -- every destination is listed
  have hdest : ∀ Y ∈ d.sourcesInOrder ++ [d.final], ∀ t, gu T Y ≤ t → t ≤ T.largest Y →
      (Y, t) ∈ firstSeen TaggedEdge.source (flatEdges d.orderedKeys.length (emittedOf d missing T))
        ++ [(d.final, d.orderedKeys.length)] := by
    intro Y hY t h1 h2
    rw [List.mem_append, List.mem_singleton, mem_firstSeen]
    rcases Nat.lt_or_eq_of_le h2 with hlt | heq
    · exact .inl ⟨_, (hmem _).2 (.inl ⟨Y, hY, t, h1, hlt, rfl⟩), rfl⟩
    · by_cases hYF : Y = d.final
      · right
        rw [heq, hYF, hlargestF, hlast]
      · left
        have hYs : Y ∈ d.sourcesInOrder := by
          rw [List.mem_append, List.mem_singleton] at hY
          exact hY.resolve_right hYF
        rcases hT.largest_case Y with ⟨e, he, hs, hk⟩ | ⟨h3, h4⟩
        · obtain ⟨i, hi⟩ := List.mem_iff_getElem?.1 he
          obtain ⟨k, x, hr, -, -⟩ := keyIndex_some hk
          refine ⟨_, (hmem _).2 (.inr ⟨e, i, hi, hkept e he, (hp e he).1, rfl⟩), ?_⟩
          rw [copyOf_some hk hr, hs, heq]
        · rw [sources_eq, mem_firstSeen] at hYs
          obtain ⟨e, he, hs⟩ := hYs
          obtain ⟨i, hi⟩ := List.mem_iff_getElem?.1 he
          refine ⟨_, (hmem _).2 (.inr ⟨e, i, hi, hkept e he, (hp e he).1, rfl⟩), ?_⟩
          rw [copyOf_none (h4 e he hs), hs, heq, h3]
  have hval := mem_orderedValues (d := d) (missing := missing) ho
  -- packing succeeds
  have hpack : ∀ e ∈ flatEdges d.orderedKeys.length (emittedOf d missing T), ∃ pe,
      packEdge (firstSeen TaggedEdge.source (flatEdges d.orderedKeys.length (emittedOf d missing T))
        ++ [(d.final, d.orderedKeys.length)]) (d.orderedValues missing ordering) e = some pe := by
    intro e he
    have hs : e.source ∈ firstSeen TaggedEdge.source
        (flatEdges d.orderedKeys.length (emittedOf d missing T)) ++ [(d.final, d.orderedKeys.length)] :=
      List.mem_append_left _ (mem_firstSeen.2 ⟨e, he, rfl⟩)
    have hrest : e.dest ∈ firstSeen TaggedEdge.source
          (flatEdges d.orderedKeys.length (emittedOf d missing T))
          ++ [(d.final, d.orderedKeys.length)]
        ∧ ∀ k x, e.req = some (k, x) → x ∈ d.orderedValues missing ordering := by
      rcases (hmem e).1 he with ⟨s, hs', τ, h1, h2, rfl⟩ | ⟨e0, i, h1, h2, h3, rfl⟩
      · refine ⟨hdest s hs' (τ + 1) (by omega) (by omega), ?_⟩
        intro k x hr
        simp only [missingEdge, Option.some.injEq, Prod.mk.injEq] at hr
        rw [← hr.2]
        exact hval.1
      · have he0 := List.mem_of_getElem? h1
        have a1 := hT.arrive_gu e0 he0
        have a2 := le_trans (hT.arrive_lp e0 he0) (hT.lp_largest e0.dest)
        have := hdest e0.dest h2 _ a1 a2
        cases hk : e0.keyIndex d.orderedKeys with
        | none =>
          rw [arrivalTag_none hk] at this
          rw [copyOf_none hk]
          exact ⟨this, by simp⟩
        | some v =>
          obtain ⟨k, x, hr, -, -⟩ := keyIndex_some hk
          rw [arrivalTag_some hk] at this
          rw [copyOf_some hk hr]
          refine ⟨this, ?_⟩
          intro k' x' hr'
          simp only [Option.some.injEq, Prod.mk.injEq] at hr'
          rw [← hr'.2]
          exact hval.2 e0 he0 k x hr
    obtain ⟨i, hi⟩ := dictIndex_isSome hs
    obtain ⟨j, hj⟩ := dictIndex_isSome hrest.1
    unfold packEdge
    rw [hi, hj]
    dsimp only
    cases hr : e.req with
    | none => exact ⟨_, rfl⟩
    | some kx =>
      obtain ⟨v, hv⟩ := dictIndex_isSome (hrest.2 kx.1 kx.2 hr)
      dsimp only
      rw [hv]
      exact ⟨_, rfl⟩
  obtain ⟨pe, hpe⟩ := mapAll_isSome hpack
  -- the first state of the table is the initial one
  have hhead : ∃ l, firstSeen TaggedEdge.source
      (flatEdges d.orderedKeys.length (emittedOf d missing T)) = (d.initial, 0) :: l := by
    have hinit0 : lp T d.initial = 0 := hT.lp_init
    have hshape : ∀ x ∈ d.emitState d.orderedKeys missing T
        (fun s => decide (s ∈ d.sourcesInOrder ++ [d.final])) d.initial,
        x.2.source = (d.initial, x.1 / 2) := fun x hx => (emit_shape hx).src
    have hem : emittedOf d missing T = (d.initial :: (r ++ [d.final])).flatMap
        (d.emitState d.orderedKeys missing T
          (fun s => decide (s ∈ d.sourcesInOrder ++ [d.final]))) := by
      unfold emittedOf
      conv_lhs => rw [show d.sourcesInOrder ++ [d.final] = d.initial :: (r ++ [d.final]) by rw [hsrc]; rfl]
      rw [hsrc]
      rfl
    have hcopy : ∀ e ∈ d.edges, e.source = d.initial → ∃ i, copyOf d.orderedKeys T e i ∈
        d.emitState d.orderedKeys missing T
          (fun s => decide (s ∈ d.sourcesInOrder ++ [d.final])) d.initial := by
      intro e he hs
      obtain ⟨i, hi⟩ := List.mem_iff_getElem?.1 he
      exact ⟨i, mem_emitState.2 (.inr ⟨e, i, hi, hs, decide_eq_true (hkept e he), (hp e he).1, rfl⟩)⟩
    have hsrc0 : ∃ e ∈ d.edges, e.source = d.initial := by
      have : d.initial ∈ d.sourcesInOrder := by rw [hsrc]; simp
      rwa [sources_eq, mem_firstSeen] at this
    by_cases hA : ∃ e ∈ d.edges, e.source = d.initial ∧ e.keyIndex d.orderedKeys = none
    · obtain ⟨e, he, hs, hk⟩ := hA
      obtain ⟨i, hi⟩ := hcopy e he hs
      obtain ⟨e', l, h1, h2⟩ := group_head (r := r ++ [d.final]) (g := 0) hshape
        ⟨_, hi, by rw [copyOf_none hk, hs, hinit0]⟩
      rw [← hem] at h1
      have hfe : ∃ l', flatEdges d.orderedKeys.length (emittedOf d missing T) = e' :: l' := by
        unfold flatEdges
        rw [List.range_succ_eq_map, List.map_cons, List.flatten_cons, h1]
        exact ⟨_, rfl⟩
      obtain ⟨l', hl'⟩ := hfe
      rw [hl']
      obtain ⟨r', hr'⟩ := firstSeen_head TaggedEdge.source e' l'
      exact ⟨r', by rw [hr', h2]⟩
    · -- only assigning edges leave the initial state: group 0 is empty
      have hA' : ∀ e ∈ d.edges, e.source = d.initial → e.keyIndex d.orderedKeys ≠ none :=
        fun e he hs hk => hA ⟨e, he, hs, hk⟩
      have hpos : ∀ (i : Nat) (e : Edge S K V I), d.edges[i]? = some e → e.source ≠ d.initial → 0 < lp T e.source := by
        intro i
        induction i using Nat.strong_induction_on with
        | _ i ih =>
          intro e hi hs
          obtain ⟨-, ⟨p, hw⟩, -⟩ := hp e (List.mem_of_getElem? hi)
          rcases List.eq_nil_or_concat p with rfl | ⟨p', e', rfl⟩
          · rw [DagWalk, Walk.nil_iff] at hw
            exact absurd hw.symm hs
          · rw [DagWalk, List.concat_eq_append, Walk.snoc_iff] at hw
            obtain ⟨h1, h2, -⟩ := hw
            obtain ⟨j, hj⟩ := List.mem_iff_getElem?.1 h1
            have hlt := topo_earlier ht hi hj h2.symm
            have harr := hT.arrive_lp e' h1
            rw [h2]
            cases hk : e'.keyIndex d.orderedKeys with
            | some v => rw [arrivalTag_some hk] at harr; omega
            | none =>
              rw [arrivalTag_none hk] at harr
              have hs' : e'.source ≠ d.initial := fun h => hA' e' h1 h hk
              have := ih j hlt e' hj hs'
              omega
      have hg0 : groupEdges (emittedOf d missing T) 0 = [] := by
        rw [List.eq_nil_iff_forall_not_mem]
        intro e he
        rw [mem_groupEdges] at he
        obtain ⟨s, hs, hm⟩ := mem_emittedOf.1 he
        rcases mem_emitState.1 hm with ⟨τ, h1, h2, h3⟩ | ⟨e0, i, h1, h2, h3, h4, h5⟩
        · simp [missingEdge] at h3
        · cases hk : e0.keyIndex d.orderedKeys with
          | some v =>
            obtain ⟨k, x, hr, -, -⟩ := keyIndex_some hk
            rw [copyOf_some hk hr] at h5
            simp at h5
          | none =>
            rw [copyOf_none hk] at h5
            simp only [Prod.mk.injEq] at h5
            have : e0.source ≠ d.initial := fun h => hA' e0 (List.mem_of_getElem? h1) h hk
            have := hpos i e0 h1 this
            omega
      obtain ⟨e, he, hs⟩ := hsrc0
      have hg1 : ∃ x ∈ d.emitState d.orderedKeys missing T
          (fun s => decide (s ∈ d.sourcesInOrder ++ [d.final])) d.initial, x.1 = 1 := by
        rcases hT.largest_case d.initial with ⟨e1, he1, hs1, hk1⟩ | ⟨-, h4⟩
        · by_cases h0 : T.largest d.initial = 0
          · obtain ⟨i, hi⟩ := hcopy e1 he1 hs1
            obtain ⟨k, x, hr, -, -⟩ := keyIndex_some hk1
            exact ⟨_, hi, by rw [copyOf_some hk1 hr, h0]⟩
          · exact ⟨_, mem_emitState.2 (.inl ⟨0, by rw [hT.gu_init], by omega, rfl⟩), rfl⟩
        · exact absurd (h4 e he hs) (hA' e he hs)
      obtain ⟨e', l, h1, h2⟩ := group_head (r := r ++ [d.final]) (g := 1) hshape hg1
      rw [← hem] at h1
      have hnk : ∃ m, d.orderedKeys.length = m + 1 := by
        cases hk : e.keyIndex d.orderedKeys with
        | none => exact absurd hk (hA' e he hs)
        | some v =>
          obtain ⟨_, _, _, _, h⟩ := keyIndex_some hk
          exact ⟨d.orderedKeys.length - 1, by omega⟩
      obtain ⟨m, hm⟩ := hnk
      have hfe : ∃ l', flatEdges d.orderedKeys.length (emittedOf d missing T) = e' :: l' := by
        unfold flatEdges
        rw [hm, show 2 * (m + 1) + 1 = (2 * m + 1) + 1 + 1 by omega, List.range_succ_eq_map,
          List.range_succ_eq_map, List.map_cons, List.map_cons, List.map_cons, List.flatten_cons,
          List.flatten_cons, hg0, h1]
        exact ⟨_, rfl⟩
      obtain ⟨l', hl'⟩ := hfe
      rw [hl']
      obtain ⟨r', hr'⟩ := firstSeen_head TaggedEdge.source e' l'
      exact ⟨r', by rw [hr', h2]⟩
  obtain ⟨l, hl⟩ := hhead
  have hnew : (d.final, d.orderedKeys.length) ∉ firstSeen TaggedEdge.source
      (flatEdges d.orderedKeys.length (emittedOf d missing T)) := by
    intro h
    rw [mem_firstSeen] at h
    obtain ⟨e, he, hc⟩ := h
    rcases (hmem e).1 he with ⟨s, hs, τ, h1, h2, rfl⟩ | ⟨e0, i, h1, h2, h3, rfl⟩
    · simp only [missingEdge, Prod.mk.injEq] at hc
      obtain ⟨rfl, rfl⟩ := hc
      omega
    · have : e0.source = d.final := by
        cases hk : e0.keyIndex d.orderedKeys with
        | none => rw [copyOf_none hk] at hc; simp only [Prod.mk.injEq] at hc; exact hc.1
        | some v =>
          obtain ⟨k, x, hr, -, -⟩ := keyIndex_some hk
          rw [copyOf_some hk hr] at hc; simp only [Prod.mk.injEq] at hc; exact hc.1
      exact hfin (this ▸ source_mem (List.mem_of_getElem? h1))
  unfold assemble
  dsimp only
  rw [tableOrder_eq]
  have hfl : (List.map (groupEdges (emittedOf d missing T))
      (List.range (2 * d.orderedKeys.length + 1))).flatten
      = flatEdges d.orderedKeys.length (emittedOf d missing T) := rfl
  rw [hfl]
  rw [hpe]
  rw [hl] at hnew ⊢
  dsimp only
  rw [if_neg (by simp), if_neg hnew]
  exact ⟨_, rfl⟩

end

end RUSure.Lemmas
