import Verif.Lemmas.EditPrice
import Verif.Props.Constraint

/-!
# Properties of edit DAGs: C45 (edit DAG), C46, C47, C48, C57
-/

namespace RUSure.Props
open RUSure RUSure.Spec RUSure.Lemmas
variable {M : Type} [DecidableEq M]

/-- The DAG that is constructed. -/
def editDagOf (prm : Params) (proto target : List (Node M)) :
    Dag EditState DecisionKey DecisionValue (Option EditInfo) :=
  ⟨editInitial, editEdges prm proto target, .final⟩

omit [DecidableEq M] in
theorem solution_of_walk {d : Dag EditState DecisionKey DecisionValue (Option EditInfo)}
    (hf : ∀ e ∈ d.edges, Fair e) {p : List EditEdge}
    (h : Walk Edge.source Edge.dest d.edges d.initial d.final p) : DagSolution d p :=
  ⟨h, fun e he => (hf e (Walk.mem h e he)).1⟩

/-! ### C46: complete paths are edit scripts -/

/-- C46: building the edit DAG never fails. -/
theorem C46_builds (prm : Params) (proto target : List (Node M)) :
    ∃ d, constructEditDag prm proto target = .ok d :=
  ⟨_, constructEditDag_ok prm proto target⟩

/-- C46: the complete paths of the edit DAG are exactly the edit scripts of prototype and target. A
script that does not exit early ends outside of low-confidence regions. -/
theorem C46_scripts (prm : Params) (proto target : List (Node M))
    (d : Dag EditState DecisionKey DecisionValue (Option EditInfo))
    (h : constructEditDag prm proto target = .ok d) (ss : List EditStep) :
    (∃ p, DagSolution d p ∧ scriptOf p = ss) ↔
      ∃ r, (r = none ∨ r = some .high) ∧ Edits prm .advancing .high 0 proto 0 target ss r := by
  rw [constructEditDag_ok, Except.ok.injEq] at h
  subst h
  have hl : (∃ p, DagSolution (editDagOf prm proto target) p ∧ scriptOf p = ss)
      ↔ EReads (editEdges prm proto target) (.at .process .high none 0 none 0) ss := by
    constructor
    · rintro ⟨p, ⟨hw, -⟩, hp⟩
      exact ⟨p, hw, hp⟩
    · rintro ⟨p, hw, hp⟩
      exact ⟨p, solution_of_walk (editEdges_fair prm proto target) hw, hp⟩
  refine hl.trans ?_
  rw [editDag_reads]
  constructor
  · rintro ⟨ss', r, h1, h2⟩
    cases r with
    | none =>
      simp only [After] at h2
      subst h2
      exact ⟨none, .inl rfl, h1⟩
    | some c =>
      obtain ⟨ds', rfl, rfl, rfl⟩ := h2
      rw [List.append_nil]
      exact ⟨_, .inr rfl, h1⟩
  · rintro ⟨r, rfl | rfl, h1⟩
    · exact ⟨ss, none, h1, rfl⟩
    · exact ⟨ss, _, h1, [], by simp, rfl, rfl⟩

/-- C46: on every complete path, prototype tokens are kept or deleted one after the other, and target
tokens kept or inserted one after the other. Without early exit that is every token of the prototype
and of the target, exactly once; with an early exit it is those at the beginning. -/
theorem C46_tokens (prm : Params) (proto target : List (Node M))
    (d : Dag EditState DecisionKey DecisionValue (Option EditInfo))
    (h : constructEditDag prm proto target = .ok d) (p : List EditEdge) (hp : DagSolution d p) :
    (¬ TakesExit (decisionsOf p) →
      (editsOf p).filterMap EditInfo.usesProto = (tokens 0 proto).map Prod.fst
      ∧ (editsOf p).filterMap EditInfo.usesTarget = (tokens 0 target).map Prod.fst)
    ∧ (editsOf p).filterMap EditInfo.usesProto <+: (tokens 0 proto).map Prod.fst
    ∧ (editsOf p).filterMap EditInfo.usesTarget <+: (tokens 0 target).map Prod.fst := by
  obtain ⟨r, hr, he⟩ := (C46_scripts prm proto target d h _).1 ⟨p, hp, rfl⟩
  obtain ⟨h1, h2⟩ := edits_used he
  have hx := edits_exit he
  rw [script_edits, script_decs]
  refine ⟨fun hn => ?_, h1.prefix, h2.prefix⟩
  rcases hr with rfl | rfl
  · exact absurd (hx.1 rfl) hn
  · exact ⟨h1.some, h2.some⟩

/-- C46: kept tokens have the same text and the same type in the prototype and in the target. -/
theorem C46_kept (prm : Params) (proto target : List (Node M))
    (d : Dag EditState DecisionKey DecisionValue (Option EditInfo))
    (h : constructEditDag prm proto target = .ok d) (p : List EditEdge) (hp : DagSolution d p)
    (i j : Nat) (hij : (i, j) ∈ (editsOf p).filterMap EditInfo.keptPair) :
    ∃ t mt, (i, t, mt) ∈ tokens 0 proto ∧ (j, t, mt) ∈ tokens 0 target := by
  obtain ⟨r, hr, he⟩ := (C46_scripts prm proto target d h _).1 ⟨p, hp, rfl⟩
  rw [script_edits] at hij
  exact edits_kept he (i, j) hij

/-- C46: without early exit, a complete path chooses decisions for the prototype and, independently,
an alignment of the prototype with the target: every combination occurs, and nothing else. -/
theorem C46_alignments (prm : Params) (proto target : List (Node M))
    (d : Dag EditState DecisionKey DecisionValue (Option EditInfo))
    (h : constructEditDag prm proto target = .ok d) (ds : List Decision) (K : List (Nat × Nat)) :
    (∃ p, DagSolution d p ∧ ¬ TakesExit (decisionsOf p) ∧ decisionsOf p = ds
        ∧ (editsOf p).filterMap EditInfo.keptPair = K)
      ↔ Decides prm .high 0 proto ds .high ∧ Aligns 0 proto 0 target K := by
  constructor
  · rintro ⟨p, hp, hx, rfl, rfl⟩
    obtain ⟨r, hr, he⟩ := (C46_scripts prm proto target d h _).1 ⟨p, hp, rfl⟩
    rw [script_decs] at hx
    rw [script_decs, script_edits]
    rcases hr with rfl | rfl
    · exact absurd ((edits_exit he).1 rfl) hx
    · exact edits_aligns he _ rfl
  · rintro ⟨h1, h2⟩
    obtain ⟨ss, h3, h4, h5⟩ := aligns_edits h2 _ _ _ h1
    obtain ⟨p, hp, hps⟩ := (C46_scripts prm proto target d h _).2 ⟨_, .inr rfl, .startEditing h3⟩
    have h6 : decisionsOf p = ds := by rw [script_decs, hps, shows_start.decs, h4]; rfl
    refine ⟨p, hp, ?_, h6, ?_⟩
    · have := edits_exit h3
      rw [h4] at this
      rw [h6]
      simpa using this
    · rw [script_edits, hps]
      exact (shows_start.keptBy ss).trans h5

/-! ### C47: costs -/

/-- C47: the cost of a complete path is the total price of its edits: deleted, inserted and kept
characters at their confidence, starting to edit, and starting low-confidence regions. -/
theorem C47_cost (prm : Params) (proto target : List (Node M))
    (d : Dag EditState DecisionKey DecisionValue (Option EditInfo))
    (h : constructEditDag prm proto target = .ok d) (p : List EditEdge) (hp : DagSolution d p) :
    weight Edge.cost p = (((editsOf p).map (editPrice prm proto target)).sum : ℚ) := by
  obtain ⟨r, hr, he⟩ := (C46_scripts prm proto target d h _).1 ⟨p, hp, rfl⟩
  have h' := h
  rw [constructEditDag_ok, Except.ok.injEq] at h'
  subst h'
  rw [script_cost p fun e he => editEdges_fair prm proto target e (Walk.mem hp.1 e he), script_edits,
    editPrice_eq]
  exact edits_priced he (lens_self proto) (lens_self target)

omit [DecidableEq M] in
theorem edits_regions {prm : Params} {ph c i} {ns : List (Node M)} {j} {ms : List (Node M)} {ss r}
    (h : Edits prm ph c i ns j ms ss r) : ∀ s ∈ ss, ∀ x ∈ s.edit,
      ((x.action = .keep ∨ x.action = .delete) →
        ∃ i c, x.proto = some i ∧ x.conf = some c ∧ s.decision = some (seenAt i c))
      ∧ (x.action = .startLow ↔ ∃ i, s.decision = some (⟨i, .start⟩, .yes)) := by
  have cons : ∀ {s : EditStep} {ss : List EditStep} {P : EditStep → Prop}, P s → (∀ s ∈ ss, P s) →
      ∀ s' ∈ s :: ss, P s' := by
    intro s ss P h1 h2 s' hs
    rcases List.mem_cons.mp hs with rfl | hs
    · exact h1
    · exact h2 _ hs
  have hpass : ∀ {c i} {n : Node M} {s c'}, Pass prm c i n s c' → ∀ x ∈ s.edit,
      ((x.action = .keep ∨ x.action = .delete) →
        ∃ i c, x.proto = some i ∧ x.conf = some c ∧ s.decision = some (seenAt i c))
      ∧ (x.action = .startLow ↔ ∃ i, s.decision = some (⟨i, .start⟩, .yes)) := by
    intro c i n s c' hp x hx
    cases hp <;> simp at hx <;> subst hx <;> simp
  have hdel : ∀ {c i} {ns : List (Node M)} {ss r}, Deletes prm c i ns ss r → ∀ s ∈ ss, ∀ x ∈ s.edit,
      ((x.action = .keep ∨ x.action = .delete) →
        ∃ i c, x.proto = some i ∧ x.conf = some c ∧ s.decision = some (seenAt i c))
      ∧ (x.action = .startLow ↔ ∃ i, s.decision = some (⟨i, .start⟩, .yes)) := by
    intro c i ns ss r h
    induction h with
    | nil => simp
    | pass hp _ ih => exact cons (hpass hp) ih
    | exit => exact cons (by simp [exitStep]) (by simp)
    | tok _ ih => exact cons (by simp [deleteStep, seenAt]) ih
    | group _ _ ih ih' =>
      rw [List.cons_append]
      exact cons (by simp [enterStep]) (fun s hs => (List.mem_append.mp hs).elim (ih s) (ih' s))
    | groupExit _ ih => exact cons (by simp [enterStep]) ih
  have hins : ∀ {c j} {ms : List (Node M)} {ss}, Inserts prm c j ms ss → ∀ s ∈ ss, ∀ x ∈ s.edit,
      ((x.action = .keep ∨ x.action = .delete) →
        ∃ i c, x.proto = some i ∧ x.conf = some c ∧ s.decision = some (seenAt i c))
      ∧ (x.action = .startLow ↔ ∃ i, s.decision = some (⟨i, .start⟩, .yes)) := by
    intro c i ns ss h
    induction h with
    | nil => simp
    | deco _ ih => exact cons (by simp [targetDecoStep]) ih
    | tok _ ih => exact cons (by simp [insertStep]) ih
    | group _ _ ih ih' => exact fun s hs => (List.mem_append.mp hs).elim (ih s) (ih' s)
  induction h with
  | pass _ hp _ ih => exact cons (hpass hp) ih
  | exit => exact cons (by simp [exitStep]) (by simp)
  | startEditing _ ih => exact cons (by simp [startEditStep]) ih
  | noEditing _ ih => exact ih
  | delete _ ih => exact cons (by simp [deleteStep, seenAt]) ih
  | deleteGroup hd _ ih =>
    rw [List.cons_append]
    exact cons (by simp [enterStep]) (fun s hs => (List.mem_append.mp hs).elim (hdel hd s) (ih s))
  | deleteGroupExit hd => exact cons (by simp [enterStep]) (hdel hd)
  | stopDeleting _ ih => exact ih
  | targetDeco _ _ ih => exact cons (by simp [targetDecoStep]) ih
  | insert _ ih => exact cons (by simp [insertStep]) ih
  | insertGroup hi _ ih => exact fun s hs => (List.mem_append.mp hs).elim (hins hi s) (ih s)
  | stopInserting _ ih => exact ih
  | keep _ ih => exact cons (by simp [keepStep, seenAt]) ih
  | matchGroup _ _ ih ih' =>
    rw [List.cons_append]
    exact cons (by simp [enterStep]) (fun s hs => (List.mem_append.mp hs).elim (ih s) (ih' s))
  | matchGroupExit _ ih => exact cons (by simp [enterStep]) ih
  | done => simp

/-- C47: the confidence at which a token is kept or deleted is the one that is decided for it, and the
region cost is paid at exactly the region starts that are decided to be used. -/
theorem C47_confidence (prm : Params) (proto target : List (Node M))
    (d : Dag EditState DecisionKey DecisionValue (Option EditInfo))
    (h : constructEditDag prm proto target = .ok d) (p : List EditEdge) (hp : DagSolution d p)
    (e : EditEdge) (he : e ∈ p) (x : EditInfo) (hx : e.info = some x) :
    ((x.action = .keep ∨ x.action = .delete) →
      ∃ i c, x.proto = some i ∧ x.conf = some c
        ∧ e.req = some (⟨i, .inRegion⟩, if c = .low then .yes else .no))
    ∧ (x.action = .startLow ↔ ∃ i, e.req = some (⟨i, .start⟩, .yes)) := by
  obtain ⟨r, hr, hs⟩ := (C46_scripts prm proto target d h _).1 ⟨p, hp, rfl⟩
  have := edits_regions hs ⟨e.req, e.info, e.cost⟩
    (List.mem_flatMap.mpr ⟨e, he, by simp [editLabel, hx]⟩) x hx
  refine ⟨fun ha => ?_, this.2⟩
  obtain ⟨i, c, h1, h2, h3⟩ := this.1 ha
  refine ⟨i, c, h1, h2, ?_⟩
  simpa [seenAt, inValue] using h3

/-! ### C48: perfect predictions -/

/-- C48: if the target is the prototype without its control nodes, there is a complete path that keeps
every token at high confidence: it edits nothing, decides on no region and no early exit, and its
cost is minus the high-confidence utility of all characters. -/
theorem C48_perfect (prm : Params) (proto : List (Node M))
    (d : Dag EditState DecisionKey DecisionValue (Option EditInfo))
    (h : constructEditDag prm proto (withoutControl proto) = .ok d) :
    ∃ p, DagSolution d p
      ∧ (∀ x ∈ editsOf p, x.action = .keep ∨ x.action = .protoDeco ∨ x.action = .targetDeco)
      ∧ (∀ x ∈ decisionsOf p, x.2 ≠ .yes)
      ∧ weight Edge.cost p = ((-(prm.highMatch * chars proto) : ℚ) : Cost) := by
  obtain ⟨ss, h1, h2, h3⟩ := perfect_aux prm proto [] 0 0
  obtain ⟨p, hp, hps⟩ := (C46_scripts prm proto _ d h ss).2 ⟨_, .inr rfl, h1⟩
  refine ⟨p, hp, fun x hx => ?_, fun x hx => ?_, ?_⟩
  · rw [script_edits, hps] at hx
    obtain ⟨s, hs, hsx⟩ := List.mem_filterMap.mp hx
    exact (h2 s hs).1 x hsx
  · rw [script_decs, hps] at hx
    obtain ⟨s, hs, hsx⟩ := List.mem_filterMap.mp hx
    exact (h2 s hs).2 x hsx
  · rw [constructEditDag_ok, Except.ok.injEq] at h
    subst h
    rw [script_cost p fun e he => editEdges_fair prm proto _ e (Walk.mem hp.1 e he), hps]
    exact h3

/-- C48: if no edit pays off better than keeping tokens at high confidence, no complete path is
cheaper than that, whatever the target. -/
theorem C48_bound (prm : Params) (hprm : Sensible prm) (proto target : List (Node M))
    (d : Dag EditState DecisionKey DecisionValue (Option EditInfo))
    (h : constructEditDag prm proto target = .ok d) (p : List EditEdge) (hp : DagSolution d p) :
    ((-(prm.highMatch * chars proto) : ℚ) : Cost) ≤ weight Edge.cost p := by
  obtain ⟨r, hr, he⟩ := (C46_scripts prm proto target d h _).1 ⟨p, hp, rfl⟩
  have h' := h
  rw [constructEditDag_ok, Except.ok.injEq] at h'
  subst h'
  rw [script_cost p fun e he => editEdges_fair prm proto target e (Walk.mem hp.1 e he)]
  exact edits_cost hprm he

/-- C48: the derived region costs are such parameters. -/
theorem C48_derived (p c s : ℚ) (hp : 0 ≤ p ∧ p ≤ 1) (hs : 0 ≤ s ∧ s ≤ 1) (hc : 0 ≤ c) :
    Sensible (deriveCosts p c s) := by
  obtain ⟨hp0, hp1⟩ := hp
  obtain ⟨hs0, hs1⟩ := hs
  have h1 : 0 ≤ 1 - s := by linarith
  have h2 : p * (1 - s) ≤ 1 - s := by nlinarith
  have h3 : 0 ≤ p * (1 - s) := mul_nonneg hp0 h1
  have h4 : 0 ≤ (1 - p) * (1 - s) := mul_nonneg (by linarith) h1
  constructor <;> simp only [deriveCosts]
  · norm_num
  · nlinarith
  · norm_num
  · nlinarith
  · exact le_refl _
  · exact mul_nonneg h4 hc
  · exact hc
  · exact mul_nonneg hs0 hc

/-! ### C45: keys are in increasing order, and packing succeeds -/

theorem decisionsOf_eq (p : List EditEdge) : decisionsOf p = p.flatMap fun e => e.req.toList := by
  induction p with
  | nil => rfl
  | cons e p ih =>
    rw [List.flatMap_cons, ← ih]
    unfold decisionsOf
    cases h : e.req <;> simp [h]

/-- C45 (edit DAG): edges are listed in topological order, without self loops; and on every solution
the keys are strictly increasing. -/
theorem C45_edit (prm : Params) (proto target : List (Node M))
    (d : Dag EditState DecisionKey DecisionValue (Option EditInfo))
    (h : constructEditDag prm proto target = .ok d) :
    Topo Edge.source Edge.dest d.edges
    ∧ ∀ p, DagSolution d p → (assignedKeys p).Pairwise (· < ·)
        ∧ (∀ k ∈ assignedKeys p, k ∈ seqKeys 0 proto)
        ∧ (¬ TakesExit (decisionsOf p) → assignedKeys p = seqKeys 0 proto) := by
  have h' := h
  rw [constructEditDag_ok, Except.ok.injEq] at h'
  refine ⟨by rw [← h']; exact editEdges_topo prm proto target, fun p hp => ?_⟩
  obtain ⟨r, hr, he⟩ := (C46_scripts prm proto target d h _).1 ⟨p, hp, rfl⟩
  have hk := edits_keys he
  have hx := edits_exit he
  have hpre := hk.prefix
  have ha : assignedKeys p = keysOf (scriptOf p) := by
    rw [assignedKeys_eq, ← decisionsOf_eq, script_decs]; rfl
  rw [ha]
  refine ⟨(seqKeys_sorted proto 0).sublist hpre.sublist, fun k hk => hpre.subset hk, fun hn => ?_⟩
  rw [script_decs] at hn
  rcases hr with rfl | rfl
  · exact absurd (hx.1 rfl) hn
  · exact hk.some

omit [DecidableEq M] in
/-- Packing succeeds if keys are increasing on solutions, and one solution uses all keys. -/
theorem packs_keys {S I : Type} [DecidableEq S] [DecidableEq I]
    (d : Dag S DecisionKey DecisionValue I)
    (proto : List (Node M)) (ht : Topo Edge.source Edge.dest d.edges) (hne : d.initial ≠ d.final)
    (hk : ∀ p, DagSolution d p → (assignedKeys p).Pairwise (· < ·)
        ∧ ∀ k ∈ assignedKeys p, k ∈ seqKeys 0 proto)
    {p : List (Edge S DecisionKey DecisionValue I)} (hp : DagSolution d p)
    (hpk : assignedKeys p = seqKeys 0 proto) :
    (∃ c, d.prune.convert .na (some [.no, .yes, .na]) = .ok c)
    ∧ ∀ c, d.prune.convert .na (some [.no, .yes, .na]) = .ok c → c.keys = seqKeys 0 proto := by
  constructor
  · refine C54_succeeds d ht _ _ hne ⟨p, hp⟩ (fun p hp => (hk p hp).1) ?_
    intro o ho
    obtain rfl := Option.some.inj ho
    refine ⟨by simp, fun e _ k x _ => ?_⟩
    cases x <;> simp
  · intro c hc
    obtain ⟨-, -, hs, hm, -⟩ := C27_convert d.prune (prune_topo d ht) _ _ c hc
    refine sorted_ext hs (seqKeys_sorted proto 0) fun k => ?_
    rw [hm]
    constructor
    · rintro ⟨e, he, x, hx⟩
      obtain ⟨p, hs, hep⟩ := ((C23_keeps_exactly d ht.1).1 e).1 he
      refine (hk p hs).2 k ?_
      exact List.mem_filterMap.mpr ⟨e, hep, by rw [hx]; rfl⟩
    · intro hkk
      rw [← hpk] at hkk
      obtain ⟨e, hep, he⟩ := List.mem_filterMap.mp hkk
      have hw := ((C23_solutions d ht.1 p).2 hp).1
      refine ⟨e, Walk.mem hw e hep, ?_⟩
      obtain ⟨⟨k', x⟩, hx, rfl⟩ := Option.map_eq_some_iff.mp he
      exact ⟨x, hx⟩

/-! ### C57: region choices are feasible in every edit DAG -/

/-- C57: for any target without control nodes, whatever decisions the constraint DAG allows can be
made in the edit DAG. -/
theorem C57_decisions (prm : Params) (proto target : List (Node M)) (ht : DecisionFree target)
    (d : Dag EditState DecisionKey DecisionValue (Option EditInfo))
    (h : constructEditDag prm proto target = .ok d)
    (dc : Dag ConstraintState DecisionKey DecisionValue Bool)
    (hc : constructConstraintDag proto = .ok dc) (q) (hq : DagSolution dc q) :
    ∃ p, DagSolution d p ∧ decisionsOf p = q.flatMap fun e => e.req.toList := by
  obtain ⟨x, hx⟩ := (C42_grammar proto dc hc _).1 ⟨q, hq, rfl⟩
  obtain ⟨ss, h1, h2⟩ := regionSeq_deletes (prm := prm) hx
  obtain ⟨ss', h3, h4⟩ := deletes_edits h1 (j := 0) ht
  obtain ⟨p, hp, hps⟩ := (C46_scripts prm proto target d h _).2
    ⟨_, by cases x <;> simp [confIn], .startEditing h3⟩
  exact ⟨p, hp, by rw [script_decs, hps, shows_start.decs, h4, h2]; rfl⟩

/-- C57: so every assignment that describes well-formed regions is the assignment of some complete
path of the edit DAG: constraints and utilities never contradict each other. -/
theorem C57_feasible (prm : Params) (proto target : List (Node M)) (ht : DecisionFree target)
    (d : Dag EditState DecisionKey DecisionValue (Option EditInfo))
    (h : constructEditDag prm proto target = .ok d) (α : DecisionKey → DecisionValue)
    (hα : WellFormedRegions α proto) : Accepts d (seqKeys 0 proto) α := by
  obtain ⟨dc, hc⟩ := C42_builds proto
  obtain ⟨q, hq, hqα⟩ := (C42_accepts proto dc hc α).2 hα
  obtain ⟨p, hp, hpd⟩ := C57_decisions prm proto target ht d h dc hc q hq
  refine ⟨p, hp, fun k hk => ?_⟩
  rw [hqα k hk, valueOn_lookup, valueOn_lookup, ← decisionsOf_eq, hpd]

/-- C45 (edit DAG): for targets without control nodes, packing the pruned edit DAG never fails, and
its variables are the decisions there are for the prototype, in increasing order. -/
theorem C45_edit_packs (prm : Params) (proto target : List (Node M)) (htf : DecisionFree target)
    (d : Dag EditState DecisionKey DecisionValue (Option EditInfo))
    (h : constructEditDag prm proto target = .ok d) :
    (∃ c, d.prune.convert .na (some [.no, .yes, .na]) = .ok c)
    ∧ ∀ c, d.prune.convert .na (some [.no, .yes, .na]) = .ok c → c.keys = seqKeys 0 proto := by
  obtain ⟨ht, hk⟩ := C45_edit prm proto target d h
  obtain ⟨dc, hc⟩ := C42_builds proto
  obtain ⟨ds, hds⟩ := regionSeq_none proto false 0
  obtain ⟨q, hq, hqd⟩ := (C42_grammar proto dc hc ds).2 ⟨false, hds⟩
  obtain ⟨p, hp, hpd⟩ := C57_decisions prm proto target htf d h dc hc q hq
  refine packs_keys d proto ht ?_ (fun p hp => ⟨(hk p hp).1, (hk p hp).2.1⟩) hp ?_
  · rw [constructEditDag_ok, Except.ok.injEq] at h
    rw [← h]
    simp [editInitial]
  · rw [assignedKeys_eq, ← decisionsOf_eq, hpd, hqd]
    exact (regionSeq_keys hds).2 rfl

/-! ### Examples -/

section Examples

/-- `a`, then a region around a group with `b`, then an early exit. -/
def exProto : List (Node String) :=
  [.tok ['a'] "n", .rstart, .group [.tok ['b'] "n"] "g", .rend, .exit]

/-- `a`, then a group with `b` and `c`. -/
def exTarget : List (Node String) :=
  [.tok ['a'] "n", .group [.tok ['b'] "n", .tok ['c'] "n"] "g"]

def exDecisions : List Decision :=
  [(⟨0, .inRegion⟩, .no), (⟨1, .start⟩, .yes), (⟨2, .inRegion⟩, .yes), (⟨3, .inRegion⟩, .yes),
    (⟨4, .stop⟩, .yes), (⟨5, .exit⟩, .no)]

/-- The region is used, the group is in it, and the early exit is not taken. -/
theorem exDecides (prm : Params) : Decides prm .high 0 exProto exDecisions .high :=
  .tok (.pass (.start 1) (.group (.tok (.nil _ _)) (.pass (.stop 4) (.pass (.noExit _ 5)
    (.nil _ _)))))

/-- `a` and `b` are kept, `c` is inserted. -/
theorem exAligns : Aligns 0 exProto 0 exTarget [(0, 0), (3, 2)] :=
  .keep (.passProto (.inl rfl) (.group (K := [(3, 2)]) (.keep (.insert (.nil _ _)))
    (.passProto (.inr (.inl rfl)) (.passProto (.inr (.inr (.inl rfl))) (.nil _ _)))))

/-- C46 is not vacuous: there is a path with this region and this alignment. -/
example (prm : Params) : ∃ d p, constructEditDag prm exProto exTarget = .ok d ∧ DagSolution d p
    ∧ decisionsOf p = exDecisions ∧ (editsOf p).filterMap EditInfo.keptPair = [(0, 0), (3, 2)] := by
  obtain ⟨d, h⟩ := C46_builds prm exProto exTarget
  obtain ⟨p, hp, -, h1, h2⟩ := (C46_alignments prm _ _ d h _ _).2 ⟨exDecides prm, exAligns⟩
  exact ⟨d, p, h, hp, h1, h2⟩

/-- There is also a path that takes the early exit; it leaves target tokens out. -/
example (prm : Params) : ∃ d p, constructEditDag prm [.exit] exTarget = .ok d ∧ DagSolution d p
    ∧ TakesExit (decisionsOf p) ∧ (editsOf p).filterMap EditInfo.usesTarget = [] := by
  obtain ⟨d, h⟩ := C46_builds prm [.exit] exTarget
  obtain ⟨p, hp, h1⟩ := (C46_scripts prm _ _ d h _).2 ⟨none, .inl rfl, .exit .high 0 [] 0 exTarget (.inl rfl)⟩
  refine ⟨d, p, h, hp, ?_, ?_⟩
  · rw [script_decs, h1]
    exact ⟨0, by simp [decs, exitStep]⟩
  · rw [script_edits, h1]
    rfl

/-- Tokens of different types are never kept. -/
example (prm : Params) (d) (h : constructEditDag prm [.tok ['a'] "n"] [.tok ['a'] "m"] = .ok d) (p)
    (hp : DagSolution d p) : (0, 0) ∉ (editsOf p).filterMap EditInfo.keptPair := by
  intro hk
  obtain ⟨t, mt, h1, h2⟩ := C46_kept prm _ _ d h p hp 0 0 hk
  simp [tokens] at h1 h2
  exact absurd (h1.2.symm.trans h2.2) (by decide)

/-- Keeping `a` at high confidence and `b` at low confidence in one region, and inserting `c`. -/
example (prm : Params) : editPrice prm exProto exTarget ⟨some 3, some 2, .keep, some .low⟩
    = -prm.lowMatch := by
  simp [editPrice, exProto, tokens, lenAt, keepPrize, List.lookup, seqSize]

/-- C48 applies to `exProto`, whose two tokens have one character each. -/
example : withoutControl exProto
      = [.tok ['a'] "n", .group [.tok ['b'] "n"] "g"] ∧ chars exProto = 2 := by
  simp [exProto, withoutControl, chars, tokens, seqSize]

example : Sensible (deriveCosts (7 / 10) 5 (1 / 2)) := C48_derived _ _ _ (by norm_num) (by norm_num)
  (by norm_num)

/-- C57, C45: `exTarget` has no control nodes. -/
example : DecisionFree exTarget := by
  simp [exTarget, decisionFree_cons, decisionFree_nil, Node.isDecision]

end Examples

end RUSure.Props
