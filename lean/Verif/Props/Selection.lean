import Verif.Lemmas.SelectionUse
import Verif.Props.Edit

/-!
# Properties of part selection DAGs: C45 (selection DAG), C50
-/

namespace RUSure.Props
open RUSure RUSure.Spec RUSure.Lemmas
variable {M : Type} [DecidableEq M]

/-- What is built when nothing fails. -/
theorem selection_built (f : SelUtility M) (proto target : List (Node M))
    (d : Dag SelState DecisionKey DecisionValue (Option SelInfo))
    (h : constructSelectionDag f (pack proto) (pack target) = .ok d) :
    (∀ i, (items 0 proto).head? ≠ some (.stop i))
      ∧ d = ⟨selInitial, goodEdges f (items 0 proto) (items 0 target), .final⟩ := by
  by_cases hs : ∃ i, (items 0 proto).head? = some (.stop i)
  · obtain ⟨i, hi⟩ := hs
    rw [constructSelectionDag_unbound f _ _ _ _ (selItems_pack proto) (selItems_pack target) hi] at h
    cases h
  · have hs : ∀ i, (items 0 proto).head? ≠ some (.stop i) := fun i hi => hs ⟨i, hi⟩
    rw [constructSelectionDag_ok f _ _ _ _ (selItems_pack proto) (selItems_pack target) hs,
      Except.ok.injEq] at h
    exact ⟨hs, h.symm⟩

/-! ### C50: what is built -/

/-- C50: building the selection DAG succeeds exactly when the prototype, apart from decorations, does
not start with the end of a region; if it does, a variable is read that was never set. -/
theorem C50_builds (f : SelUtility M) (proto target : List (Node M)) :
    ((∃ d, constructSelectionDag f (pack proto) (pack target) = .ok d)
      ↔ ∀ i, (items 0 proto).head? ≠ some (.stop i))
    ∧ (∀ i, (items 0 proto).head? = some (.stop i) →
        constructSelectionDag f (pack proto) (pack target) = .error .unbound) :=
  ⟨⟨fun ⟨d, h⟩ => (selection_built f proto target d h).1, fun h =>
    ⟨_, constructSelectionDag_ok f _ _ _ _ (selItems_pack proto) (selItems_pack target) h⟩⟩,
    fun _ hi => constructSelectionDag_unbound f _ _ _ _ (selItems_pack proto) (selItems_pack target) hi⟩

/-- C50: the complete paths of the selection DAG are exactly the ways to select parts of the
prototype, from region starts to region ends, and either to give a part up or to find all of it, in
one piece, in what is left of the target. -/
theorem C50_paths (f : SelUtility M) (proto target : List (Node M))
    (d : Dag SelState DecisionKey DecisionValue (Option SelInfo))
    (h : constructSelectionDag f (pack proto) (pack target) = .ok d) (ss : List SelStep) :
    (∃ p, DagSolution d p ∧ selectionOf p = ss)
      ↔ Selects f (items 0 proto) (items 0 target) ss := by
  obtain ⟨hn, rfl⟩ := selection_built f proto target d h
  rw [← goodEdges_reads hn]
  constructor
  · rintro ⟨p, ⟨hw, -⟩, hp⟩
    exact ⟨p, hw, hp⟩
  · rintro ⟨p, hw, hp⟩
    exact ⟨p, ⟨hw, fun e he => (goodEdges_fair (Walk.mem hw e he)).1⟩, hp⟩

/-- C50: what is reported as matched is the same in prototype and target: tokens have the same text
and type, and groups the same type. -/
theorem C50_same (f : SelUtility M) (proto target : List (Node M))
    (d : Dag SelState DecisionKey DecisionValue (Option SelInfo))
    (h : constructSelectionDag f (pack proto) (pack target) = .ok d) (p : List SelEdge)
    (hp : DagSolution d p) (i j : Nat) (hij : (i, j) ∈ (selInfos p).filterMap SelInfo.foundPair) :
    ∃ x ∈ items 0 proto, ∃ y ∈ items 0 target, Same x y ∧ (x.index, y.index) = (i, j) := by
  have hs := (C50_paths f proto target d h _).1 ⟨p, hp, rfl⟩
  rw [selInfos_eq] at hij
  obtain ⟨x, hx, hxp⟩ := List.mem_filterMap.mp hij
  obtain ⟨s, hs', hsx⟩ := List.mem_filterMap.mp hx
  exact selects_pairs hs s hs' (i, j) (by rw [hsx]; exact hxp)

/-- C50: the cost of a complete path is the total price of what it reports: the cost of selected
tokens that are given up, less the utility of selected tokens that are found. -/
theorem C50_cost (f : SelUtility M) (proto target : List (Node M))
    (d : Dag SelState DecisionKey DecisionValue (Option SelInfo))
    (h : constructSelectionDag f (pack proto) (pack target) = .ok d) (p : List SelEdge)
    (hp : DagSolution d p) :
    weight Edge.cost p = ((((selInfos p).map (selPrice f proto)).sum : ℚ) : Cost) := by
  have hs := (C50_paths f proto target d h _).1 ⟨p, hp, rfl⟩
  obtain ⟨hn, rfl⟩ := selection_built f proto target d h
  rw [selection_cost p fun e he => goodEdges_fair (Walk.mem hp.1 e he), selInfos_eq]
  exact priced_sum (selects_priced hs fun _ hx => hx)

/-! ### C50: what can be selected -/

omit [DecidableEq M] in
theorem outside_selects (f : SelUtility M) {X : List (SelItem M)} (Y : List (SelItem M))
    (h : ∀ x ∈ X, IsContent x ∨ IsMarker x) : Selects f X Y (X.map outsideStep) := by
  induction X with
  | nil => exact .done _
  | cons x X ih =>
    rw [List.forall_mem_cons] at h
    exact .skip h.1 (ih h.2)

/-- C50: nothing can be selected from a prototype with an early exit; without early exits it is
always possible to select nothing, which costs nothing. -/
theorem C50_exits (f : SelUtility M) (proto target : List (Node M))
    (d : Dag SelState DecisionKey DecisionValue (Option SelInfo))
    (h : constructSelectionDag f (pack proto) (pack target) = .ok d) :
    ((∃ p, DagSolution d p) ↔ ¬ Occurs proto .exit)
    ∧ (¬ Occurs proto .exit → ∃ p, DagSolution d p ∧ weight Edge.cost p = 0
        ∧ ∀ k v, (k, v) ∈ selDecisions p → v ≠ .yes) := by
  have hc : ¬ Occurs proto .exit → ∃ p, DagSolution d p ∧ weight Edge.cost p = 0
      ∧ ∀ k v, (k, v) ∈ selDecisions p → v ≠ .yes := by
    intro hx
    have hx := (plain_items proto 0).2 hx
    obtain ⟨p, hp, hps⟩ := (C50_paths f proto target d h _).2 (outside_selects f _ hx)
    refine ⟨p, hp, ?_, ?_⟩
    · obtain ⟨hn, rfl⟩ := selection_built f proto target d h
      rw [selection_cost p fun e he => goodEdges_fair (Walk.mem hp.1 e he), hps]
      simp only [List.map_map, Function.comp_def, outsideStep]
      generalize items 0 proto = X
      induction X with
      | nil => rfl
      | cons x X ih => rw [List.map_cons, List.sum_cons, ih, add_zero]
    · intro k v hkv hv
      rw [selDecisions_eq, hps] at hkv
      obtain ⟨s, hs, hsd⟩ := List.mem_filterMap.mp hkv
      obtain ⟨x, -, rfl⟩ := List.mem_map.mp hs
      subst hv
      cases x <;> simp [outsideStep, outsideDecision] at hsd
  refine ⟨⟨?_, fun hx => ?_⟩, hc⟩
  · rintro ⟨p, hp⟩
    rw [← plain_items proto 0]
    exact selects_plain ((C50_paths f proto target d h _).1 ⟨p, hp, rfl⟩)
  · obtain ⟨p, hp, -⟩ := hc hx
    exact ⟨p, hp⟩

/-- C50: for a prototype without early exits, whatever decisions the constraint DAG allows can be made
in the selection DAG, for any target. -/
theorem C50_decisions (f : SelUtility M) (proto target : List (Node M)) (hx : ¬ Occurs proto .exit)
    (d : Dag SelState DecisionKey DecisionValue (Option SelInfo))
    (h : constructSelectionDag f (pack proto) (pack target) = .ok d)
    (dc : Dag ConstraintState DecisionKey DecisionValue Bool)
    (hc : constructConstraintDag proto = .ok dc) (q) (hq : DagSolution dc q) :
    ∃ p, DagSolution d p ∧ selDecisions p = q.flatMap fun e => e.req.toList := by
  obtain ⟨x, hr⟩ := (C42_grammar proto dc hc _).1 ⟨q, hq, rfl⟩
  have h1 := regionSeq_selects (f := f) hr ((plain_items proto 0).2 hx)
  simp only [Bool.false_eq_true, ↓reduceIte] at h1
  obtain ⟨ss, h2, h3⟩ := h1 [] (items 0 target) [] (.done _)
  rw [List.append_nil, List.append_nil] at h3
  obtain ⟨p, hp, hps⟩ := (C50_paths f proto target d h _).2 h3
  exact ⟨p, hp, by rw [selDecisions_eq, hps, h2]⟩

/-- C50: so every assignment that describes well-formed regions is the assignment of some complete
path. -/
theorem C50_feasible (f : SelUtility M) (proto target : List (Node M)) (hx : ¬ Occurs proto .exit)
    (d : Dag SelState DecisionKey DecisionValue (Option SelInfo))
    (h : constructSelectionDag f (pack proto) (pack target) = .ok d)
    (α : DecisionKey → DecisionValue) (hα : WellFormedRegions α proto) :
    Accepts d (seqKeys 0 proto) α := by
  obtain ⟨dc, hc⟩ := C42_builds proto
  obtain ⟨q, hq, hqα⟩ := (C42_accepts proto dc hc α).2 hα
  obtain ⟨p, hp, hpd⟩ := C50_decisions f proto target hx d h dc hc q hq
  refine ⟨p, hp, fun k hk => ?_⟩
  rw [hqα k hk, valueOn_lookup, valueOn_lookup]
  rw [show (p.flatMap fun e => e.req.toList) = _ from hpd]

/-! ### C45: selection DAGs can be packed -/

/-- C45 (selection DAG): edges are listed in topological order, without self loops; and the keys of
every solution are the decisions there are for the prototype, in increasing order. -/
theorem C45_selection (f : SelUtility M) (proto target : List (Node M))
    (d : Dag SelState DecisionKey DecisionValue (Option SelInfo))
    (h : constructSelectionDag f (pack proto) (pack target) = .ok d) :
    Topo Edge.source Edge.dest d.edges
    ∧ ∀ p, DagSolution d p → (assignedKeys p).Pairwise (· < ·)
        ∧ assignedKeys p = seqKeys 0 proto := by
  have h' := (selection_built f proto target d h).2
  refine ⟨by rw [h']; exact goodEdges_topo f _ _, fun p hp => ?_⟩
  have hs := (C50_paths f proto target d h _).1 ⟨p, hp, rfl⟩
  have hk : assignedKeys p = seqKeys 0 proto := by
    rw [assignedKeys_eq, ← items_keys, ← selects_keys hs]
    exact congrArg _ (selDecisions_eq p)
  exact ⟨by rw [hk]; exact seqKeys_sorted proto 0, hk⟩

/-- C45 (selection DAG): for prototypes without early exits, packing the pruned selection DAG never
fails, and its variables are the decisions there are for the prototype, in increasing order. -/
theorem C45_selection_packs (f : SelUtility M) (proto target : List (Node M))
    (hx : ¬ Occurs proto .exit) (d : Dag SelState DecisionKey DecisionValue (Option SelInfo))
    (h : constructSelectionDag f (pack proto) (pack target) = .ok d) :
    (∃ c, d.prune.convert .na (some [.no, .yes, .na]) = .ok c)
    ∧ ∀ c, d.prune.convert .na (some [.no, .yes, .na]) = .ok c → c.keys = seqKeys 0 proto := by
  obtain ⟨ht, hk⟩ := C45_selection f proto target d h
  obtain ⟨p, hp⟩ := (C50_exits f proto target d h).1.2 hx
  refine packs_keys d proto ht ?_ (fun p hp => ⟨(hk p hp).1, fun k hk' => (hk p hp).2 ▸ hk'⟩) hp
    (hk p hp).2
  rw [(selection_built f proto target d h).2]
  simp [selInitial]

/-! ### Examples -/

section Examples

/-- `a`, then a region with `b` and a group with `c`. -/
def selProto : List (Node String) :=
  [.tok ['a'] "n", .rstart, .tok ['b'] "n", .group [.tok ['c'] "n"] "g", .rend]

/-- `x`, `b`, then a group with `c`. -/
def selTgt : List (Node String) :=
  [.tok ['x'] "n", .tok ['b'] "n", .group [.tok ['c'] "n"] "g"]

def selF : SelUtility String := ⟨fun t _ => t.length, fun t _ => 2 * t.length⟩

theorem selProto_items : items 0 selProto = [.tok 0 ['a'] "n", .start 1, .tok 2 ['b'] "n",
    .opens 3 "g", .tok 4 ['c'] "n", .closes 3 "g", .stop 5] := by
  simp [selProto, items, seqSize, nodeSize]

theorem selTgt_items : items 0 selTgt = [.tok 0 ['x'] "n", .tok 1 ['b'] "n", .opens 2 "g",
    .tok 3 ['c'] "n", .closes 2 "g"] := by
  simp [selTgt, items]

/-- The steps of finding the region after `x`. -/
def selSteps : List SelStep :=
  [outsideStep (.tok 0 ['a'] "n" : SelItem String), regionBegins 1,
    Spec.passStep (.tok 0 ['x'] "n" : SelItem String),
    foundStep selF (.tok 2 ['b'] "n") (.tok 1 ['b'] "n"),
    foundStep selF (.opens 3 "g") (.opens 2 "g"), foundStep selF (.tok 4 ['c'] "n") (.tok 3 ['c'] "n"),
    foundStep selF (.closes 3 "g") (.closes 2 "g"), regionEnds 5]

theorem selSteps_selects : Selects selF (items 0 selProto) (items 0 selTgt) selSteps := by
  rw [selProto_items, selTgt_items]
  refine .skip (.inl (.tok ..)) ?_
  exact .found (f := selF) (skipped := [.tok 0 ['x'] "n"]) (ys := []) (by simp [IsContent.tok])
    ⟨_, rfl, .tok ..⟩ (.item (.tok ..) (.item (.opens ..) (.item (.tok ..) (.item (.closes ..) .nil))))
    (.done _)

theorem selBuilds : ∃ d, constructSelectionDag selF (pack selProto) (pack selTgt) = .ok d :=
  (C50_builds selF selProto selTgt).1.2 fun i => by rw [selProto_items]; simp

/-- C50 is not vacuous: there is a path that selects the region and finds it in the target, which is
worth 2. -/
example : ∃ d p, constructSelectionDag selF (pack selProto) (pack selTgt) = .ok d ∧ DagSolution d p
    ∧ (selInfos p).filterMap SelInfo.foundPair = [(2, 1), (3, 2), (4, 3), (3, 2)]
    ∧ weight Edge.cost p = ((-2 : ℚ) : Cost) := by
  obtain ⟨d, h⟩ := selBuilds
  obtain ⟨p, hp, hps⟩ := (C50_paths selF selProto selTgt d h _).2 selSteps_selects
  refine ⟨d, p, h, hp, ?_, ?_⟩
  · rw [selInfos_eq, hps]
    rfl
  · rw [C50_cost selF selProto selTgt d h p hp, selInfos_eq, hps]
    congr 1
    simp [sinfos, selSteps, outsideStep, regionBegins, regionEnds, Spec.passStep, foundStep, SelItem.index,
      selPrice, selProto, tokens, List.lookup, seqSize, nodeSize, selF]
    norm_num

/-- C50, C45: the prototype has no early exits. -/
example : ¬ Occurs selProto .exit := by
  rw [← plain_items selProto 0, selProto_items]
  simp [IsContent.tok, IsContent.opens, IsContent.closes, IsMarker.start, IsMarker.stop]

/-- C50: a prototype that starts with the end of a region is not accepted. -/
example : constructSelectionDag selF (pack [.rend, .tok ['a'] "n"]) (pack selTgt)
    = .error .unbound :=
  (C50_builds selF _ selTgt).2 0 (by simp [items])

/-- C50: a prototype with an early exit has no selections. -/
example : ∃ d, constructSelectionDag selF (pack [.tok ['a'] "n", .exit]) (pack selTgt) = .ok d
    ∧ ¬ ∃ p, DagSolution d p := by
  obtain ⟨d, h⟩ := (C50_builds selF [.tok ['a'] "n", .exit] selTgt).1.2 (by simp [items])
  refine ⟨d, h, fun hp => (C50_exits selF _ selTgt d h).1.1 hp ⟨[1], rfl⟩⟩

end Examples

end RUSure.Props
