import Verif.Lemmas.SystemBuild
import Verif.Lemmas.GreedyGuard

/-!
# The systems built from a prototype and targets: joint solutions and their costs
-/

namespace RUSure.Lemmas
open RUSure RUSure.Spec RUSure.Props

/-! ## The best path for given decisions -/

section
variable {S I : Type} [DecidableEq S]

/-- The index of a value. -/
def valueIndex (x : DecisionValue) : Nat := allValues.idxOf x

theorem valueIndex_get (x : DecisionValue) : allValues[valueIndex x]? = some x := by
  cases x <;> rfl

theorem map_mul_lt {s : ℚ} (hs : 0 < s) {x y : Cost} (h : x.map (· * s) ≤ y.map (· * s)) : x ≤ y :=
  (scaleCost_le s hs x y).1 h

/-- Numbers for the decisions. -/
def indexPairs (keys : List DecisionKey) (α : DecisionKey → DecisionValue) : List (Nat × Nat) :=
  keys.zipIdx.map fun x => (x.2, valueIndex (α x.1))

theorem indexPairs_fst (keys : List DecisionKey) (α : DecisionKey → DecisionValue) :
    (indexPairs keys α).map Prod.fst = List.range keys.length := by
  unfold indexPairs
  rw [List.map_map]
  change keys.zipIdx.map Prod.snd = _
  rw [List.zipIdx_map_snd, List.range_eq_range']

theorem mem_indexPairs {keys : List DecisionKey} {α : DecisionKey → DecisionValue} {v y : Nat} :
    (v, y) ∈ indexPairs keys α ↔ ∃ k, keys[v]? = some k ∧ y = valueIndex (α k) := by
  unfold indexPairs
  simp only [List.mem_map, Prod.mk.injEq, Prod.exists, List.mem_zipIdx_iff_getElem?]
  constructor
  · rintro ⟨k, i, h, rfl, rfl⟩; exact ⟨k, h, rfl⟩
  · rintro ⟨k, h, rfl⟩; exact ⟨k, v, h, rfl, rfl⟩

/-- The best path of a packed and scaled DAG under all decisions is a cheapest solution of the DAG
that makes these decisions. -/
theorem part_best {d : Dag S DecisionKey DecisionValue I}
    (ht : Topo Edge.source Edge.dest d.edges) {c : Conversion S DecisionKey DecisionValue}
    (h : d.prune.convert .na (some allValues) = .ok c) {s : ℚ} (hs : 0 < s) (invalid : Cost)
    {α : DecisionKey → DecisionValue} (hex : ∃ w, PathFor d c.keys α w) :
    ∃ q asg, (c.packed.scale s).constrainedBestPath invalid (indexPairs c.keys α) = some (q, asg)
      ∧ asg = indexPairs c.keys α
      ∧ PathFor d c.keys α (c.originalPath d.prune q)
      ∧ ∀ w, PathFor d c.keys α w →
        weight Edge.cost (c.originalPath d.prune q) ≤ weight Edge.cost w := by
  have htp := prune_topo d ht
  obtain ⟨wf, hkn, hsort, -, -⟩ := C27_convert d.prune htp _ _ c h
  obtain ⟨wfs, -, hk', hv', -⟩ := C34_scale_paths c.packed wf s hs
  set a : Nat → Nat := fun v => ((c.keys[v]?).map fun k => valueIndex (α k)).getD 0 with ha
  have hα : ∀ v k, c.keys[v]? = some k → allValues[a v]? = some (α k) := by
    intro v k hvk
    rw [ha]; dsimp only
    rw [hvk]
    exact valueIndex_get _
  -- agreement with the constraints
  have hagree : ∀ q, Complete (c.packed.scale s) q →
      ((∀ kv ∈ indexPairs c.keys α, kv ∈ assignments q)
        ↔ ∀ v y, (v, y) ∈ assignments q → y = a v) := by
    intro q hq
    constructor
    · intro hall v y hvy
      have hvlt : v < c.keys.length := by
        have h1 := complete_keys wfs hq
        have : v ∈ (assignments q).map Prod.fst := List.mem_map.2 ⟨_, hvy, rfl⟩
        rw [h1, hk', hkn] at this
        simpa using this
      have hmem := hall (v, a v) (mem_indexPairs.2 ⟨c.keys[v], by simp, by
        rw [ha]; dsimp only; rw [List.getElem?_eq_getElem hvlt]; rfl⟩)
      exact complete_unique wfs hq hvy hmem
    · rintro hall ⟨v, y⟩ hvy
      obtain ⟨k, hvk, rfl⟩ := mem_indexPairs.1 hvy
      have hvlt : v < (c.packed.scale s).numKeys := by
        rw [hk', hkn]; exact (List.getElem?_eq_some_iff.1 hvk).1
      obtain ⟨x, -, hx⟩ := complete_value wfs hq hvlt
      have := hall v x hx
      rw [ha] at this; dsimp only at this
      rw [hvk] at this
      rw [this] at hx
      exact hx
  have hpp := fun x => part_paths ht h hs hα x
  obtain ⟨w0, hw0⟩ := hex
  have hw0f : weight Edge.cost w0 < ⊤ := by
    unfold weight
    rw [sum_lt_top, List.forall_mem_map]
    exact hw0.1.2
  obtain ⟨q0, g1, g2, g3⟩ := (hpp _).2 ⟨w0, hw0, rfl⟩
  have hfin : plainCost q0 < ⊤ := by
    change weight PackedEdge.cost q0 < ⊤
    rw [g3]
    obtain ⟨r, hr⟩ := WithTop.ne_top_iff_exists.1 hw0f.ne
    rw [← hr]
    exact WithTop.coe_lt_top _
  obtain ⟨q, asg, r1, r2, r3, r4, r5, r6⟩ := C33_constrained (c.packed.scale s) wfs invalid
    (indexPairs c.keys α) (by rw [indexPairs_fst]; exact List.nodup_range) (by
      rintro ⟨v, y⟩ hvy
      obtain ⟨k, hvk, -⟩ := mem_indexPairs.1 hvy
      rw [hk', hkn]; exact (List.getElem?_eq_some_iff.1 hvk).1) ⟨q0, g1, (hagree _ g1).2 g2, hfin⟩
  subst r4
  -- the same path in the packed DAG before scaling
  obtain ⟨q', hq', hqs⟩ : ∃ q' : List (Nat × PackedEdge), IndexedPath c.packed q'
      ∧ q = q'.map fun o => (o.1, scaleEdge s o.2) := by
    clear r1 r3 r5 r6
    induction q with
    | nil => exact ⟨[], by intro o ho; simp at ho, rfl⟩
    | cons o q ih =>
      obtain ⟨q', h1, h2⟩ := ih (fun o' ho' => r2 o' (List.mem_cons_of_mem _ ho'))
      have ho := r2 o (by simp)
      change (c.packed.edges.map (scaleEdge s))[o.1]? = some o.2 at ho
      rw [List.getElem?_map, Option.map_eq_some_iff] at ho
      obtain ⟨e, he, he'⟩ := ho
      refine ⟨(o.1, e) :: q', ?_, ?_⟩
      · intro o' ho'
        rcases List.mem_cons.1 ho' with rfl | ho'
        · exact he
        · exact h1 o' ho'
      · rw [h2, List.map_cons, he']
  have hsnd : q.map Prod.snd = (q'.map Prod.snd).map (scaleEdge s) := by
    rw [hqs]; simp
  have horig : c.originalPath d.prune q = c.originalPath d.prune q' := by
    rw [hqs]
    unfold Conversion.originalPath
    rw [List.filterMap_map]
    rfl
  have hcq : Complete c.packed (q'.map Prod.snd) := by
    obtain ⟨p, hp1, hp2⟩ := walk_unmap (scaleEdge s) (fun _ => rfl) (fun _ => rfl) r3
    rw [hsnd] at hp1
    have : q'.map Prod.snd = p :=
      List.map_injective_iff.2 (fun _ _ he => scaleEdge_inj s hs he) hp1
    rw [this]; exact hp2
  obtain ⟨b1, b2, -, -⟩ := C26_backward d.prune htp _ _ c h q' hq' hcq
  have hra := (hagree _ r3).1 r5
  have hasg : assignments (q.map Prod.snd) = assignments (q'.map Prod.snd) := by
    rw [hsnd]
    unfold assignments
    rw [List.filterMap_map]
    rfl
  have hcost : weight PackedEdge.cost (q.map Prod.snd)
      = (weight Edge.cost (c.originalPath d.prune q')).map (· * s) := by
    rw [← b2, hsnd]
    change plainCost _ = (plainCost _).map _
    rw [plainCost_eq, plainCost_eq, scale_pathCost]
    rfl
  refine ⟨q, _, r1, ?_, ⟨?_, ?_⟩, ?_⟩
  · have h1 := complete_keys wfs r3
    have h2 : ∀ kv ∈ assignments (q.map Prod.snd), kv = (kv.1, a kv.1) := by
      rintro ⟨v, y⟩ hvy
      rw [hra v y hvy]
    have h3 : assignments (q.map Prod.snd)
        = ((assignments (q.map Prod.snd)).map Prod.fst).map fun v => (v, a v) := by
      rw [List.map_map]
      conv_lhs => rw [← List.map_id (assignments (q.map Prod.snd))]
      exact List.map_congr_left h2
    have h4 : ∀ kv ∈ indexPairs c.keys α, kv = (kv.1, a kv.1) := by
      rintro ⟨v, y⟩ hvy
      obtain ⟨k, hvk, rfl⟩ := mem_indexPairs.1 hvy
      rw [ha]; dsimp only
      rw [hvk]; rfl
    have h5 : indexPairs c.keys α = ((indexPairs c.keys α).map Prod.fst).map fun v => (v, a v) := by
      rw [List.map_map]
      conv_lhs => rw [← List.map_id (indexPairs c.keys α)]
      exact List.map_congr_left h4
    rw [h3, h5, h1, indexPairs_fst, hk', hkn]
  · rw [horig]
    exact (C23_solutions d ht.1 _).1 b1
  · rw [horig]
    refine (part_values ht h hα q' hq' hcq).1 ?_
    rw [← hasg]; exact hra
  · intro w hw
    obtain ⟨qw, e1, e2, e3⟩ := (hpp _).2 ⟨w, hw, rfl⟩
    have h1 := r6 qw e1 ((hagree _ e1).2 e2)
    change weight PackedEdge.cost _ ≤ weight PackedEdge.cost _ at h1
    rw [hcost, e3] at h1
    rw [horig]
    exact map_mul_lt hs h1

end

/-! ## What is built -/

section
variable {T E S I M : Type} [DecidableEq S]

theorem forall₂_mem_right' {A B : Type} {R : A → B → Prop} {l : List A} {l' : List B}
    (h : List.Forall₂ R l l') {b : B} (hb : b ∈ l') : ∃ a ∈ l, R a b := by
  induction h with
  | nil => simp at hb
  | cons h1 _ ih =>
    rcases List.mem_cons.1 hb with rfl | hb
    · exact ⟨_, by simp, h1⟩
    · obtain ⟨a, ha, hr⟩ := ih hb
      exact ⟨a, List.mem_cons_of_mem _ ha, hr⟩

/-- What building a system needs of the utility DAG of a target. -/
structure GoodUtility (proto : List (Node M)) (d : Dag S DecisionKey DecisionValue I) : Prop where
  topo : Topo Edge.source Edge.dest d.edges
  packs : ∃ c, d.prune.convert .na (some allValues) = .ok c
  keys : ∀ c, d.prune.convert .na (some allValues) = .ok c → c.keys = seqKeys 0 proto
  serves : ∀ α, WellFormedRegions α proto → ∃ w, PathFor d (seqKeys 0 proto) α w

/-- The parts of the system are the packed DAGs of the targets. -/
def PartOf (make : T → Except E (Dag S DecisionKey DecisionValue I)) (ts : T × ℚ) (p : Part S I) :
    Prop :=
  ∃ d c, make ts.1 = .ok d ∧ d.prune.convert .na (some allValues) = .ok c ∧ p = ⟨d.prune, c, ts.2⟩

theorem utilityParts_inv {make : T → Except E (Dag S DecisionKey DecisionValue I)} :
    ∀ (l : List (T × ℚ)) (ps : List (Part S I)), utilityParts make l = .ok ps →
      List.Forall₂ (PartOf make) l ps := by
  intro l
  induction l with
  | nil =>
    intro ps h
    simp only [utilityParts, Except.ok.injEq] at h
    subst h; exact .nil
  | cons ts l ih =>
    obtain ⟨t, s⟩ := ts
    intro ps h
    unfold utilityParts at h
    split at h
    · cases h
    rename_i d hd
    split at h
    · cases h
    rename_i p hp
    split at h
    · cases h
    rename_i ps' hps
    injection h with h
    subst h
    obtain ⟨c, hc, rfl⟩ := packPart_ok hp
    exact .cons ⟨d, c, hd, hc, rfl⟩ (ih _ hps)

theorem utilityParts_total {make : T → Except E (Dag S DecisionKey DecisionValue I)}
    {proto : List (Node M)} :
    ∀ (l : List (T × ℚ)), (∀ ts ∈ l, ∃ d, make ts.1 = .ok d ∧ GoodUtility proto d) →
      ∃ ps, utilityParts make l = .ok ps := by
  intro l
  induction l with
  | nil => intro _; exact ⟨[], rfl⟩
  | cons ts l ih =>
    obtain ⟨t, s⟩ := ts
    intro h
    obtain ⟨d, hd, hg⟩ := h (t, s) (by simp)
    obtain ⟨c, hc⟩ := hg.packs
    obtain ⟨ps, hps⟩ := ih fun ts hts => h ts (List.mem_cons_of_mem _ hts)
    refine ⟨⟨d.prune, c, s⟩ :: ps, ?_⟩
    have hp : packPart (E := E) d s = .ok ⟨d.prune, c, s⟩ := by
      unfold packPart
      rw [hc]
    simp only at hd
    simp only [utilityParts, hd, hp, hps]

/-- A system built of good utility DAGs with positive factors. -/
structure Built (invalid : Cost) (make : T → Except E (Dag S DecisionKey DecisionValue I))
    (proto : List (Node M)) (l : List (T × ℚ)) (total : ℚ) (B : BuiltSystem S I) : Prop where
  pos : ∀ ts ∈ l, 0 < ts.2
  total_pos : 0 < total
  good : ∀ ts ∈ l, ∀ d, make ts.1 = .ok d → GoodUtility proto d
  parts : List.Forall₂ (PartOf make) l B.utilities
  constraint : ∃ dc cc, constructConstraintDag proto = .ok dc
    ∧ dc.prune.convert .na (some allValues) = .ok cc ∧ B.constraint = ⟨dc.prune, cc, total⟩
  system : makeSystem invalid (B.utilities.map Part.entry ++ [B.constraint.entry])
    (some (B.utilities.map Part.scale ++ [total])) = .ok B.system

theorem scaleFactors_ok {targets : List T} {factors : Option (List ℚ)}
    (hf : GoodFactors targets factors) :
    scaleFactors (E := E) targets.length factors = .ok (targetWeights targets.length factors)
    ∧ (∀ s ∈ targetWeights targets.length factors, 0 < s)
    ∧ 0 < (targetWeights targets.length factors).sum := by
  have hsum : ∀ l : List ℚ, l ≠ [] → (∀ s ∈ l, 0 < s) → 0 < l.sum := by
    intro l hl h
    cases l with
    | nil => exact absurd rfl hl
    | cons s l =>
      rw [List.sum_cons]
      exact add_pos_of_pos_of_nonneg (h s (by simp))
        (List.sum_nonneg fun x hx => (h x (List.mem_cons_of_mem _ hx)).le)
  cases factors with
  | none =>
    have hne : targets.length ≠ 0 := fun hc => hf.1 rfl (List.length_eq_zero_iff.1 hc)
    have hp : ∀ s ∈ targetWeights targets.length none, (0 : ℚ) < s := by
      intro s hs
      simp only [targetWeights, Option.getD_none, List.mem_replicate] at hs
      rw [hs.2]
      exact one_div_pos.2 (by exact_mod_cast Nat.pos_of_ne_zero hne)
    refine ⟨?_, hp, hsum _ ?_ hp⟩
    · simp only [scaleFactors, if_neg hne]; rfl
    · simp [targetWeights, hne]
  | some fs =>
    obtain ⟨h1, h2⟩ := hf.2 fs rfl
    exact ⟨rfl, h2, hsum _ h1 h2⟩

theorem built_of {invalid : Cost} {make : T → Except E (Dag S DecisionKey DecisionValue I)}
    {proto : List (Node M)} {targets : List T} {factors : Option (List ℚ)} {B : BuiltSystem S I}
    (hf : GoodFactors targets factors)
    (hg : ∀ t ∈ targets, ∀ d, make t = .ok d → GoodUtility proto d)
    (h : buildSystem invalid make proto targets factors = .ok B) :
    Built invalid make proto (targets.zip (targetWeights targets.length factors))
      (targetWeights targets.length factors).sum B := by
  obtain ⟨h1, h2, h3⟩ := scaleFactors_ok (E := E) hf
  unfold buildSystem at h
  rw [h1] at h
  dsimp only at h
  split at h
  · cases h
  rename_i ps hps
  split at h
  · cases h
  rename_i dc hdc
  split at h
  · cases h
  rename_i pc hpc
  split at h
  · cases h
  rename_i D hD
  injection h with h
  subst h
  obtain ⟨cc, hcc, rfl⟩ := packPart_ok hpc
  refine ⟨fun ts hts => h2 _ (List.of_mem_zip (a := ts.1) (b := ts.2) hts).2, h3,
    fun ts hts => hg _ (List.of_mem_zip (a := ts.1) (b := ts.2) hts).1,
    utilityParts_inv _ _ hps, ⟨dc, cc, hdc, hcc, rfl⟩, hD⟩

theorem buildSystem_total {invalid : Cost}
    {make : T → Except E (Dag S DecisionKey DecisionValue I)}
    {proto : List (Node M)} {targets : List T} {factors : Option (List ℚ)}
    (hf : GoodFactors targets factors)
    (hg : ∀ t ∈ targets, ∃ d, make t = .ok d ∧ GoodUtility proto d) :
    ∃ B, buildSystem invalid make proto targets factors = .ok B := by
  obtain ⟨h1, h2, h3⟩ := scaleFactors_ok (E := E) hf
  obtain ⟨ps, hps⟩ := utilityParts_total (proto := proto) (make := make)
    (targets.zip (targetWeights targets.length factors))
    (fun ts hts => hg _ (List.of_mem_zip (a := ts.1) (b := ts.2) hts).1)
  obtain ⟨dc, hdc⟩ := C42_builds proto
  obtain ⟨⟨cc, hcc⟩, -⟩ := C45_constraint_packs proto dc hdc
  have hpc : packPart (E := E) dc (targetWeights targets.length factors).sum
      = .ok ⟨dc.prune, cc, (targetWeights targets.length factors).sum⟩ := by
    unfold packPart; rw [hcc]
  have hvals : ∀ e ∈ ps.map Part.entry
      ++ [(⟨dc.prune, cc, (targetWeights targets.length factors).sum⟩ :
        Part ConstraintState Bool).entry], e.2.2 = allValues := by
    have hparts := utilityParts_inv _ _ hps
    intro e he
    rcases List.mem_append.1 he with he | he
    · obtain ⟨p, hp, rfl⟩ := List.mem_map.1 he
      obtain ⟨ts, hts, d, c, hd, hc, rfl⟩ := forall₂_mem_right' hparts hp
      obtain ⟨d', hd', hg'⟩ := hg _ (List.of_mem_zip (a := ts.1) (b := ts.2) hts).1
      rw [hd] at hd'
      obtain rfl := Except.ok.inj hd'
      exact (convert_values (prune_topo d hg'.topo) hc).1
    · simp only [List.mem_singleton] at he
      subst he
      exact (convert_values (prune_topo dc (C45_constraint proto dc hdc).1) hcc).1
  have hsys : ∃ D, makeSystem invalid (ps.map Part.entry
      ++ [(⟨dc.prune, cc, (targetWeights targets.length factors).sum⟩ :
        Part ConstraintState Bool).entry])
      (some (ps.map Part.scale ++ [(targetWeights targets.length factors).sum])) = .ok D := by
    obtain ⟨e1, e2⟩ := C35_errors invalid (ps.map Part.entry
      ++ [(⟨dc.prune, cc, (targetWeights targets.length factors).sum⟩ :
        Part ConstraintState Bool).entry])
      (some (ps.map Part.scale ++ [(targetWeights targets.length factors).sum]))
    cases hr : makeSystem invalid (ps.map Part.entry
      ++ [(⟨dc.prune, cc, (targetWeights targets.length factors).sum⟩ :
        Part ConstraintState Bool).entry])
      (some (ps.map Part.scale ++ [(targetWeights targets.length factors).sum])) with
    | ok D => exact ⟨D, rfl⟩
    | error e =>
      cases e with
      | noDags => exact absurd (e1.1 hr) (by simp)
      | valuesDiffer =>
        obtain ⟨e, he, e', he', hne⟩ := e2.1 hr
        exact absurd ((hvals e he).trans (hvals e' he').symm) hne
  obtain ⟨D, hD⟩ := hsys
  refine ⟨⟨D, ps, ⟨dc.prune, cc, (targetWeights targets.length factors).sum⟩⟩, ?_⟩
  unfold buildSystem
  rw [h1]; dsimp only
  rw [hps]; dsimp only
  rw [hdc]; dsimp only
  rw [hpc]; dsimp only
  rw [hD]

/-! ## Joint solutions -/

theorem Built.entries {invalid : Cost} {make : T → Except E (Dag S DecisionKey DecisionValue I)}
    {proto : List (Node M)} {l : List (T × ℚ)} {total : ℚ} {B : BuiltSystem S I}
    (h : Built invalid make proto l total B) :
    ∀ e ∈ B.utilities.map Part.entry ++ [B.constraint.entry],
      GoodDag e ∧ e.2.1 = seqKeys 0 proto ∧ e.2.2 = allValues := by
  intro e he
  rcases List.mem_append.1 he with he | he
  · obtain ⟨p, hp, rfl⟩ := List.mem_map.1 he
    obtain ⟨ts, hts, d, c, hd, hc, rfl⟩ := forall₂_mem_right' h.parts hp
    have hg := h.good ts hts d hd
    exact ⟨part_good hg.topo hc (h.pos ts hts), hg.keys c hc,
      (convert_values (prune_topo d hg.topo) hc).1⟩
  · simp only [List.mem_singleton] at he
    subst he
    obtain ⟨dc, cc, h1, h2, h3⟩ := h.constraint
    rw [h3]
    have ht := (C45_constraint proto dc h1).1
    exact ⟨part_good ht h2 h.total_pos, (C45_constraint_packs proto dc h1).2 cc h2,
      (convert_values (prune_topo dc ht) h2).1⟩

theorem Built.weights {invalid : Cost} {make : T → Except E (Dag S DecisionKey DecisionValue I)}
    {proto : List (Node M)} {l : List (T × ℚ)} {total : ℚ} {B : BuiltSystem S I}
    (h : Built invalid make proto l total B) :
    GoodWeights (B.utilities.map Part.entry ++ [B.constraint.entry]).length
      (some (B.utilities.map Part.scale ++ [total])) := by
  rintro w hw
  obtain rfl := Option.some.inj hw
  refine ⟨by simp, ?_⟩
  intro q hq
  rcases List.mem_append.1 hq with hq | hq
  · obtain ⟨p, hp, rfl⟩ := List.mem_map.1 hq
    obtain ⟨ts, hts, d, c, hd, hc, rfl⟩ := forall₂_mem_right' h.parts hp
    exact h.pos ts hts
  · simp only [List.mem_singleton] at hq
    rw [hq]; exact h.total_pos

theorem Built.keys {invalid : Cost} {make : T → Except E (Dag S DecisionKey DecisionValue I)}
    {proto : List (Node M)} {l : List (T × ℚ)} {total : ℚ} {B : BuiltSystem S I}
    (h : Built invalid make proto l total B) :
    B.system.keys = seqKeys 0 proto ∧ B.system.values = allValues
    ∧ B.system.data.numKeys = (seqKeys 0 proto).length ∧ B.system.data.numValues = 3
    ∧ ∀ v x, B.system.data.extra v x = 0 := by
  obtain ⟨h1, h2, h3, h4, h5, h6, -⟩ := C35_make_system invalid _ _ _ h.system
    (fun d hd => (h.entries d hd).1)
  have hc : B.constraint.entry ∈ B.utilities.map Part.entry ++ [B.constraint.entry] := by simp
  have hk : B.system.keys = seqKeys 0 proto := by
    have hm : ∀ k, k ∈ B.system.keys ↔ k ∈ seqKeys 0 proto := by
      intro k
      rw [h2]
      constructor
      · rintro ⟨d, hd, hk⟩
        rwa [(h.entries d hd).2.1] at hk
      · intro hk
        exact ⟨_, hc, by rw [(h.entries _ hc).2.1]; exact hk⟩
    have n1 : B.system.keys.Nodup := h1.imp fun h => ne_of_lt h
    have n2 : (seqKeys 0 proto).Nodup := (seqKeys_sorted proto 0).imp fun h => ne_of_lt h
    exact ((List.perm_ext_iff_of_nodup n1 n2).2 hm).eq_of_pairwise
      (fun a b _ _ h h' => absurd h (lt_asymm h')) h1 (seqKeys_sorted proto 0)
  have hv : B.system.values = allValues := by
    rw [← h3 _ hc]; exact (h.entries _ hc).2.2
  exact ⟨hk, hv, by rw [h4, hk], by rw [h5, hv]; rfl, h6⟩

theorem solver_reach {K V : Type} {_ : DecidableEq K} {_ : DecidableEq V} {D D' : DualSystem K V}
    (hr : SolverReach D D') : SystemReach D D' := by
  induction hr with
  | start => exact .start
  | average _ hv he ih => exact .average ih hv he
  | minMarginals _ hv he ih => exact .minMarginals ih hv he
  | solve _ he ih => exact .solve ih he

theorem solver_same {K V : Type} [LinearOrder K] [DecidableEq V] {D D' : DualSystem K V}
    (h : DInv D) (hr : SolverReach D D') :
    D'.keys = D.keys ∧ D'.values = D.values ∧ SameProblem D.data D'.data := by
  induction hr with
  | start => exact ⟨rfl, rfl, .refl _⟩
  | average hr hv he ih =>
    exact ⟨ih.1, ih.2.1, ih.2.2.trans (average_same (reach_inv h (solver_reach hr)).sys hv he)⟩
  | minMarginals hr hv he ih =>
    exact ⟨ih.1, ih.2.1, ih.2.2.trans (minMarginals_same (reach_inv h (solver_reach hr)).sys he)⟩
  | solve hr he ih =>
    exact ⟨ih.1, ih.2.1, ih.2.2.trans (solve_inv (reach_inv h (solver_reach hr)).sys he).1.same⟩

/-- A total of scaled costs. -/
def CostTotal (P : T → Cost → Prop) : List (T × ℚ) → Cost → Prop
  | [], x => x = 0
  | (t, s) :: r, x => ∃ c y, P t c ∧ CostTotal P r y ∧ x = c.map (· * s) + y

/-- The costs of the paths of a target that make the decisions `α`. -/
def PathPrice (make : T → Except E (Dag S DecisionKey DecisionValue I)) (keys : List DecisionKey)
    (α : DecisionKey → DecisionValue) (t : T) (c : Cost) : Prop :=
  ∃ d w, make t = .ok d ∧ PathFor d keys α w ∧ c = weight Edge.cost w

theorem parts_joint {make : T → Except E (Dag S DecisionKey DecisionValue I)}
    {proto : List (Node M)} {a : Nat → Nat} {α : DecisionKey → DecisionValue}
    (hα : ∀ v k, (seqKeys 0 proto)[v]? = some k → allValues[a v]? = some (α k))
    (ec : PackedDag × List DecisionKey × List DecisionValue)
    {l : List (T × ℚ)} {ps : List (Part S I)}
    (hp : List.Forall₂ (PartOf make) l ps) (hpos : ∀ ts ∈ l, 0 < ts.2)
    (hg : ∀ ts ∈ l, ∀ d, make ts.1 = .ok d → GoodUtility proto d) (x : Cost) :
    (∃ paths, List.Forall₂ (fun (e : PackedDag × List DecisionKey × List DecisionValue) p =>
        Complete e.1 p ∧ ∀ v y, (v, y) ∈ assignments p → y = a v) (ps.map Part.entry ++ [ec]) paths
        ∧ (paths.map (weight PackedEdge.cost)).sum = x)
      ↔ ∃ y p, CostTotal (PathPrice make (seqKeys 0 proto) α) l y
        ∧ (Complete ec.1 p ∧ ∀ v y, (v, y) ∈ assignments p → y = a v)
        ∧ x = y + weight PackedEdge.cost p := by
  induction hp generalizing x with
  | nil =>
    simp only [List.map_nil, List.nil_append, List.forall₂_cons_left_iff, List.forall₂_nil_left_iff]
    constructor
    · rintro ⟨_, ⟨p, _, h1, rfl, rfl⟩, rfl⟩
      exact ⟨0, p, rfl, h1, by simp⟩
    · rintro ⟨y, p, h0, h1, rfl⟩
      refine ⟨[p], ⟨p, [], h1, rfl, rfl⟩, ?_⟩
      simp only [CostTotal] at h0
      simp [h0]
  | @cons ts q l ps hq _ ih =>
    obtain ⟨t, s⟩ := ts
    obtain ⟨d, c, hd, hc, rfl⟩ := hq
    have hgd := hg (t, s) (by simp) d hd
    have hkeys := hgd.keys c hc
    have hpp := fun x => part_paths hgd.topo hc (hpos (t, s) (by simp)) (a := a) (α := α)
      (by rw [hkeys]; exact hα) x
    rw [hkeys] at hpp
    specialize ih (fun ts hts => hpos ts (List.mem_cons_of_mem _ hts))
      (fun ts hts => hg ts (List.mem_cons_of_mem _ hts))
    simp only [List.map_cons, List.cons_append, List.forall₂_cons_left_iff]
    constructor
    · rintro ⟨_, ⟨p, paths, h1, h2, rfl⟩, rfl⟩
      obtain ⟨y, pc, e1, e2, e3⟩ := (ih _).1 ⟨paths, h2, rfl⟩
      obtain ⟨w, hw, hwc⟩ := (hpp _).1 ⟨p, h1.1, h1.2, rfl⟩
      refine ⟨_, pc, ⟨_, y, ⟨d, w, hd, hw, rfl⟩, e1, rfl⟩, e2, ?_⟩
      rw [List.map_cons, List.sum_cons, e3, hwc, add_assoc]
    · rintro ⟨_, pc, ⟨_, y, ⟨d', w, hd', hw, rfl⟩, e1, rfl⟩, e2, rfl⟩
      rw [hd] at hd'
      obtain rfl := Except.ok.inj hd'
      obtain ⟨paths, g1, g2⟩ := (ih _).2 ⟨y, pc, e1, e2, rfl⟩
      obtain ⟨p, p1, p2, p3⟩ := (hpp _).2 ⟨w, hw, rfl⟩
      refine ⟨_, ⟨p, paths, ⟨p1, p2⟩, g1, rfl⟩, ?_⟩
      rw [List.map_cons, List.sum_cons, g2, p3, add_assoc]

/-- The joint solutions for the decisions `α` and their costs. -/
theorem Built.joint {invalid : Cost} {make : T → Except E (Dag S DecisionKey DecisionValue I)}
    {proto : List (Node M)} {l : List (T × ℚ)} {total : ℚ} {B : BuiltSystem S I}
    (h : Built invalid make proto l total B) {D : DualSystem DecisionKey DecisionValue}
    (hr : SolverReach B.system D) {a : Nat → Nat} {α : DecisionKey → DecisionValue}
    (hα : VectorMeans D a α) (x : Cost) :
    (∃ paths, Joint D.data a paths ∧ jointCost D.data a paths = x)
      ↔ WellFormedRegions α proto ∧ CostTotal (PathPrice make (seqKeys 0 proto) α) l x := by
  obtain ⟨hk, hv, hnk, hnv, hex⟩ := h.keys
  have hgood := fun d hd => (h.entries d hd).1
  obtain ⟨-, -, -, h4, h5, -⟩ := makeSystem_ok h.system
  have hD : DInv B.system := ⟨makeSystem_inv h.system hgood h.weights, h4.symm, h5.symm⟩
  obtain ⟨s1, s2, s3⟩ := solver_same hD hr
  have hα' : ∀ v k, (seqKeys 0 proto)[v]? = some k → allValues[a v]? = some (α k) := by
    intro v k hvk
    have := hα v k (by rw [s1, hk]; exact hvk)
    rwa [s2, hv] at this
  have hlt : ∀ v < (seqKeys 0 proto).length, a v < allValues.length := by
    intro v hvl
    have := hα' v _ (List.getElem?_eq_getElem hvl)
    exact (List.getElem?_eq_some_iff.1 this).1
  have hcost : ∀ paths, jointCost D.data a paths = (paths.map (weight PackedEdge.cost)).sum := by
    intro paths
    unfold jointCost
    rw [s3.extra]
    simp [hex]
  have hjoint : ∀ paths, Joint D.data a paths ↔
      List.Forall₂ (fun (e : PackedDag × List DecisionKey × List DecisionValue) p =>
        Complete e.1 p ∧ ∀ v y, (v, y) ∈ assignments p → y = a v)
        (B.utilities.map Part.entry ++ [B.constraint.entry]) paths := by
    intro paths
    rw [C35_joint_solutions invalid _ _ _ _ h.system hgood h.weights (solver_reach hr), hk, hv]
    rw [and_iff_right hlt]
    have hmem := h.entries
    generalize B.utilities.map Part.entry ++ [B.constraint.entry] = L at hmem
    have hiff : ∀ e ∈ L, ∀ p, (Complete e.1 p ∧ ∀ (v : Nat) (key : DecisionKey) (k x : Nat),
          (seqKeys 0 proto)[v]? = some key → e.2.1[k]? = some key →
            (k, x) ∈ assignments p → x = a v)
        ↔ (Complete e.1 p ∧ ∀ v y, (v, y) ∈ assignments p → y = a v) := by
      intro e he p
      obtain ⟨g1, g2, -⟩ := hmem e he
      constructor
      · rintro ⟨c1, c2⟩
        refine ⟨c1, fun v y hvy => ?_⟩
        have h1 := complete_keys g1.wf c1
        have : v ∈ (assignments p).map Prod.fst := List.mem_map.2 ⟨_, hvy, rfl⟩
        rw [h1, ← g1.keys_length, g2] at this
        have hvl : v < (seqKeys 0 proto).length := by simpa using this
        exact c2 v _ v y (List.getElem?_eq_getElem hvl)
          (by rw [g2]; exact List.getElem?_eq_getElem hvl) hvy
      · rintro ⟨c1, c2⟩
        refine ⟨c1, fun v key k x hv1 hk1 hkx => ?_⟩
        rw [g2] at hk1
        have hnd : (seqKeys 0 proto).Nodup := (seqKeys_sorted proto 0).imp fun h => ne_of_lt h
        have hvl := (List.getElem?_eq_some_iff.1 hv1).1
        have : v = k := (List.getElem?_inj hvl hnd).1 (hv1.trans hk1.symm)
        rw [this]
        exact c2 k x hkx
    clear hmem
    induction L generalizing paths with
    | nil => simp
    | cons e L ih =>
      simp only [List.forall₂_cons_left_iff]
      constructor
      · rintro ⟨p, ps, h1, h2, rfl⟩
        exact ⟨p, ps, (hiff e (by simp) p).1 h1,
          (ih ps fun e he => hiff e (List.mem_cons_of_mem _ he)).1 h2, rfl⟩
      · rintro ⟨p, ps, h1, h2, rfl⟩
        exact ⟨p, ps, (hiff e (by simp) p).2 h1,
          (ih ps fun e he => hiff e (List.mem_cons_of_mem _ he)).2 h2, rfl⟩
  simp only [hjoint, hcost]
  rw [parts_joint hα' B.constraint.entry h.parts h.pos h.good]
  obtain ⟨dc, cc, c1, c2, c3⟩ := h.constraint
  have hcp := fun x => part_paths (C45_constraint proto dc c1).1 c2 h.total_pos (a := a) (α := α)
    (by rw [(C45_constraint_packs proto dc c1).2 cc c2]; exact hα') x
  rw [(C45_constraint_packs proto dc c1).2 cc c2] at hcp
  have hzero : ∀ w, DagSolution dc w → weight Edge.cost w = 0 := by
    intro w hw
    unfold weight
    have : ∀ c ∈ w.map Edge.cost, c = 0 := by
      intro c hc
      obtain ⟨e, he, rfl⟩ := List.mem_map.1 hc
      rw [constructConstraintDag_ok, Except.ok.injEq] at c1
      have hm := Walk.mem hw.1 e he
      rw [← c1] at hm
      exact constraintEdges_cost proto e hm
    exact List.sum_eq_zero this
  have hmap : ((0 : Cost).map (· * total)) = 0 := by
    change (((0 : ℚ) * total : ℚ) : Cost) = 0
    rw [zero_mul]; rfl
  have hacc := C42_accepts proto dc c1 α
  rw [c3]
  constructor
  · rintro ⟨y, p, t1, t2, rfl⟩
    obtain ⟨w, w1, w2⟩ := (hcp _).1 ⟨p, t2.1, t2.2, rfl⟩
    rw [hzero w w1.1, hmap] at w2
    rw [w2, add_zero]
    exact ⟨hacc.1 ⟨w, w1⟩, t1⟩
  · rintro ⟨hwf, ht⟩
    obtain ⟨w, w1⟩ := hacc.2 hwf
    obtain ⟨p, p1, p2, p3⟩ := (hcp _).2 ⟨w, w1, rfl⟩
    rw [hzero w w1.1, hmap] at p3
    exact ⟨x, p, ht, ⟨p1, p2⟩, by rw [p3, add_zero]⟩

end

end RUSure.Lemmas
