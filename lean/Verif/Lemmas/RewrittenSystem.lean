import Verif.Lemmas.ConvertRename
import Verif.Spec.RewrittenSystem
import Verif.Lemmas.SystemSolve

/-!
# Systems with renumbered states
-/

namespace RUSure.Lemmas
open RUSure RUSure.Spec RUSure.Props

section
variable {T E S I M : Type} [DecidableEq S]

/-- The states of a pruned DAG are on solutions. -/
theorem prune_states {K V : Type} {d : Dag S K V I} (ht : DagTopo d) (hs : ∃ p, DagSolution d p) {s : S}
    (h : DagState d.prune s) : OnSolution d s := by
  obtain ⟨p, hw, hfin⟩ := hs
  rcases h with rfl | rfl | ⟨e, he, h⟩
  · exact ⟨⟨[], .nil _, fun _ h => (by cases h)⟩, p, hw, hfin⟩
  · exact ⟨⟨p, hw, hfin⟩, [], .nil _, fun _ h => (by cases h)⟩
  · obtain ⟨q, ⟨hq, hqf⟩, heq⟩ := ((C23_keeps_exactly d ht).1 e).1 he
    obtain ⟨q1, q2, rfl⟩ := List.append_of_mem heq
    obtain ⟨m, hq1, hq2⟩ := Walk.append_iff.1 hq
    rw [Walk.cons_iff] at hq2
    obtain ⟨hed, hm, hq3⟩ := hq2
    rcases h with rfl | rfl
    · refine ⟨⟨q1, hm ▸ hq1, fun x hx => hqf x (by simp [hx])⟩, e :: q2, ?_, fun x hx => hqf x (List.mem_append_right _ hx)⟩
      exact .cons hed hq3
    · refine ⟨⟨q1 ++ [e], ?_, fun x hx => hqf x (by simp at hx ⊢; tauto)⟩, q2, hq3, fun x hx => hqf x (by simp [hx])⟩
      exact Walk.append_iff.2 ⟨m, hq1, Walk.cons_iff.2 ⟨hed, hm, .nil _⟩⟩

/-- Packing a renumbered DAG. -/
theorem packRewritten_same {slot : S → Nat} {d : Dag S DecisionKey DecisionValue I} (ht : DagTopo d)
    (hs : ∃ p, DagSolution d p) (hn : NoReturn slot (createdOrder d)) (scale : ℚ) :
    (∀ e, packPart (E := E) d scale = .error e → packRewritten (E := E) slot d scale = .error e)
    ∧ ∀ p, packPart (E := E) d scale = .ok p → ∃ p', packRewritten (E := E) slot d scale = .ok p' ∧ SamePart p p' := by
  obtain ⟨h1, h2⟩ := C25_rename_partial slot d ht hn
  cases hd : d.pruneRewrite slot with
  | none => exact absurd hs (h1.1 hd)
  | some d' =>
    obtain ⟨f, n, rfl, hinj, -⟩ := h2 d' hd
    have hinj' : ∀ s s', DagState d.prune s → DagState d.prune s' → f s = f s' → s = s' := fun s s' a b =>
      hinj s s' (prune_states ht hs a) (prune_states ht hs b)
    have hc := convert_renOn d.prune hinj' DecisionValue.na (some [.no, .yes, .na])
    unfold packPart packRewritten
    simp only [hd, hc]
    cases hcv : d.prune.convert .na (some [.no, .yes, .na]) with
    | error e =>
      refine ⟨fun e' h => ?_, fun p h => (by cases h)⟩
      cases h; rfl
    | ok c =>
      refine ⟨fun e' h => (by cases h), fun p h => ?_⟩
      cases h
      exact ⟨_, rfl, rfl, rfl, rfl, rfl, ⟨f, rfl, hinj', fun path => originalPath_ren d.prune c path⟩,
        fun path => pathAssignments_ren c path⟩

theorem rewrittenParts_same {slot : S → Nat} {make : T → Except E (Dag S DecisionKey DecisionValue I)}
    (l : List (T × ℚ))
    (hg : ∀ ts ∈ l, ∀ d, make ts.1 = .ok d → DagTopo d ∧ (∃ p, DagSolution d p) ∧ NoReturn slot (createdOrder d)) :
    (∀ e, utilityParts make l = .error e → rewrittenParts slot make l = .error e)
    ∧ ∀ ps, utilityParts make l = .ok ps → ∃ ps', rewrittenParts slot make l = .ok ps' ∧ List.Forall₂ SamePart ps ps' := by
  induction l with
  | nil =>
    refine ⟨fun e h => (by cases h), fun ps h => ?_⟩
    cases h
    exact ⟨[], rfl, .nil⟩
  | cons ts l ih =>
    obtain ⟨t, s⟩ := ts
    obtain ⟨i1, i2⟩ := ih fun ts h => hg ts (List.mem_cons_of_mem _ h)
    unfold utilityParts rewrittenParts
    cases hm : make t with
    | error e =>
      refine ⟨fun e' h => ?_, fun ps h => (by cases h)⟩
      cases h; rfl
    | ok d =>
      obtain ⟨g1, g2, g3⟩ := hg (t, s) (by simp) d hm
      obtain ⟨p1, p2⟩ := packRewritten_same (E := E) g1 g2 g3 s
      simp only
      cases hp : packPart (E := E) d s with
      | error e =>
        refine ⟨fun e' h => ?_, fun ps h => (by cases h)⟩
        cases h
        rw [p1 e hp]
      | ok p =>
        obtain ⟨p', q1, q2⟩ := p2 p hp
        simp only [q1]
        cases hu : utilityParts make l with
        | error e =>
          refine ⟨fun e' h => ?_, fun ps h => (by cases h)⟩
          cases h
          rw [i1 e hu]
        | ok ps =>
          obtain ⟨ps', r1, r2⟩ := i2 ps hu
          refine ⟨fun e' h => (by cases h), fun qs h => ?_⟩
          cases h
          exact ⟨p' :: ps', by rw [r1], .cons q2 r2⟩

theorem entries_same {ps : List (Part S I)} {ps' : List (Part Nat I)} (h : List.Forall₂ SamePart ps ps') :
    ps'.map Part.entry = ps.map Part.entry ∧ ps'.map Part.scale = ps.map Part.scale := by
  induction h with
  | nil => exact ⟨rfl, rfl⟩
  | cons h _ ih =>
    simp only [List.map_cons, ih.1, ih.2, h.scale]
    refine ⟨?_, trivial⟩
    congr 1
    unfold Part.entry
    rw [h.packed, h.keys, h.values, h.scale]

theorem buildRewritten_same {slot : S → Nat} {slotC : ConstraintState → Nat} {invalid : Cost}
    {make : T → Except E (Dag S DecisionKey DecisionValue I)} {proto : List (Node M)} {targets : List T}
    {factors : Option (List ℚ)}
    (hg : ∀ t ∈ targets, ∀ d, make t = .ok d → GoodUtility proto d)
    (hn : ∀ t ∈ targets, ∀ d, make t = .ok d → NoReturn slot (createdOrder d))
    (hc : ∀ d, constructConstraintDag proto = .ok d → NoReturn slotC (createdOrder d)) :
    (∀ e, buildSystem invalid make proto targets factors = .error e →
      buildRewritten slot slotC invalid make proto targets factors = .error e)
    ∧ ∀ B, buildSystem invalid make proto targets factors = .ok B →
      ∃ B', buildRewritten slot slotC invalid make proto targets factors = .ok B' ∧ B'.system = B.system
        ∧ List.Forall₂ SamePart B.utilities B'.utilities ∧ SamePart B.constraint B'.constraint := by
  obtain ⟨α, hα⟩ := wellFormed_exists proto
  unfold buildSystem buildRewritten
  cases hf : scaleFactors (E := E) targets.length factors with
  | error e =>
    refine ⟨fun e' h => ?_, fun ps h => (by cases h)⟩
    cases h; rfl
  | ok fs =>
    obtain ⟨u1, u2⟩ := rewrittenParts_same (slot := slot) (make := make) (targets.zip fs) fun ts hts d hd => by
      have hm : ts.1 ∈ targets := (List.of_mem_zip (a := ts.1) (b := ts.2) hts).1
      have := hg ts.1 hm d hd
      obtain ⟨w, hw, -⟩ := this.serves α hα
      exact ⟨this.topo.1, ⟨w, hw⟩, hn _ hm d hd⟩
    simp only
    cases hu : utilityParts make (targets.zip fs) with
    | error e =>
      refine ⟨fun e' h => ?_, fun ps h => (by cases h)⟩
      cases h
      rw [u1 e hu]
    | ok ps =>
      obtain ⟨ps', r1, r2⟩ := u2 ps hu
      obtain ⟨en, sc⟩ := entries_same r2
      obtain ⟨dc, hdc⟩ := C42_builds proto
      obtain ⟨wc, hwc, -⟩ := (C42_accepts proto dc hdc α).2 hα
      simp only [r1, hdc]
      obtain ⟨p1, p2⟩ := packRewritten_same (E := E) (C45_constraint proto dc hdc).1.1 ⟨wc, hwc⟩ (hc dc hdc) fs.sum
      cases hp : packPart (E := E) dc fs.sum with
      | error e =>
        refine ⟨fun e' h => ?_, fun ps h => (by cases h)⟩
        cases h
        rw [p1 e hp]
      | ok p =>
        obtain ⟨p', q1, q2⟩ := p2 p hp
        have hpe : p'.entry = p.entry := by
          unfold Part.entry
          rw [q2.packed, q2.keys, q2.values, q2.scale]
        simp only [q1, en, sc, hpe]
        cases hs : makeSystem invalid (List.map Part.entry ps ++ [p.entry]) (some (List.map Part.scale ps ++ [fs.sum])) with
        | error e =>
          refine ⟨fun e' h => ?_, fun ps h => (by cases h)⟩
          cases h; rfl
        | ok D =>
          refine ⟨fun e' h => (by cases h), fun B h => ?_⟩
          cases h
          exact ⟨_, rfl, rfl, r2, q2⟩

end

/-! ## Whatever collides -/

section
variable {T E S I M : Type} [DecidableEq S]

/-- The paths of a packed renumbered DAG are solutions of the DAG. -/
def SoundPart (d : Dag S DecisionKey DecisionValue I) (p : Part Nat I) : Prop :=
  ∀ q, IndexedPath p.conversion.packed q → Complete p.conversion.packed (q.map Prod.snd) →
    ∃ w, DagSolution d w ∧ plainCost (q.map Prod.snd) = weight Edge.cost w
      ∧ (p.conversion.originalPath p.dag q).map Edge.info = w.map Edge.info
      ∧ p.conversion.pathAssignments q = p.conversion.keys.map fun k => (k, (valueOn w k).getD .na)

theorem packRewritten_sound {slot : S → Nat} {d : Dag S DecisionKey DecisionValue I}
    (ht : Topo Edge.source Edge.dest d.edges) {scale : ℚ} {p : Part Nat I}
    (h : packRewritten (E := E) slot d scale = .ok p) : p.scale = scale ∧ SoundPart d p := by
  unfold packRewritten at h
  split at h
  · cases h
  rename_i d' hd
  split at h
  · cases h
  rename_i c hc
  injection h with h
  subst h
  refine ⟨rfl, ?_⟩
  obtain ⟨h1, -, -, -, label, -, -, hsub, hsol⟩ := C25_sound slot d ht.1 hd
  have htopo : Topo Edge.source Edge.dest d'.edges := by
    refine ⟨h1, fun e he heq => ?_⟩
    have hm : renEdge label e ∈ d.edges := hsub.subset (List.mem_map.2 ⟨e, he, rfl⟩)
    exact ht.2 _ hm (congrArg label heq)
  intro q hi hq
  obtain ⟨b1, b2, b3, -⟩ := C26_backward d' htopo _ _ c hc q hi hq
  refine ⟨_, hsol _ b1, ?_, ?_, ?_⟩
  · rw [b2]
    unfold weight
    rw [List.map_map]
    rfl
  · rw [List.map_map]
    rfl
  · rw [b3]
    refine List.map_congr_left fun k _ => ?_
    rw [valueOn_inst, valueOn_lookup, valueOn_lookup, List.flatMap_map]

theorem rewrittenParts_sound {slot : S → Nat} {make : T → Except E (Dag S DecisionKey DecisionValue I)}
    (l : List (T × ℚ)) (hg : ∀ ts ∈ l, ∀ d, make ts.1 = .ok d → Topo Edge.source Edge.dest d.edges) :
    ∀ ps, rewrittenParts slot make l = .ok ps →
      List.Forall₂ (fun ts p => p.scale = ts.2 ∧ ∃ d, make ts.1 = .ok d ∧ SoundPart d p) l ps := by
  induction l with
  | nil => intro ps h; cases h; exact .nil
  | cons ts l ih =>
    obtain ⟨t, s⟩ := ts
    intro ps h
    unfold rewrittenParts at h
    split at h
    · cases h
    rename_i d hd
    split at h
    · cases h
    rename_i p hp
    split at h
    · cases h
    rename_i ps' hps
    cases h
    obtain ⟨h1, h2⟩ := packRewritten_sound (hg (t, s) (by simp) d hd) hp
    exact .cons ⟨h1, d, hd, h2⟩ (ih (fun ts hts => hg ts (List.mem_cons_of_mem _ hts)) ps' hps)

theorem buildRewritten_sound {slot : S → Nat} {slotC : ConstraintState → Nat} {invalid : Cost}
    {make : T → Except E (Dag S DecisionKey DecisionValue I)} {proto : List (Node M)} {targets : List T}
    {factors : Option (List ℚ)} (hg : ∀ t ∈ targets, ∀ d, make t = .ok d → Topo Edge.source Edge.dest d.edges)
    {B : RewrittenSystem I} (h : buildRewritten slot slotC invalid make proto targets factors = .ok B) :
    List.Forall₂ (fun ts p => p.scale = ts.2 ∧ ∃ d, make ts.1 = .ok d ∧ SoundPart d p)
      (targets.zip (targetWeights targets.length factors)) B.utilities
    ∧ B.constraint.scale = (targetWeights targets.length factors).sum
    ∧ (∃ dc, constructConstraintDag proto = .ok dc ∧ SoundPart dc B.constraint)
    ∧ makeSystem invalid (B.utilities.map Part.entry ++ [B.constraint.entry])
        (some (B.utilities.map Part.scale ++ [B.constraint.scale])) = .ok B.system := by
  unfold buildRewritten at h
  split at h
  · cases h
  rename_i fs hfs
  have hw : fs = targetWeights targets.length factors := by
    unfold scaleFactors at hfs
    unfold targetWeights
    cases factors with
    | none =>
      simp only at hfs
      split at hfs
      · cases hfs
      · cases hfs; rfl
    | some fs' => cases hfs; rfl
  split at h
  · cases h
  rename_i ps hps
  split at h
  · cases h
  rename_i dc hdc
  split at h
  · cases h
  rename_i pc hpc
  split at h
  · cases h
  rename_i D hD
  cases h
  obtain ⟨c1, c2⟩ := packRewritten_sound (C45_constraint proto dc hdc).1 hpc
  rw [← hw]
  exact ⟨rewrittenParts_sound _ (fun ts hts d hd =>
    hg _ (List.of_mem_zip (a := ts.1) (b := ts.2) hts).1 d hd) ps hps, c1, ⟨dc, hdc, c2⟩, by simp only [c1]; exact hD⟩

end

end RUSure.Lemmas
