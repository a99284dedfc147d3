import Verif.Model.Convert
import Verif.Spec.GatedDag

/-!
# Packing a DAG does not depend on the names of its states
-/

namespace RUSure.Lemmas
open RUSure RUSure.Spec

/-- The edge between renamed states. -/
def renEdge {S S' K V I : Type} (f : S → S') (e : Edge S K V I) : Edge S' K V I := ⟨f e.source, f e.dest, e.cost, e.req, e.info⟩

/-- The renamed copy of a state. -/
def renState {S S' : Type} (f : S → S') (x : S × Nat) : S' × Nat := (f x.1, x.2)

/-- The edge between renamed copies. -/
def renTagged {S S' V : Type} (f : S → S') (e : TaggedEdge S V) : TaggedEdge S' V :=
  ⟨renState f e.source, renState f e.dest, e.cost, e.req, e.info⟩

/-- Conversion data with renamed states. -/
def renConversion {S S' K V : Type} (f : S → S') (c : Conversion S K V) : Conversion S' K V :=
  { packed := c.packed, keys := c.keys, values := c.values, taggedStates := c.taggedStates.map (renState f),
    taggedEdges := c.taggedEdges.map (renTagged f) }

theorem firstSeen_map {ε ε' σ σ' : Type} [DecidableEq σ] [DecidableEq σ'] {g : ε → σ} {g' : ε' → σ'} {φ : ε → ε'} {ψ : σ → σ'}
    (hψ : Function.Injective ψ) (hg : ∀ e, g' (φ e) = ψ (g e)) (es : List ε) :
    firstSeen g' (es.map φ) = (firstSeen g es).map ψ := by
  have : ∀ (es : List ε) (acc : List σ), (es.map φ).foldl (fun acc e => if g' e ∈ acc then acc else acc ++ [g' e]) (acc.map ψ)
      = (es.foldl (fun acc e => if g e ∈ acc then acc else acc ++ [g e]) acc).map ψ := by
    intro es
    induction es with
    | nil => intro acc; rfl
    | cons e es ih =>
      intro acc
      rw [List.map_cons, List.foldl_cons, List.foldl_cons, ← ih]
      congr 1
      rw [hg]
      have hm : ψ (g e) ∈ acc.map ψ ↔ g e ∈ acc := List.mem_map_of_injective hψ
      by_cases h : g e ∈ acc
      · rw [if_pos h, if_pos (hm.2 h)]
      · rw [if_neg h, if_neg (mt hm.1 h), List.map_append]; rfl
  exact this es []

theorem dictIndex_map {α β : Type} [DecidableEq α] [DecidableEq β] {ψ : α → β} (hψ : Function.Injective ψ) (l : List α) (a : α) :
    dictIndex (l.map ψ) (ψ a) = dictIndex l a := by
  induction l with
  | nil => rfl
  | cons x l ih =>
    rw [List.map_cons, dictIndex, dictIndex, ih]
    cases dictIndex l a with
    | some i => rfl
    | none => simp only [hψ.eq_iff]

theorem mapAll_map {α β γ : Type} {p : β → Option γ} {q : α → Option γ} {φ : α → β} (h : ∀ a, p (φ a) = q a) (l : List α) :
    mapAll p (l.map φ) = mapAll q l := by
  induction l with
  | nil => rfl
  | cons a l ih => rw [List.map_cons, mapAll, mapAll, h, ih]

theorem renState_injective {S S' : Type} {f : S → S'} (hf : Function.Injective f) : Function.Injective (renState f) := by
  intro a b h
  have h1 : f a.1 = f b.1 := congrArg Prod.fst h
  have h2 : a.2 = b.2 := (Prod.mk.inj h).2
  exact Prod.ext (hf h1) h2

section
variable {S S' K V I : Type} [DecidableEq S] [DecidableEq S'] [LinearOrder K] [LinearOrder V] {f : S → S'}

theorem keyIndex_ren (keys : List K) (e : Edge S K V I) : (renEdge f e).keyIndex keys = e.keyIndex keys := rfl

/-- Tables of the same values. -/
def SameTable (f : S → S') (t : S → Option Nat) (t' : S' → Option Nat) : Prop := ∀ s, t' (f s) = t s

theorem same_single (hf : Function.Injective f) (s : S) (u : Nat) : SameTable f (tableSingle s u) (tableSingle (f s) u) := by
  intro x
  simp only [tableSingle, hf.eq_iff]

theorem same_max (hf : Function.Injective f) {t : S → Option Nat} {t' : S' → Option Nat} (h : SameTable f t t') (s : S) (u : Nat) :
    SameTable f (tableMax t s u) (tableMax t' (f s) u) := by
  intro x
  simp only [tableMax, hf.eq_iff, h s, h x]

theorem same_min (hf : Function.Injective f) {t : S → Option Nat} {t' : S' → Option Nat} (h : SameTable f t t') (s : S) (u : Nat) :
    SameTable f (tableMin t s u) (tableMin t' (f s) u) := by
  intro x
  simp only [tableMin, hf.eq_iff, h s, h x]

theorem possibleLoop_ren (hf : Function.Injective f) (keys : List K) : ∀ (es : List (Edge S K V I)) {t : S → Option Nat}
    {t' : S' → Option Nat}, SameTable f t t' →
    (possibleLoop keys es t = none → possibleLoop keys (es.map (renEdge f)) t' = none)
    ∧ ∀ u, possibleLoop keys es t = some u → ∃ u', possibleLoop keys (es.map (renEdge f)) t' = some u' ∧ SameTable f u u'
  | [], t, t', h => ⟨fun h => (by cases h), fun u hu => by cases hu; exact ⟨t', rfl, h⟩⟩
  | e :: es, t, t', h => by
    rw [List.map_cons, possibleLoop, possibleLoop, possibleStep, possibleStep, keyIndex_ren]
    cases e.keyIndex keys with
    | some i => exact possibleLoop_ren hf keys es (same_max hf h _ _)
    | none =>
      have : t' (renEdge f e).source = t e.source := h _
      simp only [this]
      cases t e.source with
      | none => exact ⟨fun _ => rfl, fun u hu => by cases hu⟩
      | some u => exact possibleLoop_ren hf keys es (same_max hf h _ _)

theorem arrivalTag_ren (keys : List K) {t : S → Option Nat} {t' : S' → Option Nat} (h : SameTable f t t') (e : Edge S K V I) :
    (renEdge f e).arrivalTag keys t' = e.arrivalTag keys t := by
  unfold Edge.arrivalTag
  rw [keyIndex_ren]
  have : t' (renEdge f e).source = t e.source := h _
  rw [this]

theorem afterLoop_ren (hf : Function.Injective f) (keys : List K) {l : S → Option Nat} {l' : S' → Option Nat} (hl : SameTable f l l') :
    ∀ (es : List (Edge S K V I)) {t : S → Option Nat} {t' : S' → Option Nat}, SameTable f t t' →
    (∀ e, afterLoop keys l es t = .error e → afterLoop keys l' (es.map (renEdge f)) t' = .error e)
    ∧ ∀ u, afterLoop keys l es t = .ok u → ∃ u', afterLoop keys l' (es.map (renEdge f)) t' = .ok u' ∧ SameTable f u u'
  | [], t, t', h => ⟨fun e h => (by cases h), fun u hu => by cases hu; exact ⟨t', rfl, h⟩⟩
  | e :: es, t, t', h => by
    rw [List.map_cons, afterLoop, afterLoop, keyIndex_ren]
    cases e.keyIndex keys with
    | none => exact afterLoop_ren hf keys hl es h
    | some i =>
      have : l' (renEdge f e).source = l e.source := hl _
      simp only [this]
      cases l e.source with
      | none => exact ⟨fun e h => (by cases h; rfl), fun u hu => by cases hu⟩
      | some τ =>
        simp only
        by_cases hi : i + 1 ≤ τ
        · rw [if_pos hi, if_pos hi]
          exact ⟨fun e h => (by cases h; rfl), fun u hu => by cases hu⟩
        · rw [if_neg hi, if_neg hi]
          exact afterLoop_ren hf keys hl es (same_max hf h _ _)

theorem guaranteedLoop_ren (hf : Function.Injective f) (keys : List K) {l : S → Option Nat} {l' : S' → Option Nat}
    (hl : SameTable f l l') (es : List (Edge S K V I)) : ∀ {t : S → Option Nat} {t' : S' → Option Nat}, SameTable f t t' →
    SameTable f (guaranteedLoop keys l es t) (guaranteedLoop keys l' (es.map (renEdge f)) t') := by
  induction es with
  | nil => intro t t' h; exact h
  | cons e es ih =>
    intro t t' h
    have key := ih (same_min hf h e.dest (e.arrivalTag keys l))
    rw [List.map_cons]
    unfold guaranteedLoop at key ⊢
    rw [List.foldl_cons, List.foldl_cons, arrivalTag_ren keys hl]
    exact key

theorem edgesBySource_ren (hf : Function.Injective f) (d : Dag S K V I) (s : S) :
    (renameStates f d).edgesBySource (f s) = (d.edgesBySource s).map fun x => (renEdge f x.1, x.2) := by
  unfold Dag.edgesBySource
  have : (renameStates f d).edges = d.edges.map (renEdge f) := rfl
  rw [this, List.zipIdx_map, List.filter_map]
  congr 1
  refine List.filter_congr fun x _ => ?_
  have : (Prod.map (renEdge f) id x).1.source = f x.1.source := rfl
  simp only [Function.comp, this, hf.eq_iff]

theorem emitState_ren (hf : Function.Injective f) (d : Dag S K V I) (keys : List K) (missing : V) {T : ConvertTables S}
    {T' : ConvertTables S'} (h1 : SameTable f T.lpb T'.lpb) (h2 : SameTable f T.guaranteed T'.guaranteed)
    (h3 : SameTable f T.after T'.after) {kept : S → Bool} {kept' : S' → Bool} (hk : ∀ s, kept' (f s) = kept s) (s : S) :
    (renameStates f d).emitState keys missing T' kept' (f s)
      = (d.emitState keys missing T kept s).map fun x => (x.1, renTagged f x.2) := by
  unfold Dag.emitState
  have hl : T'.largest (f s) = T.largest s := by
    unfold ConvertTables.largest
    rw [h3 s, h1 s]
  simp only [h2 s, hl, edgesBySource_ren hf, List.map_append, List.map_map, List.filterMap_map, List.map_filterMap]
  congr 1
  refine List.filterMap_congr fun x _ => ?_
  have hd : kept' (renEdge f x.1).dest = kept x.1.dest := hk _
  have hs : T'.lpb (renEdge f x.1).source = T.lpb x.1.source := h1 _
  have hfin : (renEdge f x.1).isFinite = x.1.isFinite := rfl
  simp only [Function.comp, copyEdge, hd, hs, hfin, keyIndex_ren]
  split
  · rfl
  · split
    · rfl
    · have hreq : (renEdge f x.1).req = x.1.req := rfl
      rw [hreq]
      cases x.1.keyIndex keys with
      | none => rfl
      | some v =>
        cases x.1.req with
        | none => rfl
        | some kv => rfl

theorem boundaryLoop_ren (n : Nat) : ∀ (ss : List (S × Nat)) (i last : Nat) (b : Nat → Nat),
    boundaryLoop n (ss.map (renState f)) i last b = boundaryLoop n ss i last b
  | [], _, _, _ => rfl
  | s :: ss, i, last, b => by
    rw [List.map_cons, boundaryLoop, boundaryLoop]
    exact boundaryLoop_ren n ss _ _ _

theorem packEdge_ren (hf : Function.Injective f) (states : List (S × Nat)) (values : List V) (e : TaggedEdge S V) :
    packEdge (states.map (renState f)) values (renTagged f e) = packEdge states values e := by
  unfold packEdge
  have h1 : dictIndex (states.map (renState f)) (renTagged f e).source = dictIndex states e.source :=
    dictIndex_map (renState_injective hf) states e.source
  have h2 : dictIndex (states.map (renState f)) (renTagged f e).dest = dictIndex states e.dest :=
    dictIndex_map (renState_injective hf) states e.dest
  rw [h1, h2]
  rfl

theorem groupEdges_ren (em : List (Nat × TaggedEdge S V)) (g : Nat) :
    groupEdges (em.map fun x => (x.1, renTagged f x.2)) g = (groupEdges em g).map (renTagged f) := by
  unfold groupEdges
  rw [List.filter_map, List.map_map, List.map_map]
  rfl

theorem assemble_ren (hf : Function.Injective f) (initial final : S) (keys : List K) (values : List V)
    (em : List (Nat × TaggedEdge S V)) :
    assemble (f initial) (f final) keys values (em.map fun x => (x.1, renTagged f x.2))
      = (assemble initial final keys values em).map (renConversion f) := by
  have hg : (List.range (2 * keys.length + 1)).map (groupEdges (em.map fun x => (x.1, renTagged f x.2)))
      = ((List.range (2 * keys.length + 1)).map (groupEdges em)).map (List.map (renTagged f)) := by
    rw [List.map_map]
    exact List.map_congr_left fun g _ => groupEdges_ren em g
  have ho : ∀ es : List (TaggedEdge S V), tableOrder (es.map (renTagged f)) = (tableOrder es).map (renState f) :=
    fun es => firstSeen_map (g := TaggedEdge.source) (g' := TaggedEdge.source) (renState_injective hf) (fun _ => rfl) es
  unfold assemble
  simp only [hg]
  generalize (List.range (2 * keys.length + 1)).map (groupEdges em) = groups
  have hfl : (groups.map (List.map (renTagged f))).flatten = groups.flatten.map (renTagged f) := List.map_flatten.symm
  simp only [hfl, ho]
  generalize hes : groups.flatten = es
  have hlen : ∀ g, (((groups.map (List.map (renTagged f))).take g).map List.length).sum = ((groups.take g).map List.length).sum := by
    intro g
    rw [← List.map_take, List.map_map]
    congr 1
    exact List.map_congr_left fun l _ => List.length_map _
  cases hord : tableOrder es with
  | nil => rfl
  | cons s rest =>
    have hs0 : renState f s = (f initial, 0) ↔ s = (initial, 0) := (renState_injective hf).eq_iff (b := (initial, 0))
    have hfin : (f final, keys.length) ∈ List.map (renState f) (s :: rest) ↔ (final, keys.length) ∈ s :: rest :=
      List.mem_map_of_injective (renState_injective hf) (a := (final, keys.length))
    rw [List.map_cons] at hfin ⊢
    simp only [ne_eq, hs0, hfin]
    split
    · rfl
    · split
      · rfl
      · have hst : renState f s :: List.map (renState f) rest ++ [(f final, keys.length)]
            = List.map (renState f) (s :: rest ++ [(final, keys.length)]) := by
          rw [List.map_append]; rfl
        rw [hst, mapAll_map (packEdge_ren hf _ values)]
        cases mapAll (packEdge (s :: rest ++ [(final, keys.length)]) values) es with
        | none => rfl
        | some pe =>
          simp only [Except.map, renConversion, List.length_map, boundaryLoop_ren, hlen]

/-- Renaming states by an injective function makes no difference to the packed DAG. -/
theorem convert_ren (hf : Function.Injective f) (d : Dag S K V I) (missing : V) (ordering : Option (List V)) :
    (renameStates f d).convert missing ordering = (d.convert missing ordering).map (renConversion f) := by
  have hes : (renameStates f d).edges = d.edges.map (renEdge f) := rfl
  have hso : (renameStates f d).sourcesInOrder = d.sourcesInOrder.map f := by
    unfold Dag.sourcesInOrder
    rw [hes]
    exact firstSeen_map (g := Edge.source) (g' := Edge.source) hf (fun _ => rfl) _
  have hkeys : (renameStates f d).orderedKeys = d.orderedKeys := by
    unfold Dag.orderedKeys
    rw [hes, List.filterMap_map]
    rfl
  have hvals : (renameStates f d).orderedValues missing ordering = d.orderedValues missing ordering := by
    unfold Dag.orderedValues
    rw [hes, List.filterMap_map]
    rfl
  have hini : (renameStates f d).initial = f d.initial := rfl
  have hfinal : (renameStates f d).final = f d.final := rfl
  unfold Dag.convert
  simp only [hso, hkeys, hvals, hini, hfinal, hes]
  cases hsrc : d.sourcesInOrder with
  | nil => rfl
  | cons s rest =>
    have hmem : f d.final ∈ List.map f (s :: rest) ↔ d.final ∈ s :: rest := List.mem_map_of_injective hf
    rw [List.map_cons] at hmem ⊢
    simp only [ne_eq, hf.eq_iff, hmem]
    split
    · rfl
    · split
      · rfl
      · have hst : f s :: List.map f rest ++ [f d.final] = List.map f (s :: rest ++ [d.final]) := by
          rw [List.map_append]; rfl
        rw [hst]
        generalize s :: rest ++ [d.final] = states
        obtain ⟨p1, p2⟩ := possibleLoop_ren hf d.orderedKeys d.edges (same_single hf d.initial 0)
        cases hp : possibleLoop d.orderedKeys d.edges (tableSingle d.initial 0) with
        | none => rw [p1 hp]; rfl
        | some l =>
          obtain ⟨l', e1, hl⟩ := p2 l hp
          simp only [e1]
          obtain ⟨a1, a2⟩ := afterLoop_ren hf d.orderedKeys hl d.edges (t := fun _ => none) (t' := fun _ => none) (fun _ => rfl)
          cases ha : afterLoop d.orderedKeys l d.edges (fun _ => none) with
          | error e => rw [a1 e ha]; rfl
          | ok a =>
            obtain ⟨a', e2, hl2⟩ := a2 a ha
            simp only [e2]
            have hany : ((List.map f states).any fun s => (l' s).isNone) = states.any fun s => (l s).isNone := by
              rw [List.any_map]
              congr 1
              funext s
              simp only [Function.comp, hl s]
            rw [hany]
            split
            · rfl
            · rw [← assemble_ren hf, List.map_flatMap, List.flatMap_map]
              congr 1
              refine List.flatMap_congr fun x _ => ?_
              exact emitState_ren hf d d.orderedKeys missing (T := ⟨_, _, _⟩) (T' := ⟨_, _, _⟩) hl
                (guaranteedLoop_ren hf d.orderedKeys hl d.edges (same_single hf d.initial 0)) hl2
                (fun s => by simp only [List.mem_map_of_injective hf]) x

/-- It is enough that the states of the DAG keep different names. -/
theorem convert_renOn (d : Dag S K V I) (hf : ∀ s s', DagState d s → DagState d s' → f s = f s' → s = s')
    (missing : V) (ordering : Option (List V)) :
    (renameStates f d).convert missing ordering = (d.convert missing ordering).map (renConversion f) := by
  classical
  let d0 : Dag {s // DagState d s} K V I :=
    { initial := ⟨d.initial, .inl rfl⟩
      edges := d.edges.attach.map fun e =>
        ⟨⟨e.1.source, .inr (.inr ⟨e.1, e.2, .inl rfl⟩)⟩, ⟨e.1.dest, .inr (.inr ⟨e.1, e.2, .inr rfl⟩)⟩, e.1.cost,
          e.1.req, e.1.info⟩
      final := ⟨d.final, .inr (.inl rfl)⟩ }
  have hd : renameStates Subtype.val d0 = d := by
    have : (renameStates Subtype.val d0).edges = d.edges := by
      change (List.map _ (List.map _ d.edges.attach)) = _
      rw [List.map_map]
      exact List.attach_map_subtype_val d.edges
    calc renameStates Subtype.val d0 = ⟨d.initial, (renameStates Subtype.val d0).edges, d.final⟩ := rfl
      _ = d := by rw [this]
  have hfd : renameStates f d = renameStates (fun s : {s // DagState d s} => f s.1) d0 := by
    conv_lhs => rw [← hd]
    unfold renameStates
    simp only [List.map_map]
    rfl
  have h1 := convert_ren (f := Subtype.val) Subtype.val_injective d0 missing ordering
  have h2 := convert_ren (f := fun s : {s // DagState d s} => f s.1)
    (fun a b h => Subtype.ext (hf _ _ a.2 b.2 h)) d0 missing ordering
  rw [hd] at h1
  rw [hfd, h2, h1]
  cases d0.convert missing ordering with
  | error e => rfl
  | ok c =>
    change Except.ok _ = Except.ok _
    congr 1
    unfold renConversion
    simp only [List.map_map]
    rfl

/-- Paths of the packed DAG stand for the renamed paths. -/
theorem originalPath_ren (d : Dag S K V I) (c : Conversion S K V) (path : List (Nat × PackedEdge)) :
    (renConversion f c).originalPath (renameStates f d) path = (c.originalPath d path).map (renEdge f) := by
  unfold Conversion.originalPath
  rw [List.map_filterMap]
  congr 1
  funext x
  change ((c.taggedEdges.map (renTagged f))[x.1]?).bind (fun e => e.info.bind fun i => (d.edges.map (renEdge f))[i]?) = _
  rw [List.getElem?_map]
  cases c.taggedEdges[x.1]? with
  | none => rfl
  | some e =>
    change e.info.bind (fun i => (d.edges.map (renEdge f))[i]?) = Option.map (renEdge f) (e.info.bind fun i => d.edges[i]?)
    cases e.info with
    | none => rfl
    | some i => exact List.getElem?_map ..

theorem pathAssignments_ren (c : Conversion S K V) (path : List (Nat × PackedEdge)) :
    (renConversion f c).pathAssignments path = c.pathAssignments path := by
  unfold Conversion.pathAssignments
  congr 1
  funext x
  change ((c.taggedEdges.map (renTagged f))[x.1]?).bind (fun e => e.req.bind fun kv =>
    (c.keys[kv.1]?).map fun k => (k, kv.2)) = _
  rw [List.getElem?_map]
  cases c.taggedEdges[x.1]? <;> rfl

end

end RUSure.Lemmas
