import Verif.Lemmas.ConvertTables

/-! # The tagged graph built by the conversion -/

set_option linter.unusedSectionVars false

namespace RUSure.Lemmas
open RUSure RUSure.Spec

section
variable {S K V I : Type} [DecidableEq S] [LinearOrder K] [LinearOrder V]

/-- `largest_possible_before`, shifted, with default. -/
def lp (T : ConvertTables S) (s : S) : Nat := (T.lpb s).getD 0
/-- `largest_guaranteed_before`, shifted, with default. -/
def gu (T : ConvertTables S) (s : S) : Nat := (T.guaranteed s).getD 0

/-- What is known about the tables once they have been computed successfully. -/
structure TablesOK (d : Dag S K V I) (keys : List K) (T : ConvertTables S) : Prop where
  keys_none : ∀ e ∈ d.edges, e.keyIndex keys = none → e.req = none
  lp_init : lp T d.initial = 0
  gu_init : gu T d.initial = 0
  src_some : ∀ e ∈ d.edges, (T.lpb e.source).isSome
  arrive_gu : ∀ e ∈ d.edges, gu T e.dest ≤ e.arrivalTag keys T.lpb
  arrive_lp : ∀ e ∈ d.edges, e.arrivalTag keys T.lpb ≤ lp T e.dest
  order : ∀ e ∈ d.edges, ∀ i, e.keyIndex keys = some i → lp T e.source ≤ i ∧ i ≤ T.largest e.source
  lp_largest : ∀ s, lp T s ≤ T.largest s
  largest_case : ∀ s, (∃ e ∈ d.edges, e.source = s ∧ e.keyIndex keys = some (T.largest s))
    ∨ (T.largest s = lp T s ∧ ∀ e ∈ d.edges, e.source = s → e.keyIndex keys = none)
  lp_attained : ∀ s, lp T s = 0 ∨ ∃ e ∈ d.edges, e.dest = s ∧ e.arrivalTag keys T.lpb = lp T s
  lp_le : ∀ s, lp T s ≤ keys.length

theorem arrivalTag_none {keys : List K} {T : ConvertTables S} {e : Edge S K V I}
    (h : e.keyIndex keys = none) : e.arrivalTag keys T.lpb = lp T e.source := by
  simp [Edge.arrivalTag, h, lp]

theorem arrivalTag_some {keys : List K} {T : ConvertTables S} {e : Edge S K V I} {i : Nat}
    (h : e.keyIndex keys = some i) : e.arrivalTag keys T.lpb = i + 1 := by
  simp [Edge.arrivalTag, h]

theorem tables_ok {d : Dag S K V I} (ht : Topo Edge.source Edge.dest d.edges)
    (hinit : ∀ e ∈ d.edges, e.dest ≠ d.initial) {lpb after : S → Option Nat}
    (h1 : possibleLoop d.orderedKeys d.edges (tableSingle d.initial 0) = some lpb)
    (h2 : afterLoop d.orderedKeys lpb d.edges (fun _ => none) = .ok after) :
    TablesOK d d.orderedKeys
      ⟨lpb, guaranteedLoop d.orderedKeys lpb d.edges (tableSingle d.initial 0), after⟩ := by
  obtain ⟨p1, p2, p3⟩ := possibleLoop_spec ht h1
  obtain ⟨g1, g2⟩ := guaranteedLoop_spec (keys := d.orderedKeys) (lpb := lpb) d.edges
    (tableSingle d.initial 0)
  obtain ⟨-, a2, a3⟩ := afterLoop_spec h2
  have hkn : ∀ e ∈ d.edges, e.keyIndex d.orderedKeys = none → e.req = none := by
    intro e he h
    exact (keyIndex_none (fun k x hk => mem_orderedKeys.2 ⟨e, he, x, hk⟩)).1 h
  have hsingle : tableSingle d.initial 0 d.initial = some 0 := by simp [tableSingle]
  have hafter : ∀ s c, after s = some c → ∃ e ∈ d.edges, e.source = s
      ∧ e.keyIndex d.orderedKeys = some c := by
    intro s c hs
    rcases a3 s c hs with h | h
    · simp at h
    · exact h
  generalize hT : (⟨lpb, guaranteedLoop d.orderedKeys lpb d.edges (tableSingle d.initial 0), after⟩ :
    ConvertTables S) = T
  have hTl : T.lpb = lpb := by rw [← hT]
  have hTg : T.guaranteed = guaranteedLoop d.orderedKeys lpb d.edges (tableSingle d.initial 0) := by
    rw [← hT]
  have hTa : T.after = after := by rw [← hT]
  have hlarge : ∀ s, (∃ e ∈ d.edges, e.source = s
        ∧ e.keyIndex d.orderedKeys = some (T.largest s))
      ∨ (T.largest s = lp T s ∧ ∀ e ∈ d.edges, e.source = s → e.keyIndex d.orderedKeys = none) := by
    intro s
    unfold ConvertTables.largest
    cases hs : T.after s with
    | some c => left; exact hafter s c (by rw [← hTa]; exact hs)
    | none =>
      right
      refine ⟨rfl, ?_⟩
      rintro e he rfl
      cases hk : e.keyIndex d.orderedKeys with
      | none => rfl
      | some i =>
        obtain ⟨-, c, hc, -⟩ := a2 e he i hk
        rw [← hTa, hs] at hc
        simp at hc
  have horder : ∀ e ∈ d.edges, ∀ i, e.keyIndex d.orderedKeys = some i →
      lp T e.source ≤ i ∧ i ≤ T.largest e.source := by
    intro e he i hi
    obtain ⟨⟨τ, hτ, hle⟩, c, hc, hic⟩ := a2 e he i hi
    constructor
    · simp [lp, hTl, hτ, hle]
    · simp only [ConvertTables.largest, hTa, hc]; exact hic
  refine ⟨hkn, ?_, ?_, ?_, ?_, ?_, horder, ?_, hlarge, ?_, ?_⟩
  · obtain ⟨c, hc, -⟩ := p1 d.initial 0 hsingle
    rcases p3 d.initial c hc with h | ⟨e, he, h, -⟩
    · rw [hsingle] at h
      simp only [Option.some.injEq] at h
      simp [lp, hTl, hc, ← h]
    · exact absurd h (hinit e he)
  · obtain ⟨c, hc, hle⟩ := g1 d.initial 0 hsingle
    simp only [gu, hTg, hc, Option.getD_some]
    omega
  · intro e he
    rw [hTl]
    cases hk : e.keyIndex d.orderedKeys with
    | none => obtain ⟨u, hu⟩ := (p2 e he).1 hk; simp [hu]
    | some i => obtain ⟨⟨τ, hτ, -⟩, -⟩ := a2 e he i hk; simp [hτ]
  · intro e he
    obtain ⟨c, hc, hle⟩ := g2 e he
    simp only [gu, hTg, hc, Option.getD_some, hTl]
    exact hle
  · intro e he
    obtain ⟨-, c, hc, hle⟩ := p2 e he
    simp only [lp, hTl, hc, Option.getD_some]
    exact hle
  · intro s
    rcases hlarge s with ⟨e, he, rfl, hk⟩ | ⟨h, -⟩
    · exact (horder e he _ hk).1
    · omega
  · intro s
    unfold lp
    rw [hTl]
    cases hs : lpb s with
    | none => left; rfl
    | some c =>
      rcases p3 s c hs with h | ⟨e, he, h, h'⟩
      · left
        simp only [tableSingle] at h
        split at h
        · simp only [Option.some.injEq] at h; exact h.symm
        · simp at h
      · right; exact ⟨e, he, h, h'⟩
  · intro s
    unfold lp
    rw [hTl]
    cases hs : lpb s with
    | none => simp
    | some c =>
      refine possibleLoop_le (n := d.orderedKeys.length) (le_refl _) ?_ h1 s c hs
      intro s c h
      simp only [tableSingle] at h
      split at h
      · simp only [Option.some.injEq] at h; omega
      · simp at h

/-! ## Emitted edges -/

/-- The copy of an edge, with its group. -/
def copyOf (keys : List K) (T : ConvertTables S) (e : Edge S K V I) (i : Nat) :
    Nat × TaggedEdge S V :=
  match e.keyIndex keys, e.req with
  | some v, some (_, x) => (2 * v + 1, ⟨(e.source, v), (e.dest, v + 1), e.cost, some (v, x), some i⟩)
  | _, _ => (2 * lp T e.source, ⟨(e.source, lp T e.source), (e.dest, lp T e.source), e.cost, none, some i⟩)

theorem copyEdge_eq (keys : List K) (T : ConvertTables S) (kept : S → Bool) (e : Edge S K V I)
    (i : Nat) : copyEdge keys T kept e i
      = if kept e.dest = true ∧ e.cost < ⊤ then some (copyOf keys T e i) else none := by
  unfold copyEdge copyOf
  by_cases h1 : kept e.dest = true
  · by_cases h2 : e.cost < ⊤
    · simp only [h1, h2, Edge.isFinite, Bool.not_true, Bool.false_eq_true, ↓reduceIte, decide_true,
        and_self]
      cases e.keyIndex keys with
      | none => rfl
      | some v => cases e.req <;> rfl
    · simp [h1, h2, Edge.isFinite]
  · simp [h1]

theorem mem_edgesBySource {d : Dag S K V I} {s : S} {x : Edge S K V I × Nat} :
    x ∈ d.edgesBySource s ↔ d.edges[x.2]? = some x.1 ∧ x.1.source = s := by
  unfold Dag.edgesBySource
  rw [List.mem_filter, List.mem_zipIdx_iff_getElem?]
  simp

theorem mem_emitState {d : Dag S K V I} {keys : List K} {missing : V} {T : ConvertTables S}
    {kept : S → Bool} {s : S} {x : Nat × TaggedEdge S V} :
    x ∈ d.emitState keys missing T kept s ↔
      (∃ τ, gu T s ≤ τ ∧ τ < T.largest s ∧ x = missingEdge missing s τ)
      ∨ ∃ e i, d.edges[i]? = some e ∧ e.source = s ∧ kept e.dest = true ∧ e.cost < ⊤
          ∧ x = copyOf keys T e i := by
  unfold Dag.emitState
  rw [List.mem_append, List.mem_map, List.mem_filterMap]
  apply or_congr
  · constructor
    · rintro ⟨τ, hτ, rfl⟩
      rw [List.mem_range'_1] at hτ
      refine ⟨τ, hτ.1, ?_, rfl⟩
      omega
    · rintro ⟨τ, h1, h2, rfl⟩
      refine ⟨τ, ?_, rfl⟩
      rw [List.mem_range'_1]
      unfold gu at *
      omega
  · constructor
    · rintro ⟨⟨e, i⟩, h1, h2⟩
      rw [mem_edgesBySource] at h1
      rw [copyEdge_eq] at h2
      split at h2
      · rename_i h
        simp only [Option.some.injEq] at h2
        exact ⟨e, i, h1.1, h1.2, h.1, h.2, h2.symm⟩
      · simp at h2
    · rintro ⟨e, i, h1, h2, h3, h4, rfl⟩
      refine ⟨(e, i), mem_edgesBySource.2 ⟨h1, h2⟩, ?_⟩
      rw [copyEdge_eq, if_pos ⟨h3, h4⟩]

/-- Shape of emitted edges: group `g` leads from tag `g / 2` to tag `(g + 1) / 2`. -/
structure EmitShape (d : Dag S K V I) (s : S) (x : Nat × TaggedEdge S V) : Prop where
  src : x.2.source = (s, x.1 / 2)
  dst : x.2.dest.2 = (x.1 + 1) / 2
  even : x.1 % 2 = 0 → x.2.req = none ∧ ∃ e ∈ d.edges, e.source = s ∧ e.dest = x.2.dest.1
  odd : x.1 % 2 = 1 → ∃ v, x.2.req = some (x.1 / 2, v)

theorem emit_shape {d : Dag S K V I} {keys : List K} {missing : V} {T : ConvertTables S}
    {kept : S → Bool} {s : S} {x : Nat × TaggedEdge S V}
    (hx : x ∈ d.emitState keys missing T kept s) : EmitShape d s x := by
  rcases mem_emitState.1 hx with ⟨τ, h1, h2, rfl⟩ | ⟨e, i, h1, rfl, h3, h4, rfl⟩
  · unfold missingEdge
    refine ⟨?_, ?_, ?_, ?_⟩
    · simp only [Prod.mk.injEq, true_and]; omega
    · simp only; omega
    · simp only; omega
    · intro _; exact ⟨missing, by simp only [Option.some.injEq, Prod.mk.injEq, and_true]; omega⟩
  · have hmem := List.mem_of_getElem? h1
    unfold copyOf
    split
    · refine ⟨?_, ?_, ?_, ?_⟩
      · simp only [Prod.mk.injEq, true_and]; omega
      · simp only; omega
      · simp only; omega
      · intro _; exact ⟨_, by simp only [Option.some.injEq, Prod.mk.injEq]; exact ⟨by omega, rfl⟩⟩
    · refine ⟨?_, ?_, ?_, ?_⟩
      · simp only [Prod.mk.injEq, true_and]; omega
      · simp only; omega
      · intro _; exact ⟨rfl, e, hmem, rfl, rfl⟩
      · simp only; omega

/-! ## Paths of the tagged graph -/

/-- Membership in the list of tagged edges. -/
def TaggedMem (d : Dag S K V I) (keys : List K) (missing : V) (T : ConvertTables S)
    (states : List S) (TE : List (TaggedEdge S V)) : Prop :=
  ∀ e, e ∈ TE ↔ (∃ s ∈ states, ∃ τ, gu T s ≤ τ ∧ τ < T.largest s ∧ e = (missingEdge missing s τ).2)
    ∨ (∃ e0 i, d.edges[i]? = some e0 ∧ e0.dest ∈ states ∧ e0.cost < ⊤
        ∧ e = (copyOf keys T e0 i).2)

/-- The original edges behind a tagged path. -/
def origins (d : Dag S K V I) (q : List (TaggedEdge S V)) : List (Edge S K V I) :=
  q.filterMap fun e => e.info.bind fun i => d.edges[i]?

abbrev TWalk (TE : List (TaggedEdge S V)) : S × Nat → S × Nat → List (TaggedEdge S V) → Prop :=
  Walk TaggedEdge.source TaggedEdge.dest TE

theorem copyOf_some {keys : List K} {T : ConvertTables S} {e : Edge S K V I} {i v : Nat} {k : K}
    {x : V} (h : e.keyIndex keys = some v) (hr : e.req = some (k, x)) :
    copyOf keys T e i
      = (2 * v + 1, ⟨(e.source, v), (e.dest, v + 1), e.cost, some (v, x), some i⟩) := by
  simp [copyOf, h, hr]

theorem copyOf_none {keys : List K} {T : ConvertTables S} {e : Edge S K V I} {i : Nat}
    (h : e.keyIndex keys = none) :
    copyOf keys T e i = (2 * lp T e.source,
      ⟨(e.source, lp T e.source), (e.dest, lp T e.source), e.cost, none, some i⟩) := by
  simp [copyOf, h]

theorem chain_walk {d : Dag S K V I} {keys : List K} {missing : V} {T : ConvertTables S}
    {states : List S} {TE : List (TaggedEdge S V)} (hTE : TaggedMem d keys missing T states TE)
    {s : S} (hs : s ∈ states) (m t : Nat) (h1 : gu T s ≤ t) (h2 : t + m ≤ T.largest s) :
    ∃ q, TWalk TE (s, t) (s, t + m) q ∧ origins d q = [] := by
  induction m generalizing t with
  | zero => exact ⟨[], .nil _, rfl⟩
  | succ m ih =>
    obtain ⟨q, hq, ho⟩ := ih (t + 1) (by omega) (by omega)
    refine ⟨(missingEdge missing s t).2 :: q, ?_, ?_⟩
    · rw [TWalk, Walk.cons_iff]
      refine ⟨(hTE _).2 (.inl ⟨s, hs, t, h1, by omega, rfl⟩), rfl, ?_⟩
      have : t + (m + 1) = t + 1 + m := by omega
      rw [this]
      exact hq
    · simpa [origins, missingEdge] using ho

theorem forward_walk {d : Dag S K V I} {keys : List K} {missing : V} {T : ConvertTables S}
    {states : List S} {TE : List (TaggedEdge S V)} (hT : TablesOK d keys T)
    (hTE : TaggedMem d keys missing T states TE) (hsrc : ∀ e ∈ d.edges, e.source ∈ states)
    {X F : S} {p : List (Edge S K V I)} (hw : DagWalk d X F p) (hF : F ∈ states)
    (hfin : ∀ e ∈ p, e.cost < ⊤) (t : Nat) (h1 : gu T X ≤ t) (h2 : t ≤ lp T X) :
    ∃ q, TWalk TE (X, t) (F, lp T F) q ∧ origins d q = p := by
  induction hw generalizing t with
  | nil a =>
    obtain ⟨q, hq, ho⟩ := chain_walk hTE hF (lp T a - t) t h1
      (by have := hT.lp_largest a; omega)
    refine ⟨q, ?_, ho⟩
    rwa [show t + (lp T a - t) = lp T a by omega] at hq
  | @cons e b p he hw ih =>
    have hX := hsrc e he
    obtain ⟨i, hi⟩ := List.mem_iff_getElem?.1 he
    have hY : e.dest ∈ states := by
      rcases p with _ | ⟨e', p⟩
      · rw [Walk.nil_iff.1 hw]; exact hF
      · obtain ⟨g1, g2, -⟩ := Walk.cons_iff.1 hw
        have := hsrc e' g1
        rwa [← g2] at this
    have hlp := hT.lp_largest e.source
    have hmem : (copyOf keys T e i).2 ∈ TE :=
      (hTE _).2 (.inr ⟨e, i, hi, hY, hfin e (by simp), rfl⟩)
    have harr := hT.arrive_gu e he
    have harr' := hT.arrive_lp e he
    have hih := ih hF (fun e' he' => hfin e' (by simp [he']))
    cases hk : e.keyIndex keys with
    | none =>
      rw [arrivalTag_none hk] at harr harr'
      obtain ⟨q1, hq1, ho1⟩ := chain_walk hTE hX (lp T e.source - t) t h1 (by omega)
      obtain ⟨q2, hq2, ho2⟩ := hih (lp T e.source) harr harr'
      rw [show t + (lp T e.source - t) = lp T e.source by omega] at hq1
      rw [copyOf_none hk] at hmem
      refine ⟨q1 ++ _ :: q2, hq1.append (.cons hmem hq2), ?_⟩
      unfold origins at *
      rw [List.filterMap_append, ho1, List.filterMap_cons, ho2]
      simp [hi]
    | some v =>
      obtain ⟨k, x, hr, -, -⟩ := keyIndex_some hk
      rw [arrivalTag_some hk] at harr harr'
      obtain ⟨o1, o2⟩ := hT.order e he v hk
      obtain ⟨q1, hq1, ho1⟩ := chain_walk hTE hX (v - t) t h1 (by omega)
      obtain ⟨q2, hq2, ho2⟩ := hih (v + 1) harr harr'
      rw [show t + (v - t) = v by omega] at hq1
      rw [copyOf_some hk hr] at hmem
      refine ⟨q1 ++ _ :: q2, hq1.append (.cons hmem hq2), ?_⟩
      unfold origins at *
      rw [List.filterMap_append, ho1, List.filterMap_cons, ho2]
      simp [hi]

theorem valueOn_cons_eq {e : Edge S K V I} {p : List (Edge S K V I)} {k : K} {x : V}
    (h : e.req = some (k, x)) : valueOn (e :: p) k = some x := by
  simp [valueOn, h]

theorem valueOn_cons_ne {e : Edge S K V I} {p : List (Edge S K V I)} {k : K}
    (h : ∀ x, e.req ≠ some (k, x)) : valueOn (e :: p) k = valueOn p k := by
  unfold valueOn
  rw [List.findSome?_cons]
  cases hr : e.req with
  | none => rfl
  | some kx =>
    have : kx.1 ≠ k := by
      rintro rfl
      exact h kx.2 hr
    simp [this]

theorem valueOn_none {p : List (Edge S K V I)} {k : K} (h : ∀ e ∈ p, ∀ x, e.req ≠ some (k, x)) :
    valueOn p k = none := by
  induction p with
  | nil => rfl
  | cons e p ih =>
    rw [valueOn_cons_ne (h e (by simp)), ih (fun e' he' => h e' (by simp [he']))]

/-- The value a path assigns to the variable with index `i`, or the missing value. -/
def filled (keys : List K) (missing : V) (p : List (Edge S K V I)) (i : Nat) : Nat × V :=
  (i, ((keys[i]?).bind (valueOn p)).getD missing)

theorem backward_walk {d : Dag S K V I} {keys : List K} (hn : keys.Nodup) {missing : V}
    {T : ConvertTables S}
    {states : List S} {TE : List (TaggedEdge S V)} (hT : TablesOK d keys T)
    (hTE : TaggedMem d keys missing T states TE) {a b : S × Nat} {q : List (TaggedEdge S V)}
    (hw : TWalk TE a b q) :
    DagWalk d a.1 b.1 (origins d q) ∧ (∀ e ∈ origins d q, e.cost < ⊤)
    ∧ weight TaggedEdge.cost q = weight Edge.cost (origins d q)
    ∧ a.2 ≤ b.2
    ∧ (∀ e ∈ origins d q, ∀ k x, e.req = some (k, x) → ∃ i, keys[i]? = some k ∧ a.2 ≤ i ∧ i < b.2)
    ∧ q.filterMap TaggedEdge.req
        = (List.range' a.2 (b.2 - a.2)).map (filled keys missing (origins d q)) := by
  induction hw with
  | nil a => exact ⟨.nil _, by simp [origins], rfl, le_refl _, by simp [origins], by simp⟩
  | @cons e b q he hw ih =>
    obtain ⟨i1, i2, i3, i4, i5, i6⟩ := ih
    have hinj : ∀ {i j : Nat} {k : K}, keys[i]? = some k → keys[j]? = some k → i = j := by
      intro i j k hi hj
      have h1 : i < keys.length := (List.getElem?_eq_some_iff.1 hi).1
      exact (List.getElem?_inj h1 hn).1 (hi.trans hj.symm)
    have hstep : ∀ (e1 : Edge S K V I) (t : Nat), e.source.2 = t → t + 1 ≤ b.2 →
        (List.range' t (b.2 - t)) = t :: List.range' (t + 1) (b.2 - (t + 1)) := by
      intro e1 t _ ht
      rw [show b.2 - t = (b.2 - (t + 1)) + 1 by omega, List.range'_succ]
    rcases (hTE e).1 he with ⟨s, hs, τ, h1, h2, rfl⟩ | ⟨e0, i, hi, hY, hc, rfl⟩
    · have ho : origins d ((missingEdge missing s τ).2 :: q) = origins d q := by
        simp [origins, missingEdge]
      rw [ho]
      simp only [missingEdge] at *
      refine ⟨i1, i2, ?_, by omega, ?_, ?_⟩
      · rw [weight_cons, i3]; simp
      · intro e1 he1 k x hr
        obtain ⟨j, hj, hlo, hhi⟩ := i5 e1 he1 k x hr
        exact ⟨j, hj, by omega, hhi⟩
      · rw [List.filterMap_cons]
        simp only
        rw [i6, show b.2 - τ = (b.2 - (τ + 1)) + 1 by omega, List.range'_succ, List.map_cons]
        congr 1
        unfold filled
        congr 1
        cases hkk : keys[τ]? with
        | none => rfl
        | some k =>
          have : valueOn (origins d q) k = none := by
            apply valueOn_none
            intro e1 he1 x hr
            obtain ⟨j, hj, hlo, -⟩ := i5 e1 he1 k x hr
            have := hinj hkk hj
            omega
          simp [this]
    · have he0 := List.mem_of_getElem? hi
      cases hk : e0.keyIndex keys with
      | none =>
        have hreq := hT.keys_none e0 he0 hk
        rw [copyOf_none hk] at *
        have ho : origins d
            ((⟨(e0.source, lp T e0.source), (e0.dest, lp T e0.source), e0.cost, none, some i⟩ :
              TaggedEdge S V) :: q) = e0 :: origins d q := by
          simp [origins, hi]
        simp only at *
        rw [ho]
        refine ⟨.cons he0 i1, ?_, ?_, i4, ?_, ?_⟩
        · intro e1 he1
          rcases List.mem_cons.1 he1 with rfl | he1
          · exact hc
          · exact i2 e1 he1
        · rw [weight_cons, weight_cons, i3]
        · intro e1 he1 k x hr
          rcases List.mem_cons.1 he1 with rfl | he1
          · rw [hreq] at hr; simp at hr
          · exact i5 e1 he1 k x hr
        · rw [List.filterMap_cons]
          simp only
          rw [i6]
          apply List.map_congr_left
          intro j _
          unfold filled
          congr 2
          have : valueOn (e0 :: origins d q) = valueOn (origins d q) := by
            funext k
            exact valueOn_cons_ne (by rw [hreq]; simp)
          rw [this]
      | some v =>
        obtain ⟨k, x, hr, hkv, -⟩ := keyIndex_some hk
        rw [copyOf_some hk hr] at *
        have ho : origins d
            ((⟨(e0.source, v), (e0.dest, v + 1), e0.cost, some (v, x), some i⟩ :
              TaggedEdge S V) :: q) = e0 :: origins d q := by
          simp [origins, hi]
        simp only at *
        rw [ho]
        refine ⟨.cons he0 i1, ?_, ?_, by omega, ?_, ?_⟩
        · intro e1 he1
          rcases List.mem_cons.1 he1 with rfl | he1
          · exact hc
          · exact i2 e1 he1
        · rw [weight_cons, weight_cons, i3]
        · intro e1 he1 k' x' hr'
          rcases List.mem_cons.1 he1 with rfl | he1
          · rw [hr] at hr'
            simp only [Option.some.injEq, Prod.mk.injEq] at hr'
            rw [← hr'.1]
            exact ⟨v, hkv, le_refl _, by omega⟩
          · obtain ⟨j, hj, hlo, hhi⟩ := i5 e1 he1 k' x' hr'
            exact ⟨j, hj, by omega, hhi⟩
        · rw [List.filterMap_cons]
          simp only
          rw [i6, show b.2 - v = (b.2 - (v + 1)) + 1 by omega, List.range'_succ, List.map_cons]
          congr 1
          · unfold filled
            rw [hkv, Option.bind_some, valueOn_cons_eq hr]
            rfl
          · apply List.map_congr_left
            intro j hj
            rw [List.mem_range'_1] at hj
            unfold filled
            congr 2
            cases hjk : keys[j]? with
            | none => rfl
            | some k' =>
              simp only [Option.bind_some]
              refine (valueOn_cons_ne ?_).symm
              intro x' hr'
              rw [hr] at hr'
              simp only [Option.some.injEq, Prod.mk.injEq] at hr'
              rw [← hr'.1] at hjk
              have := hinj hkv hjk
              omega

end

end RUSure.Lemmas
