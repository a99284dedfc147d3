import Verif.Lemmas.ConvertTagged
import Verif.Lemmas.PackedMore

/-! # Grouping, numbering and packing of tagged edges -/

set_option linter.unusedSectionVars false

namespace RUSure.Lemmas
open RUSure RUSure.Spec

/-! ## Lists -/

theorem mapAll_get {α β : Type} {f : α → Option β} {l : List α} {r : List β}
    (h : mapAll f l = some r) : r.length = l.length ∧ ∀ k : Nat, r[k]? = (l[k]?).bind f := by
  induction l generalizing r with
  | nil => simp only [mapAll, Option.some.injEq] at h; subst h; simp
  | cons a l ih =>
    simp only [mapAll] at h
    cases hf : f a with
    | none => rw [hf] at h; simp at h
    | some b =>
      cases hm : mapAll f l with
      | none => rw [hf, hm] at h; simp at h
      | some bs =>
        rw [hf, hm] at h
        simp only [Option.some.injEq] at h
        subst h
        obtain ⟨h1, h2⟩ := ih hm
        refine ⟨by simp [h1], ?_⟩
        intro k
        cases k with
        | zero => simp [hf]
        | succ k => simpa using h2 k

theorem mapAll_isSome {α β : Type} {f : α → Option β} {l : List α} (h : ∀ a ∈ l, ∃ b, f a = some b) :
    ∃ r, mapAll f l = some r := by
  induction l with
  | nil => exact ⟨[], rfl⟩
  | cons a l ih =>
    obtain ⟨b, hb⟩ := h a (by simp)
    obtain ⟨r, hr⟩ := ih (fun a' ha' => h a' (by simp [ha']))
    exact ⟨b :: r, by simp [mapAll, hb, hr]⟩

theorem mapAll_pairwise {α β : Type} {f : α → Option β} {R : α → α → Prop} {R' : β → β → Prop}
    (hR : ∀ a b x y, f a = some x → f b = some y → R a b → R' x y) {l : List α} {r : List β}
    (h : mapAll f l = some r) (hp : l.Pairwise R) : r.Pairwise R' := by
  obtain ⟨hl, hg⟩ := mapAll_get h
  rw [List.pairwise_iff_getElem] at hp ⊢
  intro i j hi hj hij
  have h1 := hg i
  have h2 := hg j
  rw [List.getElem?_eq_getElem hi, List.getElem?_eq_getElem (by omega), Option.bind_some] at h1
  rw [List.getElem?_eq_getElem hj, List.getElem?_eq_getElem (by omega), Option.bind_some] at h2
  exact hR _ _ _ _ h1.symm h2.symm (hp i j (by omega) (by omega) hij)

theorem mapAll_mem {α β : Type} {f : α → Option β} {l : List α} {r : List β}
    (h : mapAll f l = some r) {b : β} (hb : b ∈ r) : ∃ a ∈ l, f a = some b := by
  obtain ⟨k, hk⟩ := List.mem_iff_getElem?.1 hb
  rw [(mapAll_get h).2 k] at hk
  cases ha : l[k]? with
  | none => rw [ha] at hk; simp at hk
  | some a =>
    rw [ha] at hk
    exact ⟨a, List.mem_of_getElem? ha, hk⟩

/-- Positions in a flattened list. -/
theorem flatten_index {α : Type} (L : List (List α)) (g k : Nat) (e : α)
    (h1 : ((L.take g).map List.length).sum ≤ k) (h2 : k < ((L.take (g + 1)).map List.length).sum)
    (he : L.flatten[k]? = some e) : ∃ l, L[g]? = some l ∧ e ∈ l := by
  induction L generalizing g k with
  | nil => simp at he
  | cons l L ih =>
    cases g with
    | zero =>
      simp only [List.take_succ_cons, List.take_zero, List.map_cons, List.map_nil, List.sum_cons,
        List.sum_nil, add_zero] at h2
      rw [List.flatten_cons, List.getElem?_append_left h2] at he
      exact ⟨l, rfl, List.mem_of_getElem? he⟩
    | succ g =>
      simp only [List.take_succ_cons, List.map_cons, List.sum_cons] at h1 h2
      rw [List.flatten_cons, List.getElem?_append_right (by omega)] at he
      obtain ⟨l', h3, h4⟩ := ih g (k - l.length) (by omega)
        (by omega) he
      exact ⟨l', by simpa using h3, h4⟩

theorem take_sum_mono {α : Type} (L : List (List α)) (g : Nat) :
    ((L.take g).map List.length).sum ≤ ((L.take (g + 1)).map List.length).sum := by
  induction L generalizing g with
  | nil => simp
  | cons l L ih =>
    cases g with
    | zero => simp
    | succ g =>
      simp only [List.take_succ_cons, List.map_cons, List.sum_cons] at *
      have := ih g
      omega

section
variable {S K V I : Type} [DecidableEq S] [LinearOrder K] [LinearOrder V]

/-! ## State boundaries -/

theorem boundaryLoop_spec (n : Nat) (ss : List (S × Nat)) (i last : Nat) (b : Nat → Nat)
    (hs : ss.Pairwise (fun x y => x.2 ≤ y.2)) (hl : ∀ x ∈ ss, last ≤ x.2) (j : Nat)
    (hj : j ≤ n + 1) :
    boundaryLoop n ss i last b j
      = if j ≤ last then b j else i + ss.countP (fun x => decide (x.2 < j)) := by
  induction ss generalizing i last b with
  | nil =>
    simp only [boundaryLoop, List.countP_nil, add_zero]
    by_cases h : j ≤ last
    · simp [h, Nat.not_lt.2 h]
    · simp [h, Nat.lt_of_not_le h, hj]
  | cons s ss ih =>
    rw [List.pairwise_cons] at hs
    have hl0 := hl s (by simp)
    rw [boundaryLoop, ih (i + 1) s.2 _ hs.2 hs.1]
    by_cases h1 : j ≤ last
    · have : j ≤ s.2 := by omega
      simp [h1, this, Nat.not_lt.2 h1]
    · by_cases h2 : j ≤ s.2
      · have h0 : (s :: ss).countP (fun x => decide (x.2 < j)) = 0 := by
          rw [List.countP_eq_zero]
          intro x hx
          rcases List.mem_cons.1 hx with rfl | hx
          · simpa using h2
          · have := hs.1 x hx
            simp only [decide_eq_true_eq]; omega
        rw [h0]
        simp [h1, h2, Nat.lt_of_not_le h1]
      · have : s.2 < j := by omega
        rw [List.countP_cons]
        simp only [h1, h2, ↓reduceIte, this, decide_true]
        omega

theorem countP_sorted {ss : List (S × Nat)} (hs : ss.Pairwise (fun x y => x.2 ≤ y.2)) {i : Nat}
    {x : S × Nat} (hx : ss[i]? = some x) :
    ss.countP (fun y => decide (y.2 < x.2)) ≤ i
      ∧ i < ss.countP (fun y => decide (y.2 < x.2 + 1)) := by
  induction ss generalizing i with
  | nil => simp at hx
  | cons s ss ih =>
    rw [List.pairwise_cons] at hs
    rw [List.countP_cons, List.countP_cons]
    cases i with
    | zero =>
      simp only [List.getElem?_cons_zero, Option.some.injEq] at hx
      subst hx
      have : ss.countP (fun y => decide (y.2 < s.2)) = 0 := by
        rw [List.countP_eq_zero]
        intro y hy
        have := hs.1 y hy
        simp only [decide_eq_true_eq]; omega
      rw [this]
      simp
    | succ i =>
      simp only [List.getElem?_cons_succ] at hx
      obtain ⟨h1, h2⟩ := ih hs.2 hx
      have h3 := hs.1 x (List.mem_of_getElem? hx)
      constructor
      · split <;> omega
      · rw [if_pos (by simp only [decide_eq_true_eq]; omega)]; omega

/-! ## The packed DAG -/

/-- What is known about emitted edges. -/
structure EmitOK (d : Dag S K V I) (emitted : List (Nat × TaggedEdge S V)) : Prop where
  shape : ∀ x ∈ emitted, ∃ s, EmitShape d s x
  pair : emitted.Pairwise (fun x y => x.1 = y.1 → x.1 % 2 = 0 → y.2.dest ≠ x.2.source)
  noself : ∀ x ∈ emitted, x.2.dest ≠ x.2.source

/-- The flat list of tagged edges. -/
def flatEdges (n : Nat) (emitted : List (Nat × TaggedEdge S V)) : List (TaggedEdge S V) :=
  ((List.range (2 * n + 1)).map (groupEdges emitted)).flatten

theorem mem_groupEdges {emitted : List (Nat × TaggedEdge S V)} {g : Nat} {e : TaggedEdge S V} :
    e ∈ groupEdges emitted g ↔ (g, e) ∈ emitted := by
  unfold groupEdges
  rw [List.mem_map]
  constructor
  · rintro ⟨⟨g', e'⟩, h, rfl⟩
    rw [List.mem_filter] at h
    have : g' = g := by simpa using h.2
    rw [← this]
    exact h.1
  · intro h
    exact ⟨(g, e), List.mem_filter.2 ⟨h, by simp⟩, rfl⟩

theorem mem_flatEdges {n : Nat} {emitted : List (Nat × TaggedEdge S V)} {e : TaggedEdge S V} :
    e ∈ flatEdges n emitted ↔ ∃ g, g < 2 * n + 1 ∧ (g, e) ∈ emitted := by
  unfold flatEdges
  rw [List.mem_flatten]
  constructor
  · rintro ⟨l, hl, he⟩
    obtain ⟨g, hg, rfl⟩ := List.mem_map.1 hl
    exact ⟨g, List.mem_range.1 hg, mem_groupEdges.1 he⟩
  · rintro ⟨g, hg, he⟩
    exact ⟨_, List.mem_map.2 ⟨g, List.mem_range.2 hg, rfl⟩, mem_groupEdges.2 he⟩

variable {d : Dag S K V I} {emitted : List (Nat × TaggedEdge S V)}

theorem flat_pairwise {n : Nat} {R : TaggedEdge S V → TaggedEdge S V → Prop}
    (h1 : emitted.Pairwise (fun x y => x.1 = y.1 → R x.2 y.2))
    (h2 : ∀ x ∈ emitted, ∀ y ∈ emitted, x.1 < y.1 → R x.2 y.2) :
    (flatEdges n emitted).Pairwise R := by
  unfold flatEdges
  rw [List.pairwise_flatten]
  constructor
  · intro l hl
    obtain ⟨g, -, rfl⟩ := List.mem_map.1 hl
    unfold groupEdges
    rw [List.pairwise_map]
    refine List.Pairwise.imp_of_mem ?_ (List.Pairwise.sublist List.filter_sublist h1)
    intro x y hx hy h
    have e1 : x.1 = g := by simpa using (List.mem_filter.1 hx).2
    have e2 : y.1 = g := by simpa using (List.mem_filter.1 hy).2
    exact h (by omega)
  · rw [List.pairwise_map]
    refine List.Pairwise.imp ?_ (List.pairwise_lt_range (n := 2 * n + 1))
    intro g g' hgg x hx y hy
    exact h2 (g, x) (mem_groupEdges.1 hx) (g', y) (mem_groupEdges.1 hy) hgg

theorem flat_tags (h : EmitOK d emitted) (n : Nat) :
    (flatEdges n emitted).Pairwise (fun x y => x.source.2 ≤ y.source.2) := by
  have tag : ∀ x ∈ emitted, x.2.source.2 = x.1 / 2 := by
    intro x hx
    obtain ⟨s, hs⟩ := h.shape x hx
    rw [hs.src]
  apply flat_pairwise
  · refine List.Pairwise.imp_of_mem (R := fun _ _ => True) ?_ (List.pairwise_of_forall (fun _ _ => trivial))
    intro x y hx hy _ hxy
    rw [tag x hx, tag y hy, hxy]
  · intro x hx y hy hxy
    rw [tag x hx, tag y hy]
    omega

theorem flat_topo (h : EmitOK d emitted) (n : Nat) :
    Topo TaggedEdge.source TaggedEdge.dest (flatEdges n emitted) := by
  constructor
  · apply flat_pairwise
    · refine List.Pairwise.imp_of_mem ?_ h.pair
      intro x y hx hy hp hxy
      rcases Nat.mod_two_eq_zero_or_one x.1 with h0 | h0
      · exact hp hxy h0
      · obtain ⟨s, hs⟩ := h.shape x hx
        obtain ⟨s', hs'⟩ := h.shape y hy
        intro hc
        have h1 := hs'.dst
        rw [hc, hs.src] at h1
        simp only at h1
        omega
    · intro x hx y hy hxy hc
      obtain ⟨s, hs⟩ := h.shape x hx
      obtain ⟨s', hs'⟩ := h.shape y hy
      have h1 := hs'.dst
      rw [hc, hs.src] at h1
      simp only at h1
      omega
  · intro e he
    obtain ⟨g, -, hg⟩ := mem_flatEdges.1 he
    exact h.noself _ hg

/-- What a successful assembly produces. -/
structure Assembled (initial final : S) (keys : List K) (values : List V)
    (emitted : List (Nat × TaggedEdge S V)) (c : Conversion S K V) : Prop where
  keys_eq : c.keys = keys
  values_eq : c.values = values
  edges_eq : c.taggedEdges = flatEdges keys.length emitted
  states_eq : c.taggedStates
    = firstSeen TaggedEdge.source (flatEdges keys.length emitted) ++ [(final, keys.length)]
  first : ∃ r, firstSeen TaggedEdge.source (flatEdges keys.length emitted) = (initial, 0) :: r
  final_new : (final, keys.length) ∉ firstSeen TaggedEdge.source (flatEdges keys.length emitted)
  packed : mapAll (packEdge c.taggedStates values) c.taggedEdges = some c.packed.edges
  numStates : c.packed.numStates = c.taggedStates.length
  numKeys : c.packed.numKeys = keys.length
  numValues : c.packed.numValues = values.length
  edgeBounds : c.packed.edgeBounds = (List.range (2 * keys.length + 2)).map fun g =>
    ((((List.range (2 * keys.length + 1)).map (groupEdges emitted)).take g).map List.length).sum
  stateBounds : c.packed.stateBounds = (List.range (keys.length + 2)).map
    (boundaryLoop keys.length c.taggedStates 0 0 (fun _ => 0))

theorem assemble_ok {initial final : S} {keys : List K} {values : List V}
    {c : Conversion S K V} (h : assemble initial final keys values emitted = .ok c) :
    Assembled initial final keys values emitted c := by
  unfold assemble at h
  dsimp only at h
  rw [tableOrder_eq] at h
  have hfl : (List.map (groupEdges emitted) (List.range (2 * keys.length + 1))).flatten
      = flatEdges keys.length emitted := rfl
  rw [hfl] at h
  cases ho : firstSeen TaggedEdge.source (flatEdges keys.length emitted) with
  | nil => rw [ho] at h; simp at h
  | cons s r =>
    rw [ho] at h
    dsimp only at h
    split at h
    · simp at h
    rename_i hs
    split at h
    · simp at h
    rename_i hf
    split at h
    · simp at h
    rename_i pe hpe
    simp only [Except.ok.injEq] at h
    subst h
    refine ⟨rfl, rfl, rfl, by rw [ho], ⟨r, ?_⟩, by rw [ho]; exact hf, hpe, rfl, rfl, rfl, rfl, rfl⟩
    rw [ho]
    have : s = (initial, 0) := by simpa using hs
    rw [this]

section
variable {initial final : S} {keys : List K} {values : List V} {c : Conversion S K V}

theorem packEdge_some {states : List (S × Nat)} {e : TaggedEdge S V} {pe : PackedEdge}
    (h : packEdge states values e = some pe) :
    dictIndex states e.source = some pe.source ∧ dictIndex states e.dest = some pe.dest
    ∧ pe.cost = e.cost
    ∧ ((e.req = none ∧ pe.req = none)
      ∨ ∃ k x v, e.req = some (k, x) ∧ dictIndex values x = some v ∧ pe.req = some (k, v)) := by
  unfold packEdge at h
  cases h1 : dictIndex states e.source with
  | none => rw [h1] at h; simp at h
  | some s =>
    cases h2 : dictIndex states e.dest with
    | none => rw [h1, h2] at h; simp at h
    | some t =>
      rw [h1, h2] at h
      simp only at h
      cases hr : e.req with
      | none =>
        rw [hr] at h
        simp only [Option.some.injEq] at h
        subst h
        exact ⟨rfl, rfl, rfl, .inl ⟨rfl, rfl⟩⟩
      | some kx =>
        obtain ⟨k, x⟩ := kx
        rw [hr] at h
        simp only at h
        cases h3 : dictIndex values x with
        | none => rw [h3] at h; simp at h
        | some v =>
          rw [h3] at h
          simp only [Option.some.injEq] at h
          subst h
          exact ⟨rfl, rfl, rfl, .inr ⟨k, x, v, rfl, h3, rfl⟩⟩

theorem Assembled.nodup (h : Assembled initial final keys values emitted c) :
    c.taggedStates.Nodup := by
  rw [h.states_eq, List.nodup_append]
  refine ⟨firstSeen_nodup _ _, by simp, ?_⟩
  intro a ha b hb hab
  rw [List.mem_singleton] at hb
  rw [hab, hb] at ha
  exact h.final_new ha

theorem Assembled.tag_le (hE : EmitOK d emitted)
    (h : Assembled initial final keys values emitted c) {x : S × Nat} (hx : x ∈ c.taggedStates) :
    x.2 ≤ keys.length := by
  rw [h.states_eq, List.mem_append] at hx
  rcases hx with hx | hx
  · rw [mem_firstSeen] at hx
    obtain ⟨e, he, rfl⟩ := hx
    obtain ⟨g, hg, hm⟩ := mem_flatEdges.1 he
    obtain ⟨s, hs⟩ := hE.shape _ hm
    rw [hs.src]
    simp only
    omega
  · rw [List.mem_singleton] at hx
    rw [hx]

theorem Assembled.sorted (hE : EmitOK d emitted)
    (h : Assembled initial final keys values emitted c) :
    c.taggedStates.Pairwise (fun x y => x.2 ≤ y.2) := by
  rw [h.states_eq, List.pairwise_append]
  refine ⟨?_, by simp, ?_⟩
  · refine List.Pairwise.sublist (firstSeen_sublist _ _) ?_
    rw [List.pairwise_map]
    exact flat_tags hE _
  · intro a ha b hb
    rw [List.mem_singleton] at hb
    subst hb
    exact h.tag_le hE (by rw [h.states_eq, List.mem_append]; exact .inl ha)

theorem Assembled.sb (hE : EmitOK d emitted)
    (h : Assembled initial final keys values emitted c) {j : Nat} (hj : j ≤ keys.length + 1) :
    c.packed.sb j = c.taggedStates.countP (fun x => decide (x.2 < j)) := by
  unfold PackedDag.sb
  rw [h.stateBounds, List.getD_eq_getElem?_getD, List.getElem?_map,
    List.getElem?_range (by omega), Option.map_some, Option.getD_some,
    boundaryLoop_spec _ _ _ _ _ (h.sorted hE) (by simp) j hj]
  by_cases h0 : j ≤ 0
  · have : j = 0 := by omega
    subst this
    simp
  · simp [h0]

theorem Assembled.eb (h : Assembled initial final keys values emitted c) {g : Nat}
    (hg : g ≤ 2 * keys.length + 1) :
    c.packed.eb g = ((((List.range (2 * keys.length + 1)).map (groupEdges emitted)).take g).map
      List.length).sum := by
  unfold PackedDag.eb
  rw [h.edgeBounds, List.getD_eq_getElem?_getD, List.getElem?_map,
    List.getElem?_range (by omega), Option.map_some, Option.getD_some]

theorem Assembled.hasTag (hE : EmitOK d emitted)
    (h : Assembled initial final keys values emitted c) {x : S × Nat} {i : Nat}
    (hi : dictIndex c.taggedStates x = some i) : HasTag c.packed x.2 i := by
  have hg := dictIndex_get hi
  have hle := h.tag_le hE (List.mem_of_getElem? hg)
  obtain ⟨h1, h2⟩ := countP_sorted (h.sorted hE) hg
  unfold HasTag
  rw [h.sb hE (by omega), h.sb hE (by omega)]
  exact ⟨h1, h2⟩

theorem Assembled.edge_at (h : Assembled initial final keys values emitted c) {k : Nat}
    {pe : PackedEdge} (hk : c.packed.edges[k]? = some pe) :
    ∃ e, c.taggedEdges[k]? = some e ∧ packEdge c.taggedStates values e = some pe := by
  rw [(mapAll_get h.packed).2 k] at hk
  cases he : c.taggedEdges[k]? with
  | none => rw [he] at hk; simp at hk
  | some e => rw [he] at hk; exact ⟨e, rfl, hk⟩

theorem Assembled.group_at (hE : EmitOK d emitted)
    (h : Assembled initial final keys values emitted c) {g k : Nat} (hg : g ≤ 2 * keys.length)
    {pe : PackedEdge} (h1 : c.packed.eb g ≤ k) (h2 : k < c.packed.eb (g + 1))
    (hk : c.packed.edges[k]? = some pe) :
    ∃ e s, packEdge c.taggedStates values e = some pe ∧ EmitShape d s (g, e) := by
  obtain ⟨e, he, hpe⟩ := h.edge_at hk
  rw [h.eb (by omega)] at h1 h2
  rw [h.edges_eq] at he
  obtain ⟨l, hl, hel⟩ := flatten_index _ g k e h1 h2 he
  rw [List.getElem?_map, List.getElem?_range (by omega)] at hl
  simp only [Option.map_some, Option.some.injEq] at hl
  subst hl
  obtain ⟨s, hs⟩ := hE.shape _ (mem_groupEdges.1 hel)
  exact ⟨e, s, hpe, hs⟩

theorem Assembled.wf (hE : EmitOK d emitted)
    (h : Assembled initial final keys values emitted c) : PackedWF c.packed := by
  have hn := h.numKeys
  have hsb : ∀ j, j ≤ keys.length + 1 → c.packed.sb j
      = c.taggedStates.countP (fun x => decide (x.2 < j)) := fun j hj => h.sb hE hj
  refine ⟨?_, ?_, ?_, ?_, ?_, ?_, ?_, ?_, ?_, ?_, ?_⟩
  · rw [hsb 0 (by omega)]; simp
  · rw [hn, hsb _ (le_refl _), h.numStates, List.countP_eq_length]
    intro x hx
    have := h.tag_le hE hx
    simp only [decide_eq_true_eq]; omega
  · intro i hi
    rw [hn] at hi
    rw [hsb i (by omega), hsb (i + 1) (by omega)]
    apply List.countP_mono_left
    intro x _ hx
    simp only [decide_eq_true_eq] at *; omega
  · rw [h.eb (by omega)]; simp
  · rw [hn, h.eb (le_refl _), (mapAll_get h.packed).1, h.edges_eq]
    unfold flatEdges
    rw [List.length_flatten, List.take_of_length_le (by simp)]
  · intro i hi
    rw [hn] at hi
    rw [h.eb (by omega), h.eb (by omega)]
    exact take_sum_mono _ i
  · intro τ hτ k pe h1 h2 hk
    rw [hn] at hτ
    obtain ⟨e, s, hpe, hs⟩ := h.group_at hE (by omega) h1 h2 hk
    obtain ⟨p1, p2, -, p4⟩ := packEdge_some hpe
    obtain ⟨hr, -⟩ := hs.even (by simp)
    have t1 := h.hasTag hE p1
    have t2 := h.hasTag hE p2
    rw [hs.src] at t1
    rw [hs.dst] at t2
    simp only at t1 t2 hr
    refine ⟨?_, by rwa [show 2 * τ / 2 = τ by omega] at t1,
      by rwa [show (2 * τ + 1) / 2 = τ by omega] at t2⟩
    rcases p4 with ⟨-, h4⟩ | ⟨k', x, v, h4, -⟩
    · exact h4
    · rw [hr] at h4; simp at h4
  · intro v hv k pe h1 h2 hk
    rw [hn] at hv
    obtain ⟨e, s, hpe, hs⟩ := h.group_at hE (g := 2 * v + 1) (by omega) h1 h2 hk
    obtain ⟨p1, p2, -, p4⟩ := packEdge_some hpe
    obtain ⟨x, hr⟩ := hs.odd (by simp only; omega)
    have t1 := h.hasTag hE p1
    have t2 := h.hasTag hE p2
    rw [hs.src] at t1
    rw [hs.dst] at t2
    simp only at t1 t2 hr
    rw [show (2 * v + 1) / 2 = v by omega] at t1 hr
    refine ⟨?_, t1, by rwa [show (2 * v + 1 + 1) / 2 = v + 1 by omega] at t2⟩
    rcases p4 with ⟨h4, -⟩ | ⟨k', x', w, h4, h5, h6⟩
    · rw [hr] at h4; simp at h4
    · rw [hr] at h4
      simp only [Option.some.injEq, Prod.mk.injEq] at h4
      refine ⟨w, ?_, by rw [h6, ← h4.1]⟩
      rw [h.numValues]
      exact dictIndex_lt h5
  · have ht := flat_topo hE keys.length
    rw [← h.edges_eq] at ht
    constructor
    · refine mapAll_pairwise ?_ h.packed ht.1
      intro a b x y hx hy hab hc
      apply hab
      have h1 := (packEdge_some hx).1
      have h2 := (packEdge_some hy).2.1
      rw [hc] at h2
      exact dictIndex_inj h2 h1
    · intro pe hpe hc
      obtain ⟨e, he, hp⟩ := mapAll_mem h.packed hpe
      have h1 := (packEdge_some hp).1
      have h2 := (packEdge_some hp).2.1
      rw [hc] at h2
      exact ht.2 e he (dictIndex_inj h2 h1)
  · obtain ⟨r, hr⟩ := h.first
    have : dictIndex c.taggedStates (initial, 0) = some 0 := by
      apply dictIndex_of_get h.nodup
      rw [h.states_eq, hr]; simp
    exact h.hasTag hE this
  · have : dictIndex c.taggedStates (final, keys.length) = some (c.taggedStates.length - 1) := by
      apply dictIndex_of_get h.nodup
      rw [h.states_eq]; simp
    rw [hn, h.numStates]
    exact h.hasTag hE this

/-- Packed and tagged paths correspond. -/
def Corr (c : Conversion S K V) (values : List V) :
    List (Nat × PackedEdge) → List (TaggedEdge S V) → Prop :=
  List.Forall₂ fun o e => c.taggedEdges[o.1]? = some e
    ∧ packEdge c.taggedStates values e = some o.2

theorem Assembled.pack_walk (h : Assembled initial final keys values emitted c) {a b : S × Nat}
    {q : List (TaggedEdge S V)} (hw : TWalk c.taggedEdges a b q) {ia : Nat}
    (ha : dictIndex c.taggedStates a = some ia) :
    ∃ q' ib, Corr c values q' q ∧ IndexedPath c.packed q' ∧ dictIndex c.taggedStates b = some ib
      ∧ PackedWalk c.packed ia ib (q'.map Prod.snd) := by
  induction hw generalizing ia with
  | nil a => exact ⟨[], ia, .nil, by simp [IndexedPath], ha, .nil _⟩
  | @cons e b q he hw ih =>
    obtain ⟨k, hk⟩ := List.mem_iff_getElem?.1 he
    have hk' : c.packed.edges[k]? = packEdge c.taggedStates values e := by
      rw [(mapAll_get h.packed).2 k, hk, Option.bind_some]
    have hlt : k < c.packed.edges.length := by
      rw [(mapAll_get h.packed).1]
      exact (List.getElem?_eq_some_iff.1 hk).1
    rw [List.getElem?_eq_getElem hlt] at hk'
    obtain ⟨p1, p2, -, -⟩ := packEdge_some hk'.symm
    obtain ⟨q', ib, h1, h2, h3, h4⟩ := ih p2
    have hia : ia = c.packed.edges[k].source := by
      rw [ha] at p1
      simpa using p1
    refine ⟨(k, c.packed.edges[k]) :: q', ib, .cons ⟨hk, hk'.symm⟩ h1, ?_, h3, ?_⟩
    · intro o ho
      rcases List.mem_cons.1 ho with rfl | ho
      · exact List.getElem?_eq_getElem hlt
      · exact h2 o ho
    · rw [List.map_cons, hia]
      exact .cons (List.getElem_mem hlt) h4

theorem Assembled.unpack_walk (h : Assembled initial final keys values emitted c) {ia ib : Nat}
    {q' : List (Nat × PackedEdge)} (hw : PackedWalk c.packed ia ib (q'.map Prod.snd))
    (hi : IndexedPath c.packed q') {a : S × Nat} (ha : dictIndex c.taggedStates a = some ia) :
    ∃ q b, Corr c values q' q ∧ dictIndex c.taggedStates b = some ib
      ∧ TWalk c.taggedEdges a b q := by
  induction q' generalizing ia a with
  | nil =>
    rw [List.map_nil, PackedWalk, Walk.nil_iff] at hw
    subst hw
    exact ⟨[], a, .nil, ha, .nil _⟩
  | cons o q' ih =>
    rw [List.map_cons, PackedWalk, Walk.cons_iff] at hw
    obtain ⟨-, w2, w3⟩ := hw
    obtain ⟨e, he, hp⟩ := h.edge_at (hi o (by simp))
    obtain ⟨p1, p2, -, -⟩ := packEdge_some hp
    obtain ⟨q, b, h1, h2, h3⟩ := ih w3 (fun o' ho' => hi o' (by simp [ho'])) p2
    refine ⟨e :: q, b, .cons ⟨he, hp⟩ h1, h2, ?_⟩
    rw [w2] at ha
    rw [dictIndex_inj ha p1]
    exact .cons (List.mem_of_getElem? he) h3

theorem Corr.weight {q' : List (Nat × PackedEdge)} {q : List (TaggedEdge S V)}
    (h : Corr c values q' q) :
    weight PackedEdge.cost (q'.map Prod.snd) = weight TaggedEdge.cost q := by
  induction h with
  | nil => rfl
  | cons h _ ih =>
    rw [List.map_cons, weight_cons, weight_cons, ih, (packEdge_some h.2).2.2.1]

theorem Corr.original {q' : List (Nat × PackedEdge)} {q : List (TaggedEdge S V)}
    (h : Corr c values q' q) : c.originalPath d q' = origins d q := by
  unfold Conversion.originalPath origins
  induction h with
  | nil => rfl
  | cons h _ ih => rw [List.filterMap_cons, List.filterMap_cons, ih, h.1, Option.bind_some]

theorem Corr.assignments {q' : List (Nat × PackedEdge)} {q : List (TaggedEdge S V)}
    (h : Corr c values q' q) : c.pathAssignments q'
      = (q.filterMap TaggedEdge.req).filterMap (fun kv => (c.keys[kv.1]?).map fun k => (k, kv.2)) := by
  unfold Conversion.pathAssignments
  induction h with
  | nil => rfl
  | @cons o e q' q h _ ih =>
    rw [List.filterMap_cons, List.filterMap_cons, ih, h.1, Option.bind_some]
    cases hr : e.req with
    | none => rfl
    | some kx =>
      simp only [Option.bind_some]
      rw [List.filterMap_cons]

theorem Corr.reqs {q' : List (Nat × PackedEdge)} {q : List (TaggedEdge S V)}
    (h : Corr c values q' q) : (q'.map Prod.snd).filterMap PackedEdge.req
      = (q.filterMap TaggedEdge.req).filterMap
          (fun kv => (dictIndex values kv.2).map fun v => (kv.1, v)) := by
  induction h with
  | nil => rfl
  | @cons o e q' q h _ ih =>
    rw [List.map_cons, List.filterMap_cons, List.filterMap_cons, ih]
    rcases (packEdge_some h.2).2.2.2 with ⟨h1, h2⟩ | ⟨k, x, v, h1, h2, h3⟩
    · rw [h1, h2]
    · rw [h1, h3]
      simp only
      rw [List.filterMap_cons]
      simp [h2]

end

end

end RUSure.Lemmas
