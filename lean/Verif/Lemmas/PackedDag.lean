import Verif.Lemmas.Relax
import Verif.Spec.PackedDag
import Mathlib.Tactic.Push

/-! # Lemmas about packed DAGs and their tables -/

namespace RUSure.Lemmas
open RUSure RUSure.Spec

theorem find_group (f : Nat → Nat) (M : Nat) (h0 : f 0 = 0) (k : Nat) (hk : k < f M) :
    ∃ i, i < M ∧ f i ≤ k ∧ k < f (i + 1) := by
  induction M with
  | zero => omega
  | succ M ih =>
    by_cases h : k < f M
    · obtain ⟨i, h1, h2, h3⟩ := ih h
      exact ⟨i, by omega, h2, h3⟩
    · exact ⟨M, by omega, by omega, hk⟩

theorem mono_of_step (f : Nat → Nat) (M : Nat) (h : ∀ i, i ≤ M → f i ≤ f (i + 1)) {i j : Nat}
    (hij : i ≤ j) (hj : j ≤ M + 1) : f i ≤ f j := by
  induction j with
  | zero => simp_all
  | succ j ih =>
    by_cases h' : i = j + 1
    · subst h'; exact le_refl _
    · exact (ih (by omega) (by omega)).trans (h j (by omega))

section
variable {d : PackedDag} (wf : PackedWF d)
include wf

theorem sb_le {i j : Nat} (hij : i ≤ j) (hj : j ≤ d.numKeys + 1) : d.sb i ≤ d.sb j :=
  mono_of_step d.sb d.numKeys wf.sb_mono hij hj

theorem eb_le {i j : Nat} (hij : i ≤ j) (hj : j ≤ 2 * d.numKeys + 1) : d.eb i ≤ d.eb j :=
  mono_of_step d.eb (2 * d.numKeys) wf.eb_mono hij hj

/-- The groups an edge can be in. -/
theorem edge_cases (k : Nat) (e : PackedEdge) (he : d.edges[k]? = some e) :
    (∃ τ ≤ d.numKeys, d.eb (2 * τ) ≤ k ∧ k < d.eb (2 * τ + 1) ∧ e.req = none
      ∧ HasTag d τ e.source ∧ HasTag d τ e.dest)
    ∨ (∃ v < d.numKeys, d.eb (2 * v + 1) ≤ k ∧ k < d.eb (2 * v + 2)
      ∧ (∃ x < d.numValues, e.req = some (v, x)) ∧ HasTag d v e.source ∧ HasTag d (v + 1) e.dest) := by
  have hk : k < d.eb (2 * d.numKeys + 1) := by
    rw [wf.eb_last]; exact (List.getElem?_eq_some_iff.1 he).1
  obtain ⟨i, h1, h2, h3⟩ := find_group d.eb _ wf.eb_zero k hk
  obtain ⟨τ, rfl | rfl⟩ : ∃ τ, i = 2 * τ ∨ i = 2 * τ + 1 := ⟨i / 2, by omega⟩
  · left
    exact ⟨τ, by omega, h2, h3, wf.between τ (by omega) k e h2 h3 he⟩
  · right
    exact ⟨τ, by omega, h2, h3, wf.assigning τ (by omega) k e h2 h3 he⟩

theorem edge_before {k : Nat} {e : PackedEdge} (he : d.edges[k]? = some e) {τ : Nat}
    (hτ : τ ≤ d.numKeys) (hk : k < d.eb (2 * τ + 1)) :
    e.source < d.sb (τ + 1) ∧ e.dest < d.sb (τ + 1) := by
  rcases edge_cases wf k e he with ⟨τ', h1, h2, h3, h4, h5, h6⟩ | ⟨v, h1, h2, h3, h4, h5, h6⟩
  · have : τ' ≤ τ := by
      by_contra hc
      have := eb_le wf (i := 2 * τ + 1) (j := 2 * τ') (by omega) (by omega)
      omega
    have := sb_le wf (i := τ' + 1) (j := τ + 1) (by omega) (by omega)
    exact ⟨lt_of_lt_of_le h5.2 this, lt_of_lt_of_le h6.2 this⟩
  · have : v + 1 ≤ τ := by
      by_contra hc
      have := eb_le wf (i := 2 * τ + 1) (j := 2 * v + 1) (by omega) (by omega)
      omega
    have h7 := sb_le wf (i := v + 1) (j := τ + 1) (by omega) (by omega)
    have h8 := sb_le wf (i := v + 1 + 1) (j := τ + 1) (by omega) (by omega)
    exact ⟨lt_of_lt_of_le h5.2 h7, lt_of_lt_of_le h6.2 h8⟩

theorem edge_from_assigning {k : Nat} {e : PackedEdge} (he : d.edges[k]? = some e) {τ : Nat}
    (hτ : τ ≤ d.numKeys) (hk : d.eb (2 * τ + 1) ≤ k) : d.sb (τ + 1) ≤ e.dest := by
  rcases edge_cases wf k e he with ⟨τ', h1, h2, h3, h4, h5, h6⟩ | ⟨v, h1, h2, h3, h4, h5, h6⟩
  · have : τ + 1 ≤ τ' := by
      by_contra hc
      have := eb_le wf (i := 2 * τ' + 1) (j := 2 * τ + 1) (by omega) (by omega)
      omega
    exact (sb_le wf this (by omega)).trans h6.1
  · have : τ ≤ v := by
      by_contra hc
      have := eb_le wf (i := 2 * v + 2) (j := 2 * τ + 1) (by omega) (by omega)
      omega
    exact (sb_le wf (i := τ + 1) (j := v + 1) (by omega) (by omega)).trans h6.1

theorem edge_before_between {k : Nat} {e : PackedEdge} (he : d.edges[k]? = some e) {τ : Nat}
    (hτ : τ ≤ d.numKeys) (hk : k < d.eb (2 * τ)) : e.source < d.sb τ := by
  rcases edge_cases wf k e he with ⟨τ', h1, h2, h3, h4, h5, h6⟩ | ⟨v, h1, h2, h3, h4, h5, h6⟩
  · have : τ' + 1 ≤ τ := by
      by_contra hc
      have := eb_le wf (i := 2 * τ) (j := 2 * τ') (by omega) (by omega)
      omega
    exact lt_of_lt_of_le h5.2 (sb_le wf this (by omega))
  · have : v + 1 ≤ τ := by
      by_contra hc
      have := eb_le wf (i := 2 * τ) (j := 2 * v + 1) (by omega) (by omega)
      omega
    exact lt_of_lt_of_le h5.2 (sb_le wf this (by omega))

theorem edge_from_between {k : Nat} {e : PackedEdge} (he : d.edges[k]? = some e) {τ : Nat}
    (hτ : τ ≤ d.numKeys) (hk : d.eb (2 * τ) ≤ k) : d.sb τ ≤ e.source ∧ d.sb τ ≤ e.dest := by
  rcases edge_cases wf k e he with ⟨τ', h1, h2, h3, h4, h5, h6⟩ | ⟨v, h1, h2, h3, h4, h5, h6⟩
  · have : τ ≤ τ' := by
      by_contra hc
      have := eb_le wf (i := 2 * τ' + 1) (j := 2 * τ) (by omega) (by omega)
      omega
    have h7 := sb_le wf this (by omega)
    exact ⟨h7.trans h5.1, h7.trans h6.1⟩
  · have : τ ≤ v := by
      by_contra hc
      have := eb_le wf (i := 2 * v + 2) (j := 2 * τ) (by omega) (by omega)
      omega
    have h7 := sb_le wf this (by omega)
    have h8 := sb_le wf (i := τ) (j := v + 1) (by omega) (by omega)
    exact ⟨h7.trans h5.1, h8.trans h6.1⟩

/-- Along an edge the tag does not decrease; states are in range. -/
theorem edge_tag_mono {e : PackedEdge} (he : e ∈ d.edges) :
    (∀ τ ≤ d.numKeys + 1, e.dest < d.sb τ → e.source < d.sb τ)
    ∧ (∀ τ ≤ d.numKeys + 1, d.sb τ ≤ e.source → d.sb τ ≤ e.dest)
    ∧ e.source < d.numStates ∧ e.dest < d.numStates := by
  obtain ⟨k, hk⟩ := List.getElem?_of_mem he
  have key : ∃ a b, a ≤ b ∧ b ≤ d.numKeys ∧ HasTag d a e.source ∧ HasTag d b e.dest := by
    rcases edge_cases wf k e hk with ⟨τ', h1, h2, h3, h4, h5, h6⟩ | ⟨v, h1, h2, h3, h4, h5, h6⟩
    · exact ⟨τ', τ', le_refl _, h1, h5, h6⟩
    · exact ⟨v, v + 1, by omega, h1, h5, h6⟩
  obtain ⟨a, b, hab, hb, h5, h6⟩ := key
  have hmono : ∀ τ ≤ d.numKeys + 1, e.dest < d.sb τ → e.source < d.sb τ := by
    intro τ hτ hd
    have : b < τ := by
      by_contra hc
      have := sb_le wf (i := τ) (j := b) (by omega) (by omega)
      have := h6.1
      omega
    exact lt_of_lt_of_le h5.2 (sb_le wf (i := a + 1) (j := τ) (by omega) (by omega))
  refine ⟨hmono, ?_, ?_, ?_⟩
  · intro τ hτ hs
    have : τ ≤ a := by
      by_contra hc
      have := sb_le wf (i := a + 1) (j := τ) (by omega) (by omega)
      have := h5.2
      omega
    exact (sb_le wf (i := τ) (j := b) (by omega) (by omega)).trans h6.1
  · rw [← wf.sb_last]
    exact lt_of_lt_of_le h5.2 (sb_le wf (by omega) (by omega))
  · rw [← wf.sb_last]
    exact lt_of_lt_of_le h6.2 (sb_le wf (by omega) (by omega))

end

theorem mem_edgeRange {d : PackedDag} {lo hi : Nat} {e : PackedEdge} :
    e ∈ d.edgeRange lo hi ↔ ∃ k, lo ≤ k ∧ k < hi ∧ d.edges[k]? = some e := by
  unfold PackedDag.edgeRange
  rw [List.mem_iff_getElem?]
  constructor
  · rintro ⟨i, hi'⟩
    rw [List.getElem?_take] at hi'
    split at hi'
    · rw [List.getElem?_drop] at hi'
      exact ⟨lo + i, by omega, by omega, hi'⟩
    · simp at hi'
  · rintro ⟨k, h1, h2, h3⟩
    refine ⟨k - lo, ?_⟩
    rw [List.getElem?_take, if_pos (by omega), List.getElem?_drop]
    rwa [show lo + (k - lo) = k by omega]

theorem edges_split (d : PackedDag) (lo hi : Nat) (h1 : lo ≤ hi) :
    d.edges = d.edgeRange 0 lo ++ (d.edgeRange lo hi ++ d.edgeRange hi d.edges.length) := by
  unfold PackedDag.edgeRange
  simp only [List.drop_zero, Nat.sub_zero]
  have ha : d.edges.drop lo = (d.edges.drop lo).take (hi - lo) ++ d.edges.drop hi := by
    conv_lhs => rw [← List.take_append_drop (hi - lo) (d.edges.drop lo)]
    rw [List.drop_drop, show lo + (hi - lo) = hi by omega]
  have hb : (d.edges.drop hi).take (d.edges.length - hi) = d.edges.drop hi := by
    rw [List.take_of_length_le]; simp
  rw [hb, ← ha, List.take_append_drop]

/-- Penalised weight of an edge. -/
def pw (pen : Penalties) (e : PackedEdge) : Cost := e.cost + e.penalty pen

theorem relaxDest_eq (pen : Penalties) :
    relaxDest pen = relax PackedEdge.source PackedEdge.dest (pw pen) := by
  funext t e
  simp [relaxDest, relax, pw, add_assoc]

theorem relaxSource_eq (pen : Penalties) :
    relaxSource pen = relax PackedEdge.dest PackedEdge.source (pw pen) := by
  funext t e
  simp [relaxSource, relax, pw, add_assoc]

/-- The full prefix table. -/
def fullPrefix (d : PackedDag) (pen : Penalties) : Nat → Cost :=
  relaxFold PackedEdge.source PackedEdge.dest (pw pen) d.edges (unitTable 0)

/-- The full suffix table. -/
def fullSuffix (d : PackedDag) (pen : Penalties) : Nat → Cost :=
  relaxFold PackedEdge.dest PackedEdge.source (pw pen) d.edges.reverse
    (unitTable (d.numStates - 1))

theorem fullPrefix_min {d : PackedDag} (wf : PackedWF d) (pen : Penalties) (s : Nat) :
    IsMinimum (fun p => PackedWalk d 0 s p) (pathCost pen) (fullPrefix d pen s) :=
  relaxFold_unit_min d.edges wf.topo 0 s

theorem fullSuffix_min {d : PackedDag} (wf : PackedWF d) (pen : Penalties) (s : Nat) :
    IsMinimum (fun p => PackedWalk d s (d.numStates - 1) p) (pathCost pen) (fullSuffix d pen s) :=
  relaxFold_unit_min_rev d.edges wf.topo (d.numStates - 1) s

/-- The invariant of memos. -/
structure MemoInv (d : PackedDag) (m : Memo) : Prop where
  dag : m.dag = d
  pv_le : m.pv ≤ d.numKeys + 1
  sv_le : m.sv ≤ d.numKeys + 1
  pre : ∀ s, s < d.sb m.pv → m.prefixTable s = fullPrefix d m.pen s
  suf : ∀ s, d.sb m.sv ≤ s → s < d.numStates → m.suffixTable s = fullSuffix d m.pen s

theorem emptyTable_inv {d : PackedDag} (wf : PackedWF d) (invalid : Cost) (pen : Penalties) :
    MemoInv d (emptyTable invalid d pen) := by
  refine ⟨rfl, by simp [emptyTable], by simp [emptyTable], ?_, ?_⟩
  · intro s hs
    simp [emptyTable, wf.sb_zero] at hs
  · intro s h1 h2
    simp only [emptyTable, wf.sb_last] at h1
    omega

theorem updatePrefixes_inv {d : PackedDag} (wf : PackedWF d) {m : Memo} (hm : MemoInv d m) {τ : Nat}
    (hτ : τ ≤ d.numKeys) :
    MemoInv d (m.updatePrefixes τ) ∧ τ + 1 ≤ (m.updatePrefixes τ).pv
      ∧ (m.updatePrefixes τ).pen = m.pen ∧ (m.updatePrefixes τ).sv = m.sv
      ∧ (m.updatePrefixes τ).suffixTable = m.suffixTable := by
  unfold Memo.updatePrefixes
  split
  · rename_i h
    exact ⟨hm, h, rfl, rfl, rfl⟩
  · rename_i hpv
    refine ⟨⟨hm.dag, by simp only; omega, hm.sv_le, ?_, hm.suf⟩, le_refl _, rfl, rfl, rfl⟩
    obtain ⟨dag, pen, pre, suf, pv, sv⟩ := m
    obtain ⟨rfl, hpl, hsl, hpre, hsuf⟩ := hm
    simp only at *
    intro s hs
    generalize hstart : (if pv = 0 then 0 else dag.eb (2 * (pv - 1) + 1)) = start
    have hstart_le : start ≤ dag.eb (2 * τ + 1) := by
      rw [← hstart]
      split
      · omega
      · exact eb_le wf (by omega) (by omega)
    have hstop_le : dag.eb (2 * τ + 1) ≤ dag.edges.length := by
      rw [← wf.eb_last]; exact eb_le wf (by omega) (by omega)
    unfold fullPrefix
    rw [relaxDest_eq]
    rw [show ∀ t, (dag.edgeRange start (dag.eb (2 * τ + 1))).foldl
        (relax PackedEdge.source PackedEdge.dest (pw pen)) t
        = relaxFold PackedEdge.source PackedEdge.dest (pw pen)
          (dag.edgeRange start (dag.eb (2 * τ + 1))) t from fun _ => rfl]
    have hsplit := edges_split dag start (dag.eb (2 * τ + 1)) hstart_le
    have hfull : ∀ t s, relaxFold PackedEdge.source PackedEdge.dest (pw pen) dag.edges t s
        = relaxFold PackedEdge.source PackedEdge.dest (pw pen)
          (dag.edgeRange (dag.eb (2 * τ + 1)) dag.edges.length)
          (relaxFold PackedEdge.source PackedEdge.dest (pw pen)
            (dag.edgeRange start (dag.eb (2 * τ + 1)))
            (relaxFold PackedEdge.source PackedEdge.dest (pw pen)
              (dag.edgeRange 0 start) t)) s := by
      intro t s
      conv_lhs => rw [hsplit]
      rw [relaxFold_append, relaxFold_append]
    rw [hfull, relaxFold_frame (fun s => s < dag.sb (τ + 1))
      (dag.edgeRange (dag.eb (2 * τ + 1)) dag.edges.length) _ _ s hs]
    · refine relaxFold_congr (fun s => s < dag.sb (τ + 1)) _ ?_ _ _ ?_ s hs
      · intro e he _
        obtain ⟨k, h1, h2, h3⟩ := mem_edgeRange.1 he
        exact ⟨(edge_before wf h3 hτ h2).1, rfl⟩
      · intro s hs
        by_cases h0 : pv = 0
        · subst h0
          simp only [↓reduceIte] at hstart
          subst hstart
          simp only [↓reduceIte, PackedDag.edgeRange, List.drop_zero, Nat.sub_zero, List.take_zero]
          simp only [relaxFold, List.foldl_nil, unitTable, setEntry, wf.sb_zero]
          split
          · rfl
          · simp [hs]
        · simp only [h0, ↓reduceIte] at hstart ⊢
          subst hstart
          have hlow : ∀ e ∈ dag.edgeRange 0 (dag.eb (2 * (pv - 1) + 1)), e.dest < dag.sb pv := by
            intro e he
            obtain ⟨k, h1, h2, h3⟩ := mem_edgeRange.1 he
            have := (edge_before wf h3 (τ := pv - 1) (by omega) h2).2
            rwa [show pv - 1 + 1 = pv by omega] at this
          by_cases hsp : s < dag.sb pv
          · rw [if_neg (by omega), hpre s hsp]
            unfold fullPrefix
            rw [hfull]
            have hhi : ∀ lo hi, dag.eb (2 * (pv - 1) + 1) ≤ lo →
                ∀ e ∈ dag.edgeRange lo hi, ¬ e.dest < dag.sb pv := by
              intro lo hi hlo e he
              obtain ⟨k, h1, h2, h3⟩ := mem_edgeRange.1 he
              have := edge_from_assigning wf h3 (τ := pv - 1) (by omega) (by omega)
              rw [show pv - 1 + 1 = pv by omega] at this
              omega
            rw [relaxFold_frame (fun s => s < dag.sb pv) _ (hhi _ _ hstart_le) _ s hsp,
              relaxFold_frame (fun s => s < dag.sb pv) _ (hhi _ _ (le_refl _)) _ s hsp]
          · rw [if_pos ⟨by omega, hs⟩]
            rw [relaxFold_frame (fun s => ¬ s < dag.sb pv) _ (fun e he => not_not.2 (hlow e he)) _ s
              hsp]
            have h1 := sb_le wf (i := 1) (j := pv) (by omega) (by omega)
            have h2 := wf.start.2
            rw [Nat.zero_add] at h2
            simp only [unitTable, setEntry]
            rw [if_neg (by omega)]
    · intro e he
      obtain ⟨k, h1, h2, h3⟩ := mem_edgeRange.1 he
      have := edge_from_assigning wf h3 hτ h1
      omega

theorem updateSuffixes_inv {d : PackedDag} (wf : PackedWF d) {m : Memo} (hm : MemoInv d m) {τ : Nat}
    (hτ : τ ≤ d.numKeys) :
    MemoInv d (m.updateSuffixes τ) ∧ (m.updateSuffixes τ).sv ≤ τ
      ∧ (m.updateSuffixes τ).pen = m.pen ∧ (m.updateSuffixes τ).pv = m.pv
      ∧ (m.updateSuffixes τ).prefixTable = m.prefixTable := by
  unfold Memo.updateSuffixes
  split
  · rename_i h
    exact ⟨hm, h, rfl, rfl, rfl⟩
  · rename_i hsv
    refine ⟨⟨hm.dag, hm.pv_le, by simp only; omega, hm.pre, ?_⟩, le_refl _, rfl, rfl, rfl⟩
    obtain ⟨dag, pen, pre, suf, pv, sv⟩ := m
    obtain ⟨rfl, hpl, hsl, hpre, hsuf⟩ := hm
    simp only at *
    intro s hs hsN
    generalize hstop : (if sv = dag.numKeys + 1 then dag.eb (2 * dag.numKeys + 1)
      else dag.eb (2 * sv)) = stop
    generalize hstart : (if τ = 0 then 0 else dag.eb (2 * τ)) = start
    have hstart' : start = dag.eb (2 * τ) := by
      rw [← hstart]
      split
      · rename_i h; subst h; simp [wf.eb_zero]
      · rfl
    clear hstart
    subst hstart'
    have hstart_le : dag.eb (2 * τ) ≤ stop := by
      rw [← hstop]
      split
      · exact eb_le wf (by omega) (by omega)
      · exact eb_le wf (by omega) (by omega)
    have hstop_le : stop ≤ dag.edges.length := by
      rw [← hstop, ← wf.eb_last]
      split
      · exact le_refl _
      · exact eb_le wf (by omega) (by omega)
    have hlast : HasTag dag dag.numKeys (dag.numStates - 1) := wf.final
    unfold fullSuffix
    rw [relaxSource_eq]
    rw [show ∀ t, (dag.edgeRange (dag.eb (2 * τ)) stop).reverse.foldl
        (relax PackedEdge.dest PackedEdge.source (pw pen)) t
        = relaxFold PackedEdge.dest PackedEdge.source (pw pen)
          (dag.edgeRange (dag.eb (2 * τ)) stop).reverse t from fun _ => rfl]
    have hsplit := edges_split dag (dag.eb (2 * τ)) stop hstart_le
    have hfull : ∀ t s, relaxFold PackedEdge.dest PackedEdge.source (pw pen) dag.edges.reverse t s
        = relaxFold PackedEdge.dest PackedEdge.source (pw pen)
          (dag.edgeRange 0 (dag.eb (2 * τ))).reverse
          (relaxFold PackedEdge.dest PackedEdge.source (pw pen)
            (dag.edgeRange (dag.eb (2 * τ)) stop).reverse
            (relaxFold PackedEdge.dest PackedEdge.source (pw pen)
              (dag.edgeRange stop dag.edges.length).reverse t)) s := by
      intro t s
      conv_lhs => rw [hsplit]
      rw [List.reverse_append, List.reverse_append, relaxFold_append, relaxFold_append]
    rw [hfull, relaxFold_frame (fun s => dag.sb τ ≤ s)
      (dag.edgeRange 0 (dag.eb (2 * τ))).reverse _ _ s hs]
    · refine relaxFold_congr (fun s => dag.sb τ ≤ s ∧ s < dag.numStates) _ ?_ _ _ ?_ s ⟨hs, hsN⟩
      · intro e he _
        obtain ⟨k, h1, h2, h3⟩ := mem_edgeRange.1 (List.mem_reverse.1 he)
        exact ⟨⟨(edge_from_between wf h3 hτ h1).2,
          (edge_tag_mono wf (List.mem_of_getElem? h3)).2.2.2⟩, rfl⟩
      · rintro s ⟨hs, hsN⟩
        by_cases h0 : sv = dag.numKeys + 1
        · subst h0
          simp only [↓reduceIte] at hstop
          rw [wf.eb_last] at hstop
          subst hstop
          simp only [↓reduceIte, PackedDag.edgeRange, Nat.sub_self, List.take_zero]
          simp only [relaxFold, List.foldl_nil, unitTable, setEntry, wf.sb_last, List.reverse_nil]
          split
          · rfl
          · simp [hs, hsN]
        · simp only [h0, ↓reduceIte] at hstop ⊢
          subst hstop
          have hhigh : ∀ e ∈ (dag.edgeRange (dag.eb (2 * sv)) dag.edges.length).reverse,
              dag.sb sv ≤ e.source := by
            intro e he
            obtain ⟨k, h1, h2, h3⟩ := mem_edgeRange.1 (List.mem_reverse.1 he)
            exact (edge_from_between wf h3 (by omega) h1).1
          by_cases hsp : s < dag.sb sv
          · rw [if_pos ⟨hs, hsp⟩]
            rw [relaxFold_frame (fun s => s < dag.sb sv) _ (fun e he => not_lt.2 (hhigh e he)) _ s
              hsp]
            have h1 := sb_le wf (i := sv) (j := dag.numKeys) (by omega) (by omega)
            have h2 := hlast.1
            simp only [unitTable, setEntry]
            rw [if_neg (by omega)]
          · rw [if_neg (by omega), hsuf s (by omega) hsN]
            unfold fullSuffix
            rw [hfull]
            have hhi : ∀ lo hi, hi ≤ dag.eb (2 * sv) →
                ∀ e ∈ (dag.edgeRange lo hi).reverse, ¬ dag.sb sv ≤ e.source := by
              intro lo hi hlo e he
              obtain ⟨k, h1, h2, h3⟩ := mem_edgeRange.1 (List.mem_reverse.1 he)
              have := edge_before_between wf h3 (τ := sv) (by omega) (by omega)
              omega
            rw [relaxFold_frame (fun s => dag.sb sv ≤ s) _ (hhi _ _ hstart_le) _ s (by omega),
              relaxFold_frame (fun s => dag.sb sv ≤ s) _ (hhi _ _ (le_refl _)) _ s (by omega)]
    · intro e he
      obtain ⟨k, h1, h2, h3⟩ := mem_edgeRange.1 (List.mem_reverse.1 he)
      have := edge_before_between wf h3 hτ h2
      omega

theorem setPenalties_inv {d : PackedDag} (wf : PackedWF d) {m : Memo} (hm : MemoInv d m) {v : Nat}
    (hv : v < d.numKeys) (p : Nat → Cost) : MemoInv d (m.setPenalties v p) := by
  obtain ⟨dag, pen, pre, suf, pv, sv⟩ := m
  obtain ⟨rfl, hpl, hsl, hpre, hsuf⟩ := hm
  simp only at *
  have hpw : ∀ e ∈ dag.edges, ¬ (dag.sb (v + 1) ≤ e.dest ∧ e.source < dag.sb (v + 1)) →
      pw pen e = pw (fun k => if k = v then p else pen k) e := by
    intro e he hne
    obtain ⟨k, hk⟩ := List.getElem?_of_mem he
    unfold pw PackedEdge.penalty
    rcases edge_cases wf k e hk with ⟨τ', h1, h2, h3, h4, h5, h6⟩ | ⟨v', h1, h2, h3, ⟨x, hx, h4⟩, h5, h6⟩
    · rw [h4]
    · rw [h4]
      have : v' ≠ v := by
        rintro rfl
        exact hne ⟨h6.1, h5.2⟩
      simp [this]
  refine ⟨rfl, ?_, ?_, ?_, ?_⟩
  · simp only [Memo.setPenalties]; omega
  · simp only [Memo.setPenalties]; omega
  · simp only [Memo.setPenalties]
    intro s hs
    have hle1 := sb_le wf (i := min pv (v + 1)) (j := pv) (by omega) (by omega)
    have hle2 := sb_le wf (i := min pv (v + 1)) (j := v + 1) (by omega) (by omega)
    rw [hpre s (by omega)]
    refine relaxFold_congr (fun s => s < dag.sb (v + 1)) _ ?_ _ _ (fun _ _ => rfl) s (by omega)
    intro e he hd
    exact ⟨(edge_tag_mono wf he).1 _ (by omega) hd, hpw e he (by omega)⟩
  · simp only [Memo.setPenalties]
    intro s hs hsN
    have hle1 := sb_le wf (i := sv) (j := max sv (v + 1)) (by omega) (by omega)
    have hle2 := sb_le wf (i := v + 1) (j := max sv (v + 1)) (by omega) (by omega)
    rw [hsuf s (by omega) hsN]
    refine relaxFold_congr (fun s => dag.sb (v + 1) ≤ s) _ ?_ _ _ (fun _ _ => rfl) s (by omega)
    intro e he hd
    rw [List.mem_reverse] at he
    exact ⟨(edge_tag_mono wf he).2.1 _ (by omega) hd, hpw e he (by omega)⟩

end RUSure.Lemmas
