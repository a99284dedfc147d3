import Verif.Lemmas.RoundedRelax
import Verif.Lemmas.PackedPaths

/-! # The tables in machine arithmetic -/

namespace RUSure.Lemmas.Rnd
open RUSure RUSure.Spec RUSure.Lemmas RUSure.Rounded

variable (A : Machine)

/-- The cost of a path extended by an edge. -/
def px (pen : Penalties) (e : PackedEdge) (c : Cost) : Cost :=
  A.add (A.add c e.cost) (e.penalty pen)

theorem px_mono (pen : Penalties) (e : PackedEdge) (c c' : Cost) (h : c ≤ c') :
    px A pen e c ≤ px A pen e c' :=
  A.mono (A.mono h (le_refl _)) (le_refl _)

theorem px_top (pen : Penalties) (e : PackedEdge) : px A pen e ⊤ = ⊤ := by
  simp [px, A.top_left]

theorem relaxDest_eq (pen : Penalties) :
    Rounded.relaxDest A pen = relax PackedEdge.source PackedEdge.dest (px A pen) := rfl

theorem relaxSource_eq (pen : Penalties) :
    Rounded.relaxSource A pen = relax PackedEdge.dest PackedEdge.source (px A pen) := rfl

/-- The full prefix table. -/
def fullPrefix (d : PackedDag) (pen : Penalties) : Nat → Cost :=
  relaxFold PackedEdge.source PackedEdge.dest (px A pen) d.edges (unitTable 0)

/-- The full suffix table. -/
def fullSuffix (d : PackedDag) (pen : Penalties) : Nat → Cost :=
  relaxFold PackedEdge.dest PackedEdge.source (px A pen) d.edges.reverse
    (unitTable (d.numStates - 1))

theorem fullPrefix_min {d : PackedDag} (wf : PackedWF d) (pen : Penalties) (s : Nat) :
    IsMinimum (fun p => PackedWalk d 0 s p) (forwardCost A pen) (fullPrefix A d pen s) :=
  relaxFold_unit_min (px_mono A pen) (px_top A pen) d.edges wf.topo 0 s

theorem backward_eq (pen : Penalties) (p : List PackedEdge) :
    along (px A pen) 0 p.reverse = backwardCost A pen p := by
  unfold along backwardCost
  rw [List.foldl_reverse]
  rfl

theorem fullSuffix_min {d : PackedDag} (wf : PackedWF d) (pen : Penalties) (s : Nat) :
    IsMinimum (fun p => PackedWalk d s (d.numStates - 1) p) (backwardCost A pen)
      (fullSuffix A d pen s) := by
  have := relaxFold_unit_min_rev (px_mono A pen) (px_top A pen) d.edges wf.topo (d.numStates - 1) s
  simp only [backward_eq] at this
  exact this

/-- The invariant of memos. -/
structure MemoInv (A : Machine) (d : PackedDag) (m : Memo) : Prop where
  dag : m.dag = d
  pv_le : m.pv ≤ d.numKeys + 1
  sv_le : m.sv ≤ d.numKeys + 1
  pre : ∀ s, s < d.sb m.pv → m.prefixTable s = fullPrefix A d m.pen s
  suf : ∀ s, d.sb m.sv ≤ s → s < d.numStates → m.suffixTable s = fullSuffix A d m.pen s

theorem emptyTable_inv {d : PackedDag} (wf : PackedWF d) (invalid : Cost) (pen : Penalties) :
    MemoInv A d (emptyTable invalid d pen) := by
  refine ⟨rfl, by simp [emptyTable], by simp [emptyTable], ?_, ?_⟩
  · intro s hs
    simp [emptyTable, wf.sb_zero] at hs
  · intro s h1 h2
    simp only [emptyTable, wf.sb_last] at h1
    omega

theorem updatePrefixes_inv {d : PackedDag} (wf : PackedWF d) {m : Memo} (hm : MemoInv A d m) {τ : Nat}
    (hτ : τ ≤ d.numKeys) :
    MemoInv A d (updatePrefixes A m τ) ∧ τ + 1 ≤ (updatePrefixes A m τ).pv
      ∧ (updatePrefixes A m τ).pen = m.pen ∧ (updatePrefixes A m τ).sv = m.sv
      ∧ (updatePrefixes A m τ).suffixTable = m.suffixTable := by
  unfold Rounded.updatePrefixes
  split
  · rename_i h
    exact ⟨hm, h, rfl, rfl, rfl⟩
  · rename_i hpv
    refine ⟨⟨hm.dag, by simp only; omega, hm.sv_le, ?_, hm.suf⟩, le_refl _, rfl, rfl, rfl⟩
    obtain ⟨dag, pen, pre, suf, pv, sv⟩ := m
    obtain ⟨rfl, hpl, hsl, hpre, hsuf⟩ := hm
    simp only at *
    intro s hs
    generalize hstart : (if pv = 0 then 0 else dag.eb (2 * (pv - 1) + 1)) = start
    have hstart_le : start ≤ dag.eb (2 * τ + 1) := by
      rw [← hstart]
      split
      · omega
      · exact eb_le wf (by omega) (by omega)
    have hstop_le : dag.eb (2 * τ + 1) ≤ dag.edges.length := by
      rw [← wf.eb_last]; exact eb_le wf (by omega) (by omega)
    unfold fullPrefix
    rw [relaxDest_eq A]
    rw [show ∀ t, (dag.edgeRange start (dag.eb (2 * τ + 1))).foldl
        (relax PackedEdge.source PackedEdge.dest (px A pen)) t
        = relaxFold PackedEdge.source PackedEdge.dest (px A pen)
          (dag.edgeRange start (dag.eb (2 * τ + 1))) t from fun _ => rfl]
    have hsplit := edges_split dag start (dag.eb (2 * τ + 1)) hstart_le
    have hfull : ∀ t s, relaxFold PackedEdge.source PackedEdge.dest (px A pen) dag.edges t s
        = relaxFold PackedEdge.source PackedEdge.dest (px A pen)
          (dag.edgeRange (dag.eb (2 * τ + 1)) dag.edges.length)
          (relaxFold PackedEdge.source PackedEdge.dest (px A pen)
            (dag.edgeRange start (dag.eb (2 * τ + 1)))
            (relaxFold PackedEdge.source PackedEdge.dest (px A pen)
              (dag.edgeRange 0 start) t)) s := by
      intro t s
      conv_lhs => rw [hsplit]
      rw [relaxFold_append, relaxFold_append]
    rw [hfull, relaxFold_frame (fun s => s < dag.sb (τ + 1))
      (dag.edgeRange (dag.eb (2 * τ + 1)) dag.edges.length) _ _ s hs]
    · refine relaxFold_congr (fun s => s < dag.sb (τ + 1)) _ ?_ _ _ ?_ s hs
      · intro e he _
        obtain ⟨k, h1, h2, h3⟩ := mem_edgeRange.1 he
        exact ⟨(edge_before wf h3 hτ h2).1, rfl⟩
      · intro s hs
        by_cases h0 : pv = 0
        · subst h0
          simp only [↓reduceIte] at hstart
          subst hstart
          simp only [↓reduceIte, PackedDag.edgeRange, List.drop_zero, Nat.sub_zero, List.take_zero]
          simp only [relaxFold, List.foldl_nil, unitTable, setEntry, wf.sb_zero]
          split
          · rfl
          · simp [hs]
        · simp only [h0, ↓reduceIte] at hstart ⊢
          subst hstart
          have hlow : ∀ e ∈ dag.edgeRange 0 (dag.eb (2 * (pv - 1) + 1)), e.dest < dag.sb pv := by
            intro e he
            obtain ⟨k, h1, h2, h3⟩ := mem_edgeRange.1 he
            have := (edge_before wf h3 (τ := pv - 1) (by omega) h2).2
            rwa [show pv - 1 + 1 = pv by omega] at this
          by_cases hsp : s < dag.sb pv
          · rw [if_neg (by omega), hpre s hsp]
            unfold fullPrefix
            rw [hfull]
            have hhi : ∀ lo hi, dag.eb (2 * (pv - 1) + 1) ≤ lo →
                ∀ e ∈ dag.edgeRange lo hi, ¬ e.dest < dag.sb pv := by
              intro lo hi hlo e he
              obtain ⟨k, h1, h2, h3⟩ := mem_edgeRange.1 he
              have := edge_from_assigning wf h3 (τ := pv - 1) (by omega) (by omega)
              rw [show pv - 1 + 1 = pv by omega] at this
              omega
            rw [relaxFold_frame (fun s => s < dag.sb pv) _ (hhi _ _ hstart_le) _ s hsp,
              relaxFold_frame (fun s => s < dag.sb pv) _ (hhi _ _ (le_refl _)) _ s hsp]
          · rw [if_pos ⟨by omega, hs⟩]
            rw [relaxFold_frame (fun s => ¬ s < dag.sb pv) _ (fun e he => not_not.2 (hlow e he)) _ s
              hsp]
            have h1 := sb_le wf (i := 1) (j := pv) (by omega) (by omega)
            have h2 := wf.start.2
            rw [Nat.zero_add] at h2
            simp only [unitTable, setEntry]
            rw [if_neg (by omega)]
    · intro e he
      obtain ⟨k, h1, h2, h3⟩ := mem_edgeRange.1 he
      have := edge_from_assigning wf h3 hτ h1
      omega

theorem updateSuffixes_inv {d : PackedDag} (wf : PackedWF d) {m : Memo} (hm : MemoInv A d m) {τ : Nat}
    (hτ : τ ≤ d.numKeys) :
    MemoInv A d (updateSuffixes A m τ) ∧ (updateSuffixes A m τ).sv ≤ τ
      ∧ (updateSuffixes A m τ).pen = m.pen ∧ (updateSuffixes A m τ).pv = m.pv
      ∧ (updateSuffixes A m τ).prefixTable = m.prefixTable := by
  unfold Rounded.updateSuffixes
  split
  · rename_i h
    exact ⟨hm, h, rfl, rfl, rfl⟩
  · rename_i hsv
    refine ⟨⟨hm.dag, hm.pv_le, by simp only; omega, hm.pre, ?_⟩, le_refl _, rfl, rfl, rfl⟩
    obtain ⟨dag, pen, pre, suf, pv, sv⟩ := m
    obtain ⟨rfl, hpl, hsl, hpre, hsuf⟩ := hm
    simp only at *
    intro s hs hsN
    generalize hstop : (if sv = dag.numKeys + 1 then dag.eb (2 * dag.numKeys + 1)
      else dag.eb (2 * sv)) = stop
    generalize hstart : (if τ = 0 then 0 else dag.eb (2 * τ)) = start
    have hstart' : start = dag.eb (2 * τ) := by
      rw [← hstart]
      split
      · rename_i h; subst h; simp [wf.eb_zero]
      · rfl
    clear hstart
    subst hstart'
    have hstart_le : dag.eb (2 * τ) ≤ stop := by
      rw [← hstop]
      split
      · exact eb_le wf (by omega) (by omega)
      · exact eb_le wf (by omega) (by omega)
    have hstop_le : stop ≤ dag.edges.length := by
      rw [← hstop, ← wf.eb_last]
      split
      · exact le_refl _
      · exact eb_le wf (by omega) (by omega)
    have hlast : HasTag dag dag.numKeys (dag.numStates - 1) := wf.final
    unfold fullSuffix
    rw [relaxSource_eq A]
    rw [show ∀ t, (dag.edgeRange (dag.eb (2 * τ)) stop).reverse.foldl
        (relax PackedEdge.dest PackedEdge.source (px A pen)) t
        = relaxFold PackedEdge.dest PackedEdge.source (px A pen)
          (dag.edgeRange (dag.eb (2 * τ)) stop).reverse t from fun _ => rfl]
    have hsplit := edges_split dag (dag.eb (2 * τ)) stop hstart_le
    have hfull : ∀ t s, relaxFold PackedEdge.dest PackedEdge.source (px A pen) dag.edges.reverse t s
        = relaxFold PackedEdge.dest PackedEdge.source (px A pen)
          (dag.edgeRange 0 (dag.eb (2 * τ))).reverse
          (relaxFold PackedEdge.dest PackedEdge.source (px A pen)
            (dag.edgeRange (dag.eb (2 * τ)) stop).reverse
            (relaxFold PackedEdge.dest PackedEdge.source (px A pen)
              (dag.edgeRange stop dag.edges.length).reverse t)) s := by
      intro t s
      conv_lhs => rw [hsplit]
      rw [List.reverse_append, List.reverse_append, relaxFold_append, relaxFold_append]
    rw [hfull, relaxFold_frame (fun s => dag.sb τ ≤ s)
      (dag.edgeRange 0 (dag.eb (2 * τ))).reverse _ _ s hs]
    · refine relaxFold_congr (fun s => dag.sb τ ≤ s ∧ s < dag.numStates) _ ?_ _ _ ?_ s ⟨hs, hsN⟩
      · intro e he _
        obtain ⟨k, h1, h2, h3⟩ := mem_edgeRange.1 (List.mem_reverse.1 he)
        exact ⟨⟨(edge_from_between wf h3 hτ h1).2,
          (edge_tag_mono wf (List.mem_of_getElem? h3)).2.2.2⟩, rfl⟩
      · rintro s ⟨hs, hsN⟩
        by_cases h0 : sv = dag.numKeys + 1
        · subst h0
          simp only [↓reduceIte] at hstop
          rw [wf.eb_last] at hstop
          subst hstop
          simp only [↓reduceIte, PackedDag.edgeRange, Nat.sub_self, List.take_zero]
          simp only [relaxFold, List.foldl_nil, unitTable, setEntry, wf.sb_last, List.reverse_nil]
          split
          · rfl
          · simp [hs, hsN]
        · simp only [h0, ↓reduceIte] at hstop ⊢
          subst hstop
          have hhigh : ∀ e ∈ (dag.edgeRange (dag.eb (2 * sv)) dag.edges.length).reverse,
              dag.sb sv ≤ e.source := by
            intro e he
            obtain ⟨k, h1, h2, h3⟩ := mem_edgeRange.1 (List.mem_reverse.1 he)
            exact (edge_from_between wf h3 (by omega) h1).1
          by_cases hsp : s < dag.sb sv
          · rw [if_pos ⟨hs, hsp⟩]
            rw [relaxFold_frame (fun s => s < dag.sb sv) _ (fun e he => not_lt.2 (hhigh e he)) _ s
              hsp]
            have h1 := sb_le wf (i := sv) (j := dag.numKeys) (by omega) (by omega)
            have h2 := hlast.1
            simp only [unitTable, setEntry]
            rw [if_neg (by omega)]
          · rw [if_neg (by omega), hsuf s (by omega) hsN]
            unfold fullSuffix
            rw [hfull]
            have hhi : ∀ lo hi, hi ≤ dag.eb (2 * sv) →
                ∀ e ∈ (dag.edgeRange lo hi).reverse, ¬ dag.sb sv ≤ e.source := by
              intro lo hi hlo e he
              obtain ⟨k, h1, h2, h3⟩ := mem_edgeRange.1 (List.mem_reverse.1 he)
              have := edge_before_between wf h3 (τ := sv) (by omega) (by omega)
              omega
            rw [relaxFold_frame (fun s => dag.sb sv ≤ s) _ (hhi _ _ hstart_le) _ s (by omega),
              relaxFold_frame (fun s => dag.sb sv ≤ s) _ (hhi _ _ (le_refl _)) _ s (by omega)]
    · intro e he
      obtain ⟨k, h1, h2, h3⟩ := mem_edgeRange.1 (List.mem_reverse.1 he)
      have := edge_before_between wf h3 hτ h2
      omega

theorem setPenalties_inv {d : PackedDag} (wf : PackedWF d) {m : Memo} (hm : MemoInv A d m) {v : Nat}
    (hv : v < d.numKeys) (p : Nat → Cost) : MemoInv A d (m.setPenalties v p) := by
  obtain ⟨dag, pen, pre, suf, pv, sv⟩ := m
  obtain ⟨rfl, hpl, hsl, hpre, hsuf⟩ := hm
  simp only at *
  have hpw : ∀ e ∈ dag.edges, ¬ (dag.sb (v + 1) ≤ e.dest ∧ e.source < dag.sb (v + 1)) →
      px A pen e = px A (fun k => if k = v then p else pen k) e := by
    intro e he hne
    obtain ⟨k, hk⟩ := List.getElem?_of_mem he
    unfold px PackedEdge.penalty
    rcases edge_cases wf k e hk with ⟨τ', h1, h2, h3, h4, h5, h6⟩ | ⟨v', h1, h2, h3, ⟨x, hx, h4⟩, h5, h6⟩
    · rw [h4]
    · rw [h4]
      have : v' ≠ v := by
        rintro rfl
        exact hne ⟨h6.1, h5.2⟩
      simp [this]
  refine ⟨rfl, ?_, ?_, ?_, ?_⟩
  · simp only [Memo.setPenalties]; omega
  · simp only [Memo.setPenalties]; omega
  · simp only [Memo.setPenalties]
    intro s hs
    have hle1 := sb_le wf (i := min pv (v + 1)) (j := pv) (by omega) (by omega)
    have hle2 := sb_le wf (i := min pv (v + 1)) (j := v + 1) (by omega) (by omega)
    rw [hpre s (by omega)]
    refine relaxFold_congr (fun s => s < dag.sb (v + 1)) _ ?_ _ _ (fun _ _ => rfl) s (by omega)
    intro e he hd
    exact ⟨(edge_tag_mono wf he).1 _ (by omega) hd, hpw e he (by omega)⟩
  · simp only [Memo.setPenalties]
    intro s hs hsN
    have hle1 := sb_le wf (i := sv) (j := max sv (v + 1)) (by omega) (by omega)
    have hle2 := sb_le wf (i := v + 1) (j := max sv (v + 1)) (by omega) (by omega)
    rw [hsuf s (by omega) hsN]
    refine relaxFold_congr (fun s => dag.sb (v + 1) ≤ s) _ ?_ _ _ (fun _ _ => rfl) s (by omega)
    intro e he hd
    rw [List.mem_reverse] at he
    exact ⟨(edge_tag_mono wf he).2.1 _ (by omega) hd, hpw e he (by omega)⟩



end RUSure.Lemmas.Rnd
