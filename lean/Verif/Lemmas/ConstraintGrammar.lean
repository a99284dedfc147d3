import Verif.Spec.Constraint

/-!
# Unfolding the region grammar node by node
-/

namespace RUSure.Lemmas
open RUSure RUSure.Spec
variable {M : Type}

/-- Sets of decision sequences. -/
abbrev Lang := List Decision → Prop

/-- Decision sequences starting with a given decision. -/
def pre (k : DecisionKey) (v : DecisionValue) (L : Lang) : Lang := fun ds =>
  ∃ ds', ds = (k, v) :: ds' ∧ L ds'

/-- Reading a sequence and then something of `K`, or stopping within the sequence. -/
def G (b : Bool) (ns : List (Node M)) (i : Nat) (K : Lang) : Lang := fun ds =>
  (∃ ds1 ds2, RegionSeq b false i ns ds1 ∧ K ds2 ∧ ds = ds1 ++ ds2) ∨ RegionSeq b true i ns ds

/-- Reading a sequence from within a region that may end within it. -/
def GTemp (ns : List (Node M)) (i : Nat) (K : Lang) : Lang := fun ds =>
  RegionSeq true true i ns ds
  ∨ ∃ mid rest ds1 ds2, ns = mid ++ .rend :: rest ∧ RegionSeq true false i mid ds1
    ∧ G false rest (i + seqSize mid + 1) K ds2
    ∧ ds = ds1 ++ (⟨i + seqSize mid, .stop⟩, .yes) :: ds2

theorem G_nil (b : Bool) (i : Nat) (K : Lang) (ds : List Decision) :
    G b ([] : List (Node M)) i K ds ↔ K ds := by
  constructor
  · rintro (⟨ds1, ds2, h1, h2, rfl⟩ | h)
    · cases h1; exact h2
    · cases h
  · intro h
    exact .inl ⟨[], ds, .nil _ _, h, rfl⟩

theorem G_deco (b : Bool) (t : Text) (ns : List (Node M)) (i : Nat) (K : Lang) (ds : List Decision) :
    G b (.deco t :: ns) i K ds ↔ G b ns (i + 1) K ds := by
  constructor
  · rintro (⟨ds1, ds2, h1, h2, rfl⟩ | h)
    · cases h1 with | deco h1 => exact .inl ⟨_, _, h1, h2, rfl⟩
    · cases h with | deco h1 => exact .inr h1
  · rintro (⟨ds1, ds2, h1, h2, rfl⟩ | h)
    · exact .inl ⟨_, _, .deco h1, h2, rfl⟩
    · exact .inr (.deco h)

theorem G_tok (b : Bool) (t : Text) (mt : M) (ns : List (Node M)) (i : Nat) (K : Lang)
    (ds : List Decision) :
    G b (.tok t mt :: ns) i K ds ↔ pre ⟨i, .inRegion⟩ (inValue b) (G b ns (i + 1) K) ds := by
  constructor
  · rintro (⟨ds1, ds2, h1, h2, rfl⟩ | h)
    · cases h1 with | tok h1 => exact ⟨_, rfl, .inl ⟨_, _, h1, h2, rfl⟩⟩
    · cases h with | tok h1 => exact ⟨_, rfl, .inr h1⟩
  · rintro ⟨ds', rfl, (⟨ds1, ds2, h1, h2, rfl⟩ | h)⟩
    · exact .inl ⟨_, _, .tok h1, h2, rfl⟩
    · exact .inr (.tok h)

theorem G_exit (b : Bool) (ns : List (Node M)) (i : Nat) (K : Lang) (ds : List Decision) :
    G b (.exit :: ns) i K ds
      ↔ ds = [(⟨i, .exit⟩, .yes)] ∨ pre ⟨i, .exit⟩ .no (G b ns (i + 1) K) ds := by
  constructor
  · rintro (⟨ds1, ds2, h1, h2, rfl⟩ | h)
    · cases h1 with | skipExit h1 => exact .inr ⟨_, rfl, .inl ⟨_, _, h1, h2, rfl⟩⟩
    · cases h with
      | skipExit h1 => exact .inr ⟨_, rfl, .inr h1⟩
      | exit => exact .inl rfl
  · rintro (rfl | ⟨ds', rfl, (⟨ds1, ds2, h1, h2, rfl⟩ | h)⟩)
    · exact .inr .exit
    · exact .inl ⟨_, _, .skipExit h1, h2, rfl⟩
    · exact .inr (.skipExit h)

theorem G_rend (b : Bool) (ns : List (Node M)) (i : Nat) (K : Lang) (ds : List Decision) :
    G b (.rend :: ns) i K ds
      ↔ pre ⟨i, .stop⟩ (if b then .no else .na) (G b ns (i + 1) K) ds := by
  constructor
  · rintro (⟨ds1, ds2, h1, h2, rfl⟩ | h)
    · cases h1 with | skipEnd h1 => exact ⟨_, rfl, .inl ⟨_, _, h1, h2, rfl⟩⟩
    · cases h with | skipEnd h1 => exact ⟨_, rfl, .inr h1⟩
  · rintro ⟨ds', rfl, (⟨ds1, ds2, h1, h2, rfl⟩ | h)⟩
    · exact .inl ⟨_, _, .skipEnd h1, h2, rfl⟩
    · exact .inr (.skipEnd h)

theorem G_group (b : Bool) (cs : List (Node M)) (mt : M) (ns : List (Node M)) (i : Nat) (K : Lang)
    (ds : List Decision) :
    G b (.group cs mt :: ns) i K ds
      ↔ pre ⟨i, .inRegion⟩ (inValue b) (G b cs (i + 1) (G b ns (i + 1 + seqSize cs) K)) ds := by
  constructor
  · rintro (⟨ds1, ds2, h1, h2, rfl⟩ | h)
    · cases h1 with
      | group h1 h1' =>
        exact ⟨_, rfl, .inl ⟨_, _, h1, .inl ⟨_, _, h1', h2, rfl⟩, by simp⟩⟩
    · cases h with
      | group h1 h1' => exact ⟨_, rfl, .inl ⟨_, _, h1, .inr h1', rfl⟩⟩
      | exitGroup h1 => exact ⟨_, rfl, .inr h1⟩
  · rintro ⟨ds', rfl, (⟨ds1, ds2, h1, (⟨ds3, ds4, h3, h4, rfl⟩ | h2), rfl⟩ | h)⟩
    · exact .inl ⟨_, _, .group h1 h3, h4, by simp⟩
    · exact .inr (.group h1 h2)
    · exact .inr (.exitGroup h)

theorem G_rstart_in (ns : List (Node M)) (i : Nat) (K : Lang) (ds : List Decision) :
    G true (.rstart :: ns) i K ds ↔ pre ⟨i, .start⟩ .na (G true ns (i + 1) K) ds := by
  constructor
  · rintro (⟨ds1, ds2, h1, h2, rfl⟩ | h)
    · cases h1 with | skipStart h1 => exact ⟨_, rfl, .inl ⟨_, _, h1, h2, rfl⟩⟩
    · cases h with | skipStart h1 => exact ⟨_, rfl, .inr h1⟩
  · rintro ⟨ds', rfl, (⟨ds1, ds2, h1, h2, rfl⟩ | h)⟩
    · exact .inl ⟨_, _, .skipStart h1, h2, rfl⟩
    · exact .inr (.skipStart h)

/-- What a sequence beginning with a region start can be, in a form that can be inverted. -/
theorem rstart_inv {x : Bool} {i : Nat} {l : List (Node M)} {ds : List Decision}
    (h : RegionSeq false x i l ds) (ns : List (Node M)) (hl : l = .rstart :: ns) :
    (∃ ds', ds = (⟨i, .start⟩, .no) :: ds' ∧ RegionSeq false x (i + 1) ns ds')
    ∨ (∃ mid rest ds1 ds2, ns = mid ++ .rend :: rest ∧ RegionSeq true false (i + 1) mid ds1
        ∧ RegionSeq false x (i + 1 + seqSize mid + 1) rest ds2
        ∧ ds = (⟨i, .start⟩, .yes) :: (ds1 ++ (⟨i + 1 + seqSize mid, .stop⟩, .yes) :: ds2))
    ∨ (x = true ∧ ∃ ds', ds = (⟨i, .start⟩, .yes) :: ds' ∧ RegionSeq true true (i + 1) ns ds') := by
  cases h with
  | nil => simp at hl
  | deco => simp at hl
  | tok => simp at hl
  | group => simp at hl
  | skipStart h =>
    simp only [List.cons.injEq, true_and] at hl
    subst hl
    exact .inl ⟨_, rfl, h⟩
  | skipEnd => simp at hl
  | skipExit => simp at hl
  | region h1 h2 =>
    simp only [List.cons_append, List.cons.injEq, true_and] at hl
    exact .inr (.inl ⟨_, _, _, _, hl.symm, h1, h2, by simp⟩)
  | exit => simp at hl
  | exitGroup => simp at hl
  | exitRegion h =>
    simp only [List.cons.injEq, true_and] at hl
    subst hl
    exact .inr (.inr ⟨rfl, _, rfl, h⟩)

theorem G_rstart_out (ns : List (Node M)) (i : Nat) (K : Lang) (ds : List Decision) :
    G false (.rstart :: ns) i K ds
      ↔ pre ⟨i, .start⟩ .no (G false ns (i + 1) K) ds
        ∨ pre ⟨i, .start⟩ .yes (GTemp ns (i + 1) K) ds := by
  constructor
  · rintro (⟨ds1, ds2, h1, h2, rfl⟩ | h)
    · rcases rstart_inv h1 ns rfl with ⟨ds', rfl, h⟩ | ⟨mid, rest, d1, d2, rfl, g1, g2, rfl⟩ | ⟨h, -⟩
      · exact .inl ⟨_, rfl, .inl ⟨_, _, h, h2, rfl⟩⟩
      · refine .inr ⟨_, rfl, .inr ⟨mid, rest, d1, d2 ++ ds2, rfl, g1, .inl ⟨_, _, g2, h2, rfl⟩, ?_⟩⟩
        simp
      · cases h
    · rcases rstart_inv h ns rfl with ⟨ds', rfl, h'⟩ | ⟨mid, rest, d1, d2, rfl, g1, g2, rfl⟩
        | ⟨-, ds', rfl, h'⟩
      · exact .inl ⟨_, rfl, .inr h'⟩
      · exact .inr ⟨_, rfl, .inr ⟨mid, rest, d1, d2, rfl, g1, .inr g2, rfl⟩⟩
      · exact .inr ⟨_, rfl, .inl h'⟩
  · rintro (⟨ds', rfl, (⟨ds1, ds2, h1, h2, rfl⟩ | h)⟩ | ⟨ds', rfl, h⟩)
    · exact .inl ⟨_, _, .skipStart h1, h2, by simp⟩
    · exact .inr (.skipStart h)
    · rcases h with h | ⟨mid, rest, d1, d2, rfl, g1, (⟨d3, d4, g3, g4, rfl⟩ | g2), rfl⟩
      · exact .inr (.exitRegion h)
      · refine .inl ⟨_, _, .region g1 g3, g4, ?_⟩
        simp
      · have := RegionSeq.region g1 g2
        exact .inr this

/-! ### Inside a region that may end -/

theorem GTemp_nil (i : Nat) (K : Lang) (ds : List Decision) :
    ¬ GTemp ([] : List (Node M)) i K ds := by
  rintro (h | ⟨mid, rest, ds1, ds2, h, -⟩)
  · cases h
  · simp at h

/-- Case distinction on the position of the region end. -/
theorem GTemp_cons (n : Node M) (ns : List (Node M)) (i : Nat) (K : Lang) (ds : List Decision) :
    GTemp (n :: ns) i K ds ↔ RegionSeq true true i (n :: ns) ds
      ∨ (n = .rend ∧ pre ⟨i, .stop⟩ .yes (G false ns (i + 1) K) ds)
      ∨ ∃ mid rest ds1 ds2, ns = mid ++ .rend :: rest ∧ RegionSeq true false i (n :: mid) ds1
        ∧ G false rest (i + nodeSize n + seqSize mid + 1) K ds2
        ∧ ds = ds1 ++ (⟨i + nodeSize n + seqSize mid, .stop⟩, .yes) :: ds2 := by
  unfold GTemp
  apply or_congr Iff.rfl
  constructor
  · rintro ⟨mid, rest, ds1, ds2, h, h1, h2, rfl⟩
    cases mid with
    | nil =>
      simp only [List.nil_append, List.cons.injEq] at h
      obtain ⟨rfl, rfl⟩ := h
      cases h1
      exact .inl ⟨rfl, ds2, by simp [seqSize], by simpa [seqSize] using h2⟩
    | cons m mid =>
      simp only [List.cons_append, List.cons.injEq] at h
      obtain ⟨rfl, rfl⟩ := h
      refine .inr ⟨mid, rest, ds1, ds2, rfl, h1, ?_, ?_⟩
      · simpa [seqSize, Nat.add_assoc] using h2
      · simp [seqSize, Nat.add_assoc]
  · rintro (⟨rfl, ds', rfl, h⟩ | ⟨mid, rest, ds1, ds2, rfl, h1, h2, rfl⟩)
    · exact ⟨[], ns, [], ds', rfl, .nil _ _, by simpa [seqSize] using h, by simp [seqSize]⟩
    · refine ⟨n :: mid, rest, ds1, ds2, rfl, h1, ?_, ?_⟩
      · simpa [seqSize, Nat.add_assoc] using h2
      · simp [seqSize, Nat.add_assoc]

theorem GTemp_deco (t : Text) (ns : List (Node M)) (i : Nat) (K : Lang) (ds : List Decision) :
    GTemp (.deco t :: ns) i K ds ↔ GTemp ns (i + 1) K ds := by
  rw [GTemp_cons]
  constructor
  · rintro (h | ⟨h, -⟩ | ⟨mid, rest, ds1, ds2, rfl, h1, h2, rfl⟩)
    · cases h with | deco h => exact .inl h
    · cases h
    · cases h1 with | deco h1 => exact .inr ⟨_, _, _, _, rfl, h1, h2, rfl⟩
  · rintro (h | ⟨mid, rest, ds1, ds2, rfl, h1, h2, rfl⟩)
    · exact .inl (.deco h)
    · exact .inr (.inr ⟨_, _, _, _, rfl, .deco h1, h2, rfl⟩)

theorem GTemp_tok (t : Text) (mt : M) (ns : List (Node M)) (i : Nat) (K : Lang)
    (ds : List Decision) :
    GTemp (.tok t mt :: ns) i K ds ↔ pre ⟨i, .inRegion⟩ .yes (GTemp ns (i + 1) K) ds := by
  rw [GTemp_cons]
  constructor
  · rintro (h | ⟨h, -⟩ | ⟨mid, rest, ds1, ds2, rfl, h1, h2, rfl⟩)
    · cases h with | tok h => exact ⟨_, rfl, .inl h⟩
    · cases h
    · cases h1 with | tok h1 => exact ⟨_, rfl, .inr ⟨_, _, _, _, rfl, h1, h2, rfl⟩⟩
  · rintro ⟨ds', rfl, (h | ⟨mid, rest, ds1, ds2, rfl, h1, h2, rfl⟩)⟩
    · exact .inl (.tok h)
    · exact .inr (.inr ⟨_, _, _, _, rfl, .tok h1, h2, rfl⟩)

theorem GTemp_rstart (ns : List (Node M)) (i : Nat) (K : Lang) (ds : List Decision) :
    GTemp (.rstart :: ns) i K ds ↔ pre ⟨i, .start⟩ .na (GTemp ns (i + 1) K) ds := by
  rw [GTemp_cons]
  constructor
  · rintro (h | ⟨h, -⟩ | ⟨mid, rest, ds1, ds2, rfl, h1, h2, rfl⟩)
    · cases h with | skipStart h => exact ⟨_, rfl, .inl h⟩
    · cases h
    · cases h1 with | skipStart h1 => exact ⟨_, rfl, .inr ⟨_, _, _, _, rfl, h1, h2, rfl⟩⟩
  · rintro ⟨ds', rfl, (h | ⟨mid, rest, ds1, ds2, rfl, h1, h2, rfl⟩)⟩
    · exact .inl (.skipStart h)
    · exact .inr (.inr ⟨_, _, _, _, rfl, .skipStart h1, h2, rfl⟩)

theorem GTemp_rend (ns : List (Node M)) (i : Nat) (K : Lang) (ds : List Decision) :
    GTemp (.rend :: ns) i K ds ↔ pre ⟨i, .stop⟩ .no (GTemp ns (i + 1) K) ds
      ∨ pre ⟨i, .stop⟩ .yes (G false ns (i + 1) K) ds := by
  rw [GTemp_cons]
  constructor
  · rintro (h | ⟨-, h⟩ | ⟨mid, rest, ds1, ds2, rfl, h1, h2, rfl⟩)
    · cases h with | skipEnd h => exact .inl ⟨_, rfl, .inl h⟩
    · exact .inr h
    · cases h1 with | skipEnd h1 => exact .inl ⟨_, rfl, .inr ⟨_, _, _, _, rfl, h1, h2, rfl⟩⟩
  · rintro (⟨ds', rfl, (h | ⟨mid, rest, ds1, ds2, rfl, h1, h2, rfl⟩)⟩ | h)
    · exact .inl (.skipEnd h)
    · exact .inr (.inr ⟨_, _, _, _, rfl, .skipEnd h1, h2, rfl⟩)
    · exact .inr (.inl ⟨rfl, h⟩)

theorem GTemp_exit (ns : List (Node M)) (i : Nat) (K : Lang) (ds : List Decision) :
    GTemp (.exit :: ns) i K ds
      ↔ ds = [(⟨i, .exit⟩, .yes)] ∨ pre ⟨i, .exit⟩ .no (GTemp ns (i + 1) K) ds := by
  rw [GTemp_cons]
  constructor
  · rintro (h | ⟨h, -⟩ | ⟨mid, rest, ds1, ds2, rfl, h1, h2, rfl⟩)
    · cases h with
      | skipExit h => exact .inr ⟨_, rfl, .inl h⟩
      | exit => exact .inl rfl
    · cases h
    · cases h1 with | skipExit h1 => exact .inr ⟨_, rfl, .inr ⟨_, _, _, _, rfl, h1, h2, rfl⟩⟩
  · rintro (rfl | ⟨ds', rfl, (h | ⟨mid, rest, ds1, ds2, rfl, h1, h2, rfl⟩)⟩)
    · exact .inl .exit
    · exact .inl (.skipExit h)
    · exact .inr (.inr ⟨_, _, _, _, rfl, .skipExit h1, h2, rfl⟩)

theorem GTemp_group (cs : List (Node M)) (mt : M) (ns : List (Node M)) (i : Nat) (K : Lang)
    (ds : List Decision) :
    GTemp (.group cs mt :: ns) i K ds
      ↔ pre ⟨i, .inRegion⟩ .yes (G true cs (i + 1) (GTemp ns (i + 1 + seqSize cs) K)) ds := by
  have e : i + (1 + seqSize cs) = i + 1 + seqSize cs := by omega
  rw [GTemp_cons]
  simp only [nodeSize, e]
  constructor
  · rintro (h | ⟨h, -⟩ | ⟨mid, rest, ds1, ds2, rfl, h1, h2, rfl⟩)
    · cases h with
      | group h1 h2 => exact ⟨_, rfl, .inl ⟨_, _, h1, .inl h2, rfl⟩⟩
      | exitGroup h => exact ⟨_, rfl, .inr h⟩
    · cases h
    · cases h1 with
      | group h1 h1' =>
        refine ⟨_, rfl, .inl ⟨_, _, h1, .inr ⟨_, _, _, _, rfl, h1', h2, rfl⟩, by simp⟩⟩
  · rintro ⟨ds', rfl, (⟨ds1, ds2, h1, (h2 | ⟨mid, rest, d1, d2, rfl, g1, g2, rfl⟩), rfl⟩ | h)⟩
    · exact .inl (.group h1 h2)
    · refine .inr (.inr ⟨_, _, _, _, rfl, .group h1 g1, g2, ?_⟩)
      simp [inValue]
    · exact .inl (.exitGroup h)

end RUSure.Lemmas
