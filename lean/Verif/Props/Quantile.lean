import Verif.Model.Quantile
import Verif.Props.RoundedCommitCases

/-!
# The threshold of partial commitment (C89)
-/

namespace RUSure.Props
open RUSure RUSure.Spec RUSure.Lemmas

theorem sorted_entries (entries : List (WithBot ℚ)) :
    (entries.mergeSort fun a b => decide (a ≤ b)).Pairwise (· ≤ ·)
    ∧ (entries.mergeSort fun a b => decide (a ≤ b)).Perm entries := by
  refine ⟨?_, List.mergeSort_perm _ _⟩
  have := List.pairwise_mergeSort (le := fun a b : WithBot ℚ => decide (a ≤ b))
    (fun a b c h1 h2 => by simp only [decide_eq_true_eq] at *; exact h1.trans h2)
    (fun a b => by simp only [Bool.or_eq_true, decide_eq_true_eq]; exact le_total a b) entries
  exact this.imp fun h => by simpa using h

/-- In a sorted list, the entries before a position are at most those after it. -/
theorem count_above {l : List (WithBot ℚ)} (h : l.Pairwise (· ≤ ·)) {i : Nat} (hi : i < l.length)
    {z : WithBot ℚ} (hz : l.getD i ⊥ ≤ z) : l.countP (fun c => decide (z < c)) ≤ l.length - 1 - i := by
  rw [← List.take_append_drop (i + 1) l, List.countP_append]
  have h1 : (l.take (i + 1)).countP (fun c => decide (z < c)) = 0 := by
    rw [List.countP_eq_zero]
    intro c hc
    obtain ⟨j, hj, rfl⟩ := List.getElem_of_mem hc
    rw [List.length_take] at hj
    rw [List.getElem_take]
    have : l[j] ≤ l[i] := by
      rcases (by omega : j = i ∨ j < i) with rfl | hlt
      · exact le_refl _
      · exact List.pairwise_iff_getElem.1 h j i _ _ hlt
    rw [List.getD_eq_getElem _ _ hi] at hz
    simpa using this.trans hz
  have h2 := List.countP_le_length (p := fun c => decide (z < c)) (l := l.drop (i + 1))
  rw [List.length_drop] at h2
  rw [h1, List.take_append_drop]
  omega

theorem count_reached {l : List (WithBot ℚ)} (h : l.Pairwise (· ≤ ·)) {i : Nat} (hi : i < l.length)
    {z : WithBot ℚ} (hz : z ≤ l.getD i ⊥) : l.length - i ≤ l.countP (fun c => decide (z ≤ c)) := by
  have h1 : (l.drop i).countP (fun c => decide (z ≤ c)) = (l.drop i).length := by
    rw [List.countP_eq_length]
    intro c hc
    obtain ⟨j, hj, rfl⟩ := List.getElem_of_mem hc
    rw [List.length_drop] at hj
    rw [List.getElem_drop]
    have : l[i] ≤ l[i + j] := by
      rcases Nat.eq_zero_or_pos j with rfl | hp
      · exact le_refl _
      · exact List.pairwise_iff_getElem.1 h i (i + j) _ _ (by omega)
    rw [List.getD_eq_getElem _ _ hi] at hz
    simpa using hz.trans this
  rw [List.length_drop] at h1
  rw [← h1]
  exact (List.drop_sublist i l).countP_le

/-- Where the threshold lies. -/
theorem quantile_between {undefined : WithBot ℚ → WithBot ℚ → ℚ → Bool} {entries : List (WithBot ℚ)}
    {level q : ℚ} (hn : entries ≠ []) (h0 : 0 ≤ level) (h1 : level ≤ 1)
    (h : quantileAt undefined entries level = .val q) :
    ∃ low : Nat, low < entries.length ∧ (low : ℚ) ≤ ((entries.length - 1 : Nat) : ℚ) * level
      ∧ ((entries.length - 1 : Nat) : ℚ) * level < low + 1
      ∧ (entries.mergeSort fun a b => decide (a ≤ b)).getD low ⊥ ≤ (q : WithBot ℚ)
      ∧ (q : WithBot ℚ) ≤ (entries.mergeSort fun a b => decide (a ≤ b)).getD
          (min (low + 1) (entries.length - 1)) ⊥ := by
  obtain ⟨hsort, hperm⟩ := sorted_entries entries
  have hlen := hperm.length_eq
  have hpos : 0 < entries.length := List.length_pos_iff.2 hn
  unfold quantileAt at h
  dsimp only at h
  generalize (entries.mergeSort fun a b => decide (a ≤ b)) = sorted at *
  generalize hp : ((entries.length - 1 : Nat) : ℚ) * level = position at *
  have hpos0 : 0 ≤ position := by rw [← hp]; exact mul_nonneg (Nat.cast_nonneg _) h0
  have hle : position ≤ ((entries.length - 1 : Nat) : ℚ) := by
    rw [← hp]; exact mul_le_of_le_one_right (Nat.cast_nonneg _) h1
  have hfl : ((⌊position⌋.toNat : ℤ)) = ⌊position⌋ := Int.toNat_of_nonneg (Int.floor_nonneg.2 hpos0)
  have hl1 : ((⌊position⌋.toNat : Nat) : ℚ) ≤ position := by
    have := Int.floor_le position
    rw [← hfl] at this
    exact_mod_cast this
  have hl2 : position < ((⌊position⌋.toNat : Nat) : ℚ) + 1 := by
    have := Int.lt_floor_add_one position
    rw [← hfl] at this
    exact_mod_cast this
  generalize ⌊position⌋.toNat = low at *
  have hlow : low ≤ entries.length - 1 := by exact_mod_cast hl1.trans hle
  have hmono : sorted.getD low ⊥ ≤ sorted.getD (min (low + 1) (entries.length - 1)) ⊥ := by
    rw [List.getD_eq_getElem _ _ (by omega), List.getD_eq_getElem _ _ (by omega)]
    rcases (by omega : low = min (low + 1) (entries.length - 1)
      ∨ low < min (low + 1) (entries.length - 1)) with he | hlt
    · exact le_of_eq (by congr 1)
    · exact List.pairwise_iff_getElem.1 hsort _ _ _ _ hlt
  refine ⟨low, by omega, hl1, hl2, ?_⟩
  split at h
  · rename_i a b ha hb
    rw [ha, hb] at hmono ⊢
    have hab : a ≤ b := WithBot.coe_le_coe.1 hmono
    simp only [Quantile.val.injEq] at h
    subst h
    have hf0 : 0 ≤ position - low := by linarith
    have hf1 : position - low ≤ 1 := by linarith
    constructor
    · apply WithBot.coe_le_coe.2
      nlinarith [mul_nonneg (sub_nonneg.2 hab) hf0]
    · apply WithBot.coe_le_coe.2
      nlinarith [mul_le_of_le_one_right (sub_nonneg.2 hab) hf1]
  · split at h <;> cases h

theorem entry_lt {c : Cost} {q : ℚ} : (q : WithBot ℚ) < quantileEntry c ↔ c ≠ ⊤ ∧ (q : Cost) < c := by
  cases c using WithTop.recTopCoe with
  | top => exact ⟨fun h => absurd h (by simp [quantileEntry]), fun h => absurd rfl h.1⟩
  | coe a =>
    exact ⟨fun h => ⟨WithTop.coe_ne_top, WithTop.coe_lt_coe.2 (WithBot.coe_lt_coe.1 h)⟩,
      fun h => WithBot.coe_lt_coe.2 (WithTop.coe_lt_coe.1 h.2)⟩

theorem entry_le {c : Cost} {q : ℚ} : (q : WithBot ℚ) ≤ quantileEntry c ↔ c ≠ ⊤ ∧ (q : Cost) ≤ c := by
  cases c using WithTop.recTopCoe with
  | top => exact ⟨fun h => absurd h (by simp [quantileEntry]), fun h => absurd rfl h.1⟩
  | coe a =>
    exact ⟨fun h => ⟨WithTop.coe_ne_top, WithTop.coe_le_coe.2 (WithBot.coe_le_coe.1 h)⟩,
      fun h => WithBot.coe_le_coe.2 (WithTop.coe_le_coe.1 h.2)⟩

theorem entry_bot {c : Cost} : ¬ (⊥ : WithBot ℚ) < quantileEntry c ↔ c = ⊤ := by
  cases c using WithTop.recTopCoe with
  | top => exact ⟨fun _ => rfl, fun _ => lt_irrefl _⟩
  | coe a =>
    exact ⟨fun h => absurd (WithBot.bot_lt_coe a) h, fun h => absurd h WithTop.coe_ne_top⟩

theorem entries_length (N V : Nat) (agg : Nat → Nat → Cost) :
    (quantileEntries N V agg).length = N * V := by
  unfold quantileEntries
  rw [List.length_map, List.length_product, List.length_range, List.length_range]

section
variable {undefined : WithBot ℚ → WithBot ℚ → ℚ → Bool} {N V : Nat} {target q : ℚ}
  {agg : Nat → Nat → Cost}

theorem commit_between (hN : N ≠ 0) (hV : V ≠ 0) (h0 : 0 ≤ target) (h1 : target ≤ V)
    (h : commitQuantile undefined N V target agg = .val q) :
    ∃ low : Nat, low < N * V ∧ (low : ℚ) ≤ (N * V - 1) * (1 - target / V)
      ∧ ((N * V - 1) * (1 - target / V) : ℚ) < low + 1
      ∧ ((quantileEntries N V agg).mergeSort fun a b => decide (a ≤ b)).getD low ⊥ ≤ (q : WithBot ℚ)
      ∧ (q : WithBot ℚ) ≤ ((quantileEntries N V agg).mergeSort fun a b => decide (a ≤ b)).getD
          (min (low + 1) (N * V - 1)) ⊥ := by
  have hNV : 0 < N * V := Nat.mul_pos (Nat.pos_of_ne_zero hN) (Nat.pos_of_ne_zero hV)
  have hV' : (0 : ℚ) < V := by exact_mod_cast Nat.pos_of_ne_zero hV
  obtain ⟨low, g1, g2, g3, g4, g5⟩ := quantile_between (undefined := undefined) (level := 1 - target / V)
    (entries := quantileEntries N V agg)
    (by rw [← List.length_pos_iff, entries_length]; exact hNV)
    (by rw [sub_nonneg, div_le_one hV']; exact h1)
    (by rw [sub_le_self_iff]; exact div_nonneg h0 hV'.le) h
  rw [entries_length] at g1 g2 g3 g5
  have hc : ((N * V - 1 : Nat) : ℚ) = N * V - 1 := by
    rw [Nat.cast_sub hNV]; push_cast; ring
  rw [hc] at g2 g3
  exact ⟨low, g1, g2, g3, g4, g5⟩

/-- C89: at most the number of commitments asked for, rounded up, have finite min-marginals above the
threshold. -/
theorem C89_above (hN : N ≠ 0) (hV : V ≠ 0) (h0 : 0 ≤ target) (h1 : target ≤ V)
    (h : commitQuantile undefined N V target agg = .val q) :
    ((List.range N ×ˢ List.range V).countP
      (fun p => decide (agg p.1 p.2 ≠ ⊤ ∧ (q : Cost) < agg p.1 p.2)) : ℚ) < target * N + 1 := by
  obtain ⟨low, g1, g2, g3, g4, -⟩ := commit_between hN hV h0 h1 h
  obtain ⟨hsort, hperm⟩ := sorted_entries (quantileEntries N V agg)
  have hlen := hperm.length_eq
  rw [entries_length] at hlen
  have hc := count_above hsort (i := low) (by omega) g4
  rw [hperm.countP_eq, hlen] at hc
  unfold quantileEntries at hc
  rw [List.countP_map] at hc
  have he : (fun p : Nat × Nat => decide (agg p.1 p.2 ≠ ⊤ ∧ (q : Cost) < agg p.1 p.2))
      = (fun c => decide ((q : WithBot ℚ) < c)) ∘ fun p : Nat × Nat => quantileEntry (agg p.1 p.2) := by
    funext p
    simp only [Function.comp]
    exact decide_eq_decide.2 entry_lt.symm
  rw [he]
  have hV' : (0 : ℚ) < V := by exact_mod_cast Nat.pos_of_ne_zero hV
  refine lt_of_le_of_lt (Nat.cast_le.2 hc) ?_
  have e1 : ((N * V - 1 - low : Nat) : ℚ) = N * V - 1 - low := by
    rw [Nat.sub_sub, Nat.cast_sub (by omega)]; push_cast; ring
  rw [e1]
  have e2 : ((N * V - 1) * (1 - target / V) : ℚ) = N * V - 1 - target * N + target / V := by
    field_simp; ring
  rw [e2] at g3
  have : 0 ≤ target / V := div_nonneg h0 hV'.le
  linarith

/-- C89: at least the number of commitments asked for, up to a fraction, have finite min-marginals that
reach the threshold. -/
theorem C89_reached (hN : N ≠ 0) (hV : V ≠ 0) (h0 : 0 ≤ target) (h1 : target ≤ V)
    (h : commitQuantile undefined N V target agg = .val q) :
    target * N - target / V ≤ ((List.range N ×ˢ List.range V).countP
      (fun p => decide (agg p.1 p.2 ≠ ⊤ ∧ (q : Cost) ≤ agg p.1 p.2)) : ℚ) := by
  obtain ⟨low, g1, g2, g3, -, g5⟩ := commit_between hN hV h0 h1 h
  obtain ⟨hsort, hperm⟩ := sorted_entries (quantileEntries N V agg)
  have hlen := hperm.length_eq
  rw [entries_length] at hlen
  have hc := count_reached hsort (by omega) g5
  rw [hperm.countP_eq, hlen] at hc
  unfold quantileEntries at hc
  rw [List.countP_map] at hc
  have he : (fun p : Nat × Nat => decide (agg p.1 p.2 ≠ ⊤ ∧ (q : Cost) ≤ agg p.1 p.2))
      = (fun c => decide ((q : WithBot ℚ) ≤ c)) ∘ fun p : Nat × Nat => quantileEntry (agg p.1 p.2) := by
    funext p
    simp only [Function.comp]
    exact decide_eq_decide.2 entry_le.symm
  rw [he]
  have hV' : (0 : ℚ) < V := by exact_mod_cast Nat.pos_of_ne_zero hV
  refine le_trans ?_ (Nat.cast_le.2 (le_trans (by omega : N * V - 1 - low ≤ _) hc))
  have e1 : ((N * V - 1 - low : Nat) : ℚ) = N * V - 1 - low := by
    rw [Nat.sub_sub, Nat.cast_sub (by omega)]; push_cast; ring
  rw [e1]
  have e2 : ((N * V - 1) * (1 - target / V) : ℚ) = N * V - 1 - target * N + target / V := by
    field_simp; ring
  rw [e2] at g2
  linarith

/-- C89: the threshold is a number unless more values are forbidden already than may remain. -/
theorem C89_number (hN : N ≠ 0) (hV : V ≠ 0) (h0 : 0 ≤ target) (h1 : target ≤ V)
    (hf : ((List.range N ×ˢ List.range V).countP (fun p => decide (agg p.1 p.2 = ⊤)) : ℚ)
      ≤ (N * V - 1) * (1 - target / V)) :
    ∃ q, commitQuantile undefined N V target agg = .val q := by
  have hNV : 0 < N * V := Nat.mul_pos (Nat.pos_of_ne_zero hN) (Nat.pos_of_ne_zero hV)
  have hV' : (0 : ℚ) < V := by exact_mod_cast Nat.pos_of_ne_zero hV
  obtain ⟨hsort, hperm⟩ := sorted_entries (quantileEntries N V agg)
  have hlen := hperm.length_eq
  rw [entries_length] at hlen
  have hc : ((N * V - 1 : Nat) : ℚ) = N * V - 1 := by
    rw [Nat.cast_sub hNV]; push_cast; ring
  have hcount : (quantileEntries N V agg).countP (fun c => decide (⊥ < c))
      + (List.range N ×ˢ List.range V).countP (fun p => decide (agg p.1 p.2 = ⊤)) = N * V := by
    have hl := entries_length N V agg
    rw [List.length_eq_countP_add_countP (fun c => decide (⊥ < c))] at hl
    rw [← hl]
    congr 1
    unfold quantileEntries
    rw [List.countP_map]
    congr 1
    funext p
    simp only [Function.comp]
    exact decide_eq_decide.2 (by rw [decide_eq_true_eq]; exact entry_bot.symm)
  have hle1 : 1 - target / V ≤ 1 := by rw [sub_le_self_iff]; exact div_nonneg h0 hV'.le
  have hpos : (0 : ℚ) ≤ (N * V - 1) * (1 - target / V) := (Nat.cast_nonneg _).trans hf
  have hpl : ((N * V - 1) * (1 - target / V) : ℚ) ≤ ((N * V - 1 : Nat) : ℚ) := by
    rw [← hc]; exact mul_le_of_le_one_right (Nat.cast_nonneg _) hle1
  unfold commitQuantile quantileAt
  rw [entries_length, hc]
  dsimp only
  have hfl : ((⌊((N * V - 1) * (1 - target / V) : ℚ)⌋.toNat : ℤ)) = ⌊((N * V - 1) * (1 - target / V) : ℚ)⌋ :=
    Int.toNat_of_nonneg (Int.floor_nonneg.2 hpos)
  have hlow : (List.range N ×ˢ List.range V).countP (fun p => decide (agg p.1 p.2 = ⊤))
      ≤ ⌊((N * V - 1) * (1 - target / V) : ℚ)⌋.toNat := by
    have : (((List.range N ×ˢ List.range V).countP (fun p => decide (agg p.1 p.2 = ⊤)) : ℤ))
        ≤ ⌊((N * V - 1) * (1 - target / V) : ℚ)⌋ := Int.le_floor.2 (by exact_mod_cast hf)
    rw [← hfl] at this
    exact_mod_cast this
  have hlt : ⌊((N * V - 1) * (1 - target / V) : ℚ)⌋.toNat ≤ N * V - 1 := by
    have := (Int.floor_le ((N * V - 1) * (1 - target / V) : ℚ)).trans hpl
    rw [← hfl] at this
    exact_mod_cast this
  generalize ⌊((N * V - 1) * (1 - target / V) : ℚ)⌋.toNat = low at *
  have hfin : ∀ i, low ≤ i → i ≤ N * V - 1 →
      ∃ a : ℚ, ((quantileEntries N V agg).mergeSort fun a b => decide (a ≤ b)).getD i ⊥ = some a := by
    intro i hi1 hi2
    cases hg : ((quantileEntries N V agg).mergeSort fun a b => decide (a ≤ b)).getD i ⊥ with
    | bot =>
      have := count_above hsort (i := i) (by omega) (le_of_eq hg)
      rw [hperm.countP_eq, hlen] at this
      omega
    | coe a => exact ⟨a, rfl⟩
  obtain ⟨a, ha⟩ := hfin low (le_refl _) hlt
  obtain ⟨b, hb⟩ := hfin (min (low + 1) (N * V - 1)) (by omega) (by omega)
  rw [ha, hb]
  exact ⟨_, rfl⟩

end

section
variable {K V : Type} [LinearOrder K] [DecidableEq V] {invalid : Cost}
  {dags : List (PackedDag × List K × List V)} {weights : Option (List ℚ)} {D₀ D : DualSystem K V}

/-- C89: partial commitment in exact arithmetic, with the threshold `q` chosen for the number of
commitments asked for: a joint solution whose cost is at most `bound + max (0, q - bound) * strictness`
keeps its cost, where `bound` is the largest of the smallest min-marginals. -/
theorem C89_keeps (hm : makeSystem invalid dags weights = .ok D₀)
    (hd : ∀ d ∈ dags, GoodDag d) (hw : GoodWeights dags.length weights) (hr : SystemReach D₀ D)
    (undefined : WithBot ℚ → WithBot ℚ → ℚ → Bool) (dir : Direction) (target strictness epsilon : ℚ)
    (hs : 0 ≤ strictness) (S : System) (status : CommitStatus)
    (he : D.data.partiallyCommitAt undefined dir target strictness epsilon = some (S, status)) :
    ∃ S1 agg, RUSure.collectMarginals (dir.order D.data.numKeys) D.data (fun _ _ => 0) = some (S1, agg)
      ∧ ∀ bound q : ℚ, LargestOfSmallest D.data.numKeys D.data.numValues agg bound →
        commitQuantile undefined D.data.numKeys D.data.numValues target agg = .val q →
        ∀ a paths, Joint D.data a paths →
          jointCost D.data a paths ≤ ((bound + max 0 (q - bound) * strictness : ℚ) : Cost) →
          jointCost S a paths = jointCost D.data a paths := by
  have h := (built_inv hm hd hw hr).sys
  unfold System.partiallyCommitAt at he
  split at he
  · cases he
  rw [← C88_exact] at he
  obtain ⟨-, S1, agg, h1, h2⟩ := commit_cases he
  have h1' : RUSure.collectMarginals (dir.order D.data.numKeys) D.data (fun _ _ => 0) = some (S1, agg) := by
    rw [← collect_exact]; exact h1
  refine ⟨S1, agg, h1', ?_⟩
  intro bound q hb hq a paths hj hle
  obtain ⟨i1, i2, -, -⟩ := collectMarginals_spec _ _ _ _ _ h h1'
  rcases h2 with ⟨rfl, -⟩ | ⟨gap, b', c', hg, h3, -, h5⟩
  · exact i2.cost a paths
  · rw [costBound_eq hb] at h3 h5
    have hgap : Rounded.exactArith.mul gap strictness = ((max 0 (q - bound) * strictness : ℚ) : Cost) := by
      have h4 : max (0 : Cost) ((q - bound : ℚ) : Cost) = ((max 0 (q - bound) : ℚ) : Cost) := by
        rw [WithTop.coe_max]; rfl
      have h6 : Rounded.exactArith.add (q : Cost) (Rounded.negate (bound : Cost))
          = ((q - bound : ℚ) : Cost) := by
        rw [sub_eq_add_neg]; rfl
      rw [h5 q hq, h6, h4]
      rfl
    rw [hgap, commit_exact] at h3
    obtain ⟨-, -, -, -, k5, -⟩ := commitLoop_spec _ _ _ _ _ _ _ i1 (fun v hv => by
      rw [i2.keys]; exact (mem_order dir).1 hv) h3
    rw [k5 (by
      change ((0 : ℚ) : Cost) ≤ _
      exact WithTop.coe_le_coe.2 (mul_nonneg (le_max_left _ _) hs)) a paths (i2.joint.2 hj)
      (by rw [i2.cost, ← WithTop.coe_add]; exact hle), i2.cost]

end

/-- A threshold for one commitment per variable, with two variables that have three values each: the
hypotheses of the first three theorems are met, and two min-marginals are above the threshold. -/
example : commitQuantile (fun _ _ _ => false) 2 3 1 (fun v x => ((3 * v + x : ℚ) : Cost))
      = .val (10 / 3)
    ∧ ((List.range 2 ×ˢ List.range 3).countP
      (fun p => decide (((3 * p.1 + p.2 : ℚ) : Cost) ≠ ⊤
        ∧ ((10 / 3 : ℚ) : Cost) < ((3 * p.1 + p.2 : ℚ) : Cost)))) = 2
    ∧ (((List.range 2 ×ˢ List.range 3).countP
      (fun p => decide (((3 * p.1 + p.2 : ℚ) : Cost) = ⊤)) : ℚ)) ≤ (2 * 3 - 1) * (1 - 1 / 3) := by
  refine ⟨?_, by decide +kernel, ?_⟩
  · have h1 : quantileEntries 2 3 (fun v x => ((3 * v + x : ℚ) : Cost))
        = [((0 : ℚ) : WithBot ℚ), ((1 : ℚ) : WithBot ℚ), ((2 : ℚ) : WithBot ℚ), ((3 : ℚ) : WithBot ℚ),
          ((4 : ℚ) : WithBot ℚ), ((5 : ℚ) : WithBot ℚ)] := by decide +kernel
    have h2 : ⌊(((6 - 1 : Nat) : ℚ) * (1 - 1 / ((3 : Nat) : ℚ)))⌋.toNat = 3 := by
      norm_num
      rfl
    unfold commitQuantile quantileAt
    rw [h1, List.mergeSort_of_pairwise (by decide +kernel)]
    simp only [List.length_cons, List.length_nil, Nat.zero_add, Nat.reduceAdd, h2]
    change Quantile.val _ = _
    norm_num
  · have : (List.range 2 ×ˢ List.range 3).countP
        (fun p => decide (((3 * p.1 + p.2 : ℚ) : Cost) = ⊤)) = 0 := by decide +kernel
    rw [this]
    norm_num

theorem sort_two (a b : WithBot ℚ) :
    [a, b].mergeSort (fun a b => decide (a ≤ b)) = if a ≤ b then [a, b] else [b, a] := by
  by_cases h : a ≤ b
  · rw [List.mergeSort_of_pairwise (by simp [h])]; simp [h]
  · simp [List.mergeSort, List.MergeSort.Internal.splitInTwo, h]

/-- The threshold for one variable with two values, used in the example below. -/
def quantileOfTwo (agg : Nat → Nat → Cost) : Quantile :=
  let a := quantileEntry (agg 0 0)
  let b := quantileEntry (agg 0 1)
  let s := if a ≤ b then [a, b] else [b, a]
  match s.getD 0 ⊥, s.getD 1 ⊥ with
  | some a, some b => .val (a + (b - a) * (1 / 2))
  | _, _ => .nan

theorem quantile_two : commitQuantile (fun _ _ _ => false) 1 2 1 = quantileOfTwo := by
  funext agg
  have h1 : quantileEntries 1 2 agg = [quantileEntry (agg 0 0), quantileEntry (agg 0 1)] := rfl
  have h2 : ⌊(((2 - 1 : Nat) : ℚ) * (1 - 1 / ((2 : Nat) : ℚ)))⌋.toNat = 0 := by norm_num
  unfold commitQuantile quantileAt
  rw [h1]
  simp only [List.length_cons, List.length_nil, Nat.zero_add, Nat.reduceAdd, h2, sort_two]
  have h3 : (((2 - 1 : Nat) : ℚ) * (1 - 1 / ((2 : Nat) : ℚ)) - ((0 : Nat) : ℚ)) = 1 / 2 := by norm_num
  rw [h3]
  rfl

/-- The hypotheses of `C89_keeps` are met: with the min-marginals 3 and 8 of the two values of one
variable, the threshold for one commitment is `11 / 2`; the value with 8 is forbidden, and joint
solutions of cost at most `3 + (11 / 2 - 3) / 2` keep their cost. -/
example : ∃ D : DualSystem Nat Nat, makeSystem ⊤ (choiceDags keepCosts) none = .ok D
    ∧ (∀ d ∈ choiceDags keepCosts, GoodDag d)
    ∧ ∃ S, D.data.partiallyCommitAt (fun _ _ _ => false) .forward 1 (1 / 2) (1 / 100000)
        = some (S, .madePartialAssignment)
      ∧ S.extra 0 0 = 0 ∧ S.extra 0 1 = ⊤
      ∧ ∃ S1 agg, RUSure.collectMarginals (Direction.forward.order D.data.numKeys) D.data (fun _ _ => 0)
          = some (S1, agg)
        ∧ LargestOfSmallest D.data.numKeys D.data.numValues agg ((3 : ℚ) : Cost)
        ∧ commitQuantile (fun _ _ _ => false) D.data.numKeys D.data.numValues 1 agg = .val (11 / 2) := by
  refine ⟨_, keep_made, choiceDags_good _, ?_⟩
  have k1 : (choiceSystem keepCosts).numKeys = 1 := by decide +kernel
  have k2 : (choiceSystem keepCosts).numValues = 2 := by decide +kernel
  have h : ((choiceSystem keepCosts).partiallyCommitAt (fun _ _ _ => false) .forward 1 (1 / 2)
      (1 / 100000)).map (fun r => (r.2, r.1.extra 0 0, r.1.extra 0 1))
      = some (.madePartialAssignment, 0, ⊤) := by
    unfold System.partiallyCommitAt
    rw [k1, k2, quantile_two, if_neg (by norm_num)]
    decide +kernel
  rw [Option.map_eq_some_iff] at h
  obtain ⟨⟨S, st⟩, h1, h2⟩ := h
  simp only [Prod.mk.injEq] at h2
  obtain ⟨rfl, h2, h3⟩ := h2
  refine ⟨S, h1, h2, h3, ?_⟩
  have g : (RUSure.collectMarginals (Direction.forward.order (choiceSystem keepCosts).numKeys)
      (choiceSystem keepCosts) (fun _ _ => 0)).map (fun r => [r.2 0 0, r.2 0 1])
      = some [((3 : ℚ) : Cost), ((8 : ℚ) : Cost)] := by decide +kernel
  rw [Option.map_eq_some_iff] at g
  obtain ⟨⟨S1, agg⟩, g1, g2⟩ := g
  simp only [List.cons.injEq, and_true] at g2
  refine ⟨S1, agg, g1, ?_, ?_⟩
  · change LargestOfSmallest (choiceSystem keepCosts).numKeys (choiceSystem keepCosts).numValues agg _
    rw [k1, k2]
    refine ⟨⟨0, Nat.one_pos, fun x hx => ?_⟩, fun v hv => ⟨0, Nat.two_pos, ?_⟩⟩
    · rcases (by omega : x = 0 ∨ x = 1) with rfl | rfl
      · rw [g2.1]
      · rw [g2.2]; decide +kernel
    · rw [Nat.lt_one_iff.1 hv, g2.1]
  · change commitQuantile _ (choiceSystem keepCosts).numKeys (choiceSystem keepCosts).numValues _ agg = _
    rw [k1, k2, quantile_two]
    unfold quantileOfTwo
    rw [g2.1, g2.2]
    change (match (if ((3 : ℚ) : WithBot ℚ) ≤ ((8 : ℚ) : WithBot ℚ) then
        [((3 : ℚ) : WithBot ℚ), ((8 : ℚ) : WithBot ℚ)]
      else [((8 : ℚ) : WithBot ℚ), ((3 : ℚ) : WithBot ℚ)]).getD 0 ⊥, (if ((3 : ℚ) : WithBot ℚ) ≤ ((8 : ℚ) : WithBot ℚ) then
        [((3 : ℚ) : WithBot ℚ), ((8 : ℚ) : WithBot ℚ)]
      else [((8 : ℚ) : WithBot ℚ), ((3 : ℚ) : WithBot ℚ)]).getD 1 ⊥ with
      | some a, some b => Quantile.val (a + (b - a) * (1 / 2))
      | _, _ => .nan) = _
    rw [if_pos (WithBot.coe_le_coe.2 (by norm_num))]
    change Quantile.val _ = _
    norm_num

end RUSure.Props
