import Verif.Lemmas.RoundedGreedy
import Verif.Lemmas.GreedyGuard

/-! # Greedy extraction in machine arithmetic from systems where one subproblem decides what is
feasible -/

namespace RUSure.Lemmas.Rnd
open RUSure RUSure.Spec RUSure.Lemmas RUSure.Rounded

variable {A : Arith} {F : ℚ → Prop} {u limit : ℚ}

/-- The corresponding elements of three lists. -/
theorem forall₂_triple {α β γ : Type} {R : α → β → Prop} {Q : β → γ → Prop} {l : List α}
    {l' : List β} {l'' : List γ} (h : List.Forall₂ R l l') (h' : List.Forall₂ Q l' l'') :
    ∀ a ∈ l, ∃ b c, b ∈ l' ∧ c ∈ l'' ∧ R a b ∧ Q b c := by
  induction h generalizing l'' with
  | nil => simp
  | @cons a b l l' h1 _ ih =>
    cases h' with
    | @cons _ c _ l'' g1 g2 =>
      intro a' ha
      rcases List.mem_cons.1 ha with rfl | ha
      · exact ⟨b, c, by simp, by simp, h1, g1⟩
      · obtain ⟨b', c', i1, i2, i3, i4⟩ := ih g2 a' ha
        exact ⟨b', c', List.mem_cons_of_mem _ i1, List.mem_cons_of_mem _ i2, i3, i4⟩

/-- What the system must satisfy before greedy extraction. -/
structure GuardReady (A : Arith) (F : ℚ → Prop) (u limit : ℚ) (n : Nat) (M : ℚ) (S0 : System) :
    Prop where
  size : 0 ≤ M
  ok : ∀ s ∈ S0.subs, RSubOK A.toMachine S0.numKeys S0.numValues s
  range : ∀ s ∈ S0.subs, InRange F s.memo.dag s.memo.pen n M
  limit : (1 + u) ^ (2 * n + 1 + S0.subs.length) * (S0.subs.length * M) ≤ limit
  finite : ∀ b paths, Joint S0 b paths → jointCost S0 b paths < ⊤ →
    (List.zipWith (fun s p => pathCost s.memo.pen p) S0.subs paths).sum < ⊤

theorem guard_choice (hA : Accurate A.toMachine F u limit) (hu : 0 ≤ u) {n : Nat} {M : ℚ}
    {S0 S S' : System} (hG : GuardReady A F u limit n M S0) {s0 : Sub} (hs0 : s0 ∈ S0.subs)
    (hg : Guards S0 s0.view) {done : List Nat} {a : Nat → Nat} {v : Nat} {mm : Nat → Cost}
    (hok : ∀ s ∈ S.subs, RSubOK A.toMachine S0.numKeys S0.numValues s)
    (hV : S.numValues = S0.numValues) (hn : List.Forall₂ (Narrowed done a) S0.subs S.subs)
    (hv : v < S0.numKeys) (hvd : v ∉ done) (hm : Rounded.systemMarginals A S v = some (S', mm))
    (he : Extendable S0 (· ∈ done) a) :
    Extendable S0 (· ∈ done ++ [v]) (fun w => if w = v then argMin S.numValues mm else a w) := by
  obtain ⟨b, paths, hb, hj, hfin⟩ := he
  have hbv : b v < S.numValues := by rw [hV]; exact hj.values v hv
  obtain ⟨c1, c2, -⟩ := argMin_spec (Nat.pos_of_ne_zero (by omega : S.numValues ≠ 0)) mm
  generalize argMin S.numValues mm = c at *
  unfold Rounded.systemMarginals at hm
  rw [Option.map_eq_some_iff] at hm
  obtain ⟨⟨ss, t⟩, hloop, ht⟩ := hm
  simp only [Prod.mk.injEq] at ht
  obtain ⟨-, rfl⟩ := ht
  obtain ⟨-, cs, m1, m2⟩ := marginalsLoop_shape v _ _ _ _ hok hloop
  have hview : ∀ s ∈ S0.subs, ViewOK S0.numKeys S0.numValues s.view := fun s hs => (hG.ok s hs).view
  have hl' : S0.subs ≠ [] → (1 + u) ^ (2 * n) * M ≤ limit := fun h =>
    range_pos hu hG.size hG.limit fun hc => h (List.length_eq_zero_iff.1 hc)
  have hnb : List.Forall₂ (Narrowed done b) S0.subs S.subs :=
    hn.imp fun _ _ h => h.congr fun w hw => (hb w hw).symm
  -- the min-marginal of the value of the known solution is finite
  have hmb : t (b v) < ⊤ := by
    obtain ⟨rs, es, r1, r2, -, r4⟩ := subCosts_le hA hu hl' hview hG.range hnb m1 hj.paths
      (hG.finite b paths hj hfin)
    obtain ⟨r, -, s2, -⟩ := sum_near hA hu r2 (le_refl _) hA.zero
      (near_self hu _ (by simp) : Near u (2 * n + 1) 0 0 0) (by rw [r4, zero_add]; exact hG.limit)
    rw [m2 (b v)]
    refine lt_of_le_of_lt (foldl_mono (le_refl _) r1) ?_
    have s2' : (coes rs).foldl A.add ((fun _ => 0 : Nat → Cost) (b v)) = (r : Cost) := s2
    rw [s2']
    exact WithTop.coe_lt_top _
  have hmc : t c < ⊤ := lt_of_le_of_lt (c2 _ hbv) hmb
  rw [m2 c] at hmc
  obtain ⟨-, hcs⟩ := foldl_finite (B := A.toMachine) hmc
  obtain ⟨s, f, hs, hf, g1, g2⟩ := forall₂_triple hn m1 s0 hs0
  have hok0 := hview s0 hs0
  obtain ⟨p, p1, p2, r, e, -, -, p5, -⟩ := subCost_found hA hu (g1.range (hG.range s0 hs0))
    (hl' (List.ne_nil_of_mem hs0)) (g2 c) (hcs _ (List.mem_map.2 ⟨f, hf, rfl⟩))
  have hplt : pathCost s.memo.pen p < ⊤ := by rw [p5]; exact WithTop.coe_lt_top _
  rw [g1.dag] at p1
  rw [g1.index] at p2
  obtain ⟨k, hk⟩ := hg.total v hv
  -- the values of the path
  have hval : ∀ w, ∃ x, w < S0.numKeys → (x < S0.numValues ∧
      ∀ k, s0.index w = some k → (k, x) ∈ assignments p) := by
    intro w
    by_cases hw : w < S0.numKeys
    · obtain ⟨kw, hkw⟩ := hg.total w hw
      obtain ⟨x, hx, hmx⟩ := complete_value hok0.wf p1 (hok0.lt w kw hkw).2
      refine ⟨x, fun _ => ⟨?_, ?_⟩⟩
      · rw [← hok0.values]; exact hx
      · intro k' hk'
        have hkw' : s0.index w = some kw := hkw
        rw [hkw'] at hk'
        obtain rfl := Option.some.inj hk'
        exact hmx
    · exact ⟨0, fun hc => absurd hc hw⟩
  choose b' hb' using hval
  obtain ⟨paths', hj', hf'⟩ := hg.extends_ b' p (fun w hw => (hb' w hw).1) p1
    (pathCost_weight hplt) (fun w k x hk hx =>
      complete_unique hok0.wf p1 hx ((hb' w (hok0.lt w k hk).1).2 k hk))
  refine ⟨fun w => if w < S0.numKeys then b' w else if w = v then c else a w, paths', ?_, ?_, ?_⟩
  · intro w hw
    dsimp only
    split
    · rename_i hlt
      obtain ⟨kw, hkw⟩ := hg.total w hlt
      have hkw' : s0.index w = some kw := hkw
      have hmx := (hb' w hlt).2 kw hkw'
      by_cases hwv : w = v
      · subst hwv
        rw [if_pos rfl]
        exact complete_unique hok0.wf p1 hmx (p2 kw hkw')
      · rw [if_neg hwv]
        have hwd : w ∈ done := by
          rcases List.mem_append.1 hw with h | h
          · exact h
          · exact absurd (List.mem_singleton.1 h) hwv
        by_contra hne
        have h1 := ((pathCost_lt_top _ _).1 hplt).2 _ hmx
        dsimp only at h1
        rw [g1.pen w kw hkw' (b' w), if_pos ⟨hwd, hne⟩] at h1
        exact lt_irrefl _ h1
    · rfl
  · refine ⟨?_, ?_⟩
    · intro w hw
      rw [if_pos hw]
      exact (hb' w hw).1
    · have hp2 := hj'.paths
      have hlt : ∀ s ∈ S0.subs, ∀ w k, s.index w = some k → w < S0.numKeys :=
        fun s hs w k hsk => ((hview s hs).lt w k hsk).1
      clear hj' hf' hj hn hnb hview hl' hs0 hcs
      generalize S0.subs = ss at hp2 hlt
      induction hp2 with
      | nil => exact .nil
      | @cons s q ss qs h1 _ ih =>
        refine .cons ⟨h1.1, ?_⟩ (ih fun s' hs' => hlt s' (List.mem_cons_of_mem _ hs'))
        intro w k x hk hx
        rw [if_pos (hlt s (by simp) w k hk)]
        exact h1.2 w k x hk hx
  · refine lt_of_eq_of_lt ?_ hf'
    unfold jointCost
    congr 2
    apply List.map_congr_left
    intro w hw
    have hw : w < S0.numKeys := by simpa using hw
    simp only [hw, ↓reduceIte]

theorem guard_run (hA : Accurate A.toMachine F u limit) (hu : 0 ≤ u) {n : Nat} {M : ℚ}
    {S0 : System} (hG : GuardReady A F u limit n M S0) {s0 : Sub} (hs0 : s0 ∈ S0.subs)
    (hg : Guards S0 s0.view) : ∀ (vs : List Nat) (S : System) (done : List Nat)
    (a : Nat → Nat) (c : Option Cost) (S' : System) (a' : Nat → Nat) (c' : Option Cost),
    (∀ s ∈ S.subs, RSubOK A.toMachine S0.numKeys S0.numValues s) → S.numValues = S0.numValues →
    List.Forall₂ (Narrowed done a) S0.subs S.subs → vs.Nodup →
    (∀ v ∈ vs, v < S0.numKeys ∧ v ∉ done) → Extendable S0 (· ∈ done) a →
    Rounded.greedyLoop A vs S a c = some (S', a', c') →
    Extendable S0 (· ∈ done ++ vs) a' := by
  intro vs
  induction vs with
  | nil =>
    intro S done a c S' a' c' _ _ _ _ _ hext he
    simp only [Rounded.greedyLoop, Option.some.injEq, Prod.mk.injEq] at he
    obtain ⟨-, rfl, -⟩ := he
    simpa using hext
  | cons v vs ih =>
    intro S done a c S' a' c' hok hV hn hnd hvs hext he
    rw [List.nodup_cons] at hnd
    obtain ⟨hv, hvd⟩ := hvs v (by simp)
    unfold Rounded.greedyLoop at he
    split at he
    · cases he
    · rename_i S1 mm hm
      split at he
      · cases he
      · dsimp only at he
        have hch := guard_choice hA hu hG hs0 hg hok hV hn hv hvd hm hext
        generalize argMin S.numValues mm = ch at he hch
        have hm' := hm
        unfold Rounded.systemMarginals at hm'
        rw [Option.map_eq_some_iff] at hm'
        obtain ⟨⟨ss, t⟩, hl, hS1⟩ := hm'
        simp only [Prod.mk.injEq] at hS1
        obtain ⟨hS1, rfl⟩ := hS1
        obtain ⟨g1, -⟩ := marginalsLoop_shape v _ _ _ _ hok hl
        have hss : S1.subs = ss := by rw [← hS1]
        have hSv : S1.numValues = S0.numValues := by rw [← hS1]; exact hV
        rw [← hss] at g1
        have hok1 : ∀ s ∈ S1.subs, RSubOK A.toMachine S0.numKeys S0.numValues s :=
          forall₂_right (fun _ _ h => h.1) g1
        have hn1 : List.Forall₂ (Narrowed done a) S0.subs S1.subs :=
          forall₂_trans (fun _ _ _ h h' => h.viewed h'.2) hn g1
        obtain ⟨f1, f2⟩ := forbid_narrowed (c := ch) hok1 hvd hn1
        have := ih _ _ _ _ _ _ _ f1 hSv f2 hnd.2 (by
          intro w hw
          refine ⟨(hvs w (List.mem_cons_of_mem _ hw)).1, ?_⟩
          intro hd
          rcases List.mem_append.1 hd with hd | hd
          · exact (hvs w (List.mem_cons_of_mem _ hw)).2 hd
          · rw [List.mem_singleton.1 hd] at hw; exact hnd.1 hw) hch he
        simpa using this

/-- The vector extracted belongs to a joint solution of finite cost. -/
theorem guard_greedy (hA : Accurate A.toMachine F u limit) (hu : 0 ≤ u) {n : Nat} {M : ℚ}
    {S0 : System} (hG : GuardReady A F u limit n M S0) {s0 : Sub} (hs0 : s0 ∈ S0.subs)
    (hg : Guards S0 s0.view) {a0 : Nat → Nat} {p0 : List (List PackedEdge)} (hj : Joint S0 a0 p0)
    (hf : jointCost S0 a0 p0 < ⊤) {dir : Direction} {vec : List Nat} {c : Option Cost}
    (he : Rounded.greedy A S0 dir = some (vec, c)) :
    ∃ b paths, (∀ w < S0.numKeys, b w = vec.getD w 0) ∧ Joint S0 b paths ∧ jointCost S0 b paths < ⊤ := by
  unfold Rounded.greedy at he
  rw [Option.map_eq_some_iff] at he
  obtain ⟨⟨S', a, c'⟩, h1, h2⟩ := he
  simp only [Prod.mk.injEq] at h2
  obtain ⟨b, paths, hb, hj, hf⟩ := guard_run hA hu hG hs0 hg _ _ [] _ _ _ _ _ hG.ok rfl
    (List.forall₂_same.2 fun s _ => Narrowed.refl _ s) (order_nodup _ dir)
    (fun v hv => ⟨(mem_order dir).1 hv, by simp⟩) ⟨a0, p0, by simp, hj, hf⟩ h1
  refine ⟨b, paths, ?_, hj, hf⟩
  intro w hw
  rw [hb w (by rw [List.nil_append]; exact (mem_order dir).2 hw), ← h2.1]
  simp [List.getD_eq_getElem?_getD, hw]

end RUSure.Lemmas.Rnd
