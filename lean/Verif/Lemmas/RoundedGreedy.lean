import Verif.Lemmas.RoundedDualRun
import Verif.Model.RoundedGreedy

/-! # Greedy extraction in machine arithmetic -/

namespace RUSure.Lemmas.Rnd
open RUSure RUSure.Spec RUSure.Lemmas RUSure.Rounded

variable {A : Arith} {F : ℚ → Prop} {u τ η limit : ℚ} {N V : Nat}

/-! ### the min-marginals of a system -/

/-- What one subproblem contributes to the min-marginal of a value. -/
def SubCost (A : Machine) (s : Sub) (v x : Nat) (c : Cost) : Prop :=
  match s.index v with
  | none => StrategyCost A s.memo.dag s.memo.pen c .fromMiddle
  | some k => MarginalOf A s.memo.dag s.memo.pen k x c

theorem marginalsLoop_shape (v : Nat) : ∀ (ss : List Sub) (t : Nat → Cost) (ss' : List Sub)
    (t' : Nat → Cost), (∀ s ∈ ss, RSubOK A.toMachine N V s) →
    Rounded.marginalsLoop A v ss t = some (ss', t') →
    List.Forall₂ (fun s s' => RSubOK A.toMachine N V s' ∧ s'.view = s.view) ss ss'
    ∧ ∃ cs : List (Nat → Cost), List.Forall₂ (fun s f => ∀ x, SubCost A.toMachine s v x (f x)) ss cs
      ∧ ∀ x, t' x = (cs.map fun f => f x).foldl A.add (t x) := by
  intro ss
  induction ss with
  | nil =>
    intro t ss' t' _ h
    simp only [Rounded.marginalsLoop, Option.some.injEq, Prod.mk.injEq] at h
    obtain ⟨rfl, rfl⟩ := h
    exact ⟨.nil, [], .nil, fun _ => rfl⟩
  | cons s ss ih =>
    intro t ss' t' hok h
    have hs := hok s (by simp)
    have hss : ∀ s ∈ ss, RSubOK A.toMachine N V s := fun s' hs' => hok s' (List.mem_cons_of_mem _ hs')
    unfold Rounded.marginalsLoop at h
    cases hk : s.index v with
    | none =>
      simp only [hk] at h
      split at h
      · cases h
      · rename_i m c hc
        split at h
        · cases h
        · rename_i ss1 t1 hl
          simp only [Option.some.injEq, Prod.mk.injEq] at h
          obtain ⟨rfl, rfl⟩ := h
          obtain ⟨h1, h2, h3⟩ := rsub_skip hs hc
          obtain ⟨h4, cs, h5, h6⟩ := ih _ _ _ hss hl
          refine ⟨.cons ⟨h1, h2⟩ h4, (fun _ => c) :: cs, .cons ?_ h5, ?_⟩
          · intro x
            unfold SubCost
            rw [hk]
            exact h3
          · intro x
            rw [h6 x]
            rfl
    | some k =>
      simp only [hk] at h
      split at h
      · cases h
      · rename_i m mm hc
        split at h
        · cases h
        · rename_i ss1 t1 hl
          simp only [Option.some.injEq, Prod.mk.injEq] at h
          obtain ⟨rfl, rfl⟩ := h
          obtain ⟨h1, h2, h3⟩ := rsub_marg hs hc
          obtain ⟨h4, cs, h5, h6⟩ := ih _ _ _ hss hl
          refine ⟨.cons ⟨h1, h2⟩ h4, mm :: cs, .cons ?_ h5, ?_⟩
          · intro x
            unfold SubCost
            rw [hk]
            exact h3 x
          · intro x
            rw [h6 x]
            rfl

theorem subCost_le {M : ℚ} {n : Nat} (hA : Accurate A.toMachine F u limit) (hu : 0 ≤ u) {s : Sub}
    (wf : PackedWF s.memo.dag) (hr : InRange F s.memo.dag s.memo.pen n M)
    (hl : (1 + u) ^ (2 * n) * M ≤ limit) {p : List PackedEdge} (hp : Complete s.memo.dag p)
    (hfin : pathCost s.memo.pen p < ⊤) {v x : Nat} {c : Cost}
    (hx : ∀ k, s.index v = some k → (k, x) ∈ assignments p) (hc : SubCost A.toMachine s v x c) :
    ∃ r e : ℚ, c ≤ r ∧ F r ∧ pathCost s.memo.pen p = e ∧ Near u (2 * n + 1) r e M := by
  unfold SubCost at hc
  cases hk : s.index v with
  | none =>
    rw [hk] at hc
    exact skip_bound hA hu wf hr hl hp hfin hc
  | some k =>
    rw [hk] at hc
    exact marg_bound hA hu hr hl hp hfin (hx k hk) hc

theorem middle_found {M : ℚ} {n : Nat} {B : Machine} (hA : Accurate B F u limit) (hu : 0 ≤ u)
    {d : PackedDag} {pen : Penalties} (hr : InRange F d pen n M) (hl : (1 + u) ^ (2 * n) * M ≤ limit)
    {p1 p2 : List PackedEdge} {e : PackedEdge} (hp : Complete d (p1 ++ e :: p2))
    (hfin : middleCost B pen p1 e p2 < ⊤) :
    ∃ r z : ℚ, middleCost B pen p1 e p2 = r ∧ F r ∧ pathCost pen (p1 ++ e :: p2) = z
      ∧ Near u (2 * n + 1) r z M := by
  have hmem : Members F pen (p1 ++ e :: p2) :=
    fun e' he' => hr.member e' (complete_mem hp e' he')
  obtain ⟨t, ht⟩ := size_of_middle hmem hfin
  have htM := hr.total _ hp t ht
  have hP := one_le_pow_u hu (2 * n)
  obtain ⟨z, r, g1, g2, g3, g4⟩ := middle_near hA hu ht (hr.length _ hp)
    ((mul_le_mul_of_nonneg_left htM (by linarith)).trans hl)
  exact ⟨r, z, g2, g3, g1, g4.weaken hu (le_refl _) htM⟩

theorem subCost_found {M : ℚ} {n : Nat} (hA : Accurate A.toMachine F u limit) (hu : 0 ≤ u) {s : Sub}
    (hr : InRange F s.memo.dag s.memo.pen n M) (hl : (1 + u) ^ (2 * n) * M ≤ limit) {v x : Nat}
    {c : Cost} (hc : SubCost A.toMachine s v x c) (hfin : c < ⊤) :
    ∃ q, Complete s.memo.dag q ∧ (∀ k, s.index v = some k → (k, x) ∈ assignments q)
      ∧ ∃ r e : ℚ, c = r ∧ F r ∧ pathCost s.memo.pen q = e ∧ Near u (2 * n + 1) r e M := by
  unfold SubCost at hc
  cases hk : s.index v with
  | none =>
    rw [hk] at hc
    obtain ⟨v', -, h2⟩ := hc
    rcases h2.attained with rfl | ⟨⟨p1, e, p2⟩, ⟨hp, -⟩, rfl⟩
    · exact absurd hfin (lt_irrefl _)
    · obtain ⟨r, z, g1, g2, g3, g4⟩ := middle_found hA hu hr hl hp hfin
      exact ⟨_, hp, fun k h => (by cases h), r, z, g1, g2, g3, g4⟩
  | some k =>
    rw [hk] at hc
    rcases hc.attained with rfl | ⟨⟨p1, e, p2⟩, ⟨hp, hreq⟩, rfl⟩
    · exact absurd hfin (lt_irrefl _)
    · obtain ⟨r, z, g1, g2, g3, g4⟩ := middle_found hA hu hr hl hp hfin
      refine ⟨_, hp, fun k' h => ?_, r, z, g1, g2, g3, g4⟩
      obtain rfl : k = k' := by simpa using h
      exact List.mem_filterMap.2 ⟨e, by simp, hreq⟩

/-! ### forbidding values -/

/-- `s'` is `s`, with all values of the variables `done` but those of `a` forbidden. -/
structure Narrowed (done : List Nat) (a : Nat → Nat) (s s' : Sub) : Prop where
  dag : s'.memo.dag = s.memo.dag
  index : s'.index = s.index
  pen : ∀ w k, s.index w = some k → ∀ x,
    s'.memo.pen k x = if w ∈ done ∧ x ≠ a w then ⊤ else s.memo.pen k x
  either : ∀ k x, s'.memo.pen k x = s.memo.pen k x ∨ s'.memo.pen k x = ⊤

theorem Narrowed.refl (a : Nat → Nat) (s : Sub) : Narrowed [] a s s :=
  ⟨rfl, rfl, fun _ _ _ _ => by simp, fun _ _ => .inl rfl⟩

theorem penalty_either {s s' : Sub} (h : ∀ k x, s'.memo.pen k x = s.memo.pen k x ∨ s'.memo.pen k x = ⊤)
    (e : PackedEdge) : e.penalty s'.memo.pen = e.penalty s.memo.pen ∨ e.penalty s'.memo.pen = ⊤ := by
  unfold PackedEdge.penalty
  split
  · exact .inl rfl
  · exact h _ _

theorem summands_either {s s' : Sub}
    (h : ∀ k x, s'.memo.pen k x = s.memo.pen k x ∨ s'.memo.pen k x = ⊤) (p : List PackedEdge)
    (hf : ∀ c ∈ summands s'.memo.pen p, c < ⊤) :
    summands s'.memo.pen p = summands s.memo.pen p := by
  unfold summands at *
  apply List.flatMap_congr
  intro e he
  rcases penalty_either h e with h1 | h1
  · rw [h1]
  · have := hf (e.penalty s'.memo.pen) (List.mem_flatMap.2 ⟨e, he, by simp⟩)
    rw [h1] at this
    exact absurd this (lt_irrefl _)

theorem Narrowed.range {done : List Nat} {a : Nat → Nat} {s s' : Sub} (h : Narrowed done a s s')
    {n : Nat} {M : ℚ} (hr : InRange F s.memo.dag s.memo.pen n M) :
    InRange F s'.memo.dag s'.memo.pen n M := by
  rw [h.dag]
  refine ⟨?_, hr.length, ?_⟩
  · intro e he x hx
    rcases hx with hx | hx
    · exact hr.member e he x (.inl hx)
    · rcases penalty_either h.either e with h1 | h1
      · rw [h1] at hx; exact hr.member e he x (.inr hx)
      · rw [h1] at hx; exact absurd hx.symm WithTop.coe_ne_top
  · rintro p hp t ⟨l, h1, h2, h3⟩
    refine hr.total p hp t ⟨l, ?_, h2, h3⟩
    rw [← h1]
    refine (summands_either h.either p ?_).symm
    intro c hc
    rw [h1] at hc
    obtain ⟨x, -, rfl⟩ := List.mem_map.1 hc
    exact WithTop.coe_lt_top x

theorem Narrowed.cost {done : List Nat} {a : Nat → Nat} {s s' : Sub} (h : Narrowed done a s s')
    {p : List PackedEdge} (hfin : pathCost s'.memo.pen p < ⊤) :
    pathCost s'.memo.pen p = pathCost s.memo.pen p := by
  rw [pathCost_summands] at hfin ⊢
  rw [pathCost_summands, summands_either h.either p (sum_lt_top.1 hfin)]

theorem pathCost_congr {pen pen' : Penalties} {p : List PackedEdge}
    (h : ∀ k x, (k, x) ∈ assignments p → pen' k x = pen k x) : pathCost pen' p = pathCost pen p := by
  unfold pathCost weight
  congr 1
  apply List.map_congr_left
  intro e he
  congr 1
  unfold PackedEdge.penalty
  cases hq : e.req with
  | none => rfl
  | some kx => exact h kx.1 kx.2 (List.mem_filterMap.2 ⟨e, he, hq⟩)

/-- One step of the loop. -/
theorem forbid_narrowed {S S0 : System} {done : List Nat} {a : Nat → Nat} {v c : Nat}
    (hok : ∀ s ∈ S.subs, RSubOK A.toMachine N V s) (hv : v ∉ done)
    (h : List.Forall₂ (Narrowed done a) S0.subs S.subs) :
    (∀ s ∈ (S.forbid v fun x => decide (x ≠ c)).subs, RSubOK A.toMachine N V s)
    ∧ List.Forall₂ (Narrowed (done ++ [v]) (fun w => if w = v then c else a w)) S0.subs
      (S.forbid v fun x => decide (x ≠ c)).subs := by
  have hsub : (S.forbid v fun x => decide (x ≠ c)).subs = S.subs.map fun s =>
      match s.index v with
      | none => s
      | some k =>
        { s with memo := s.memo.setPenalties k fun x => if decide (x ≠ c) then ⊤ else s.memo.pen k x } :=
    rfl
  rw [hsub]
  refine ⟨?_, ?_⟩
  · intro s hs
    obtain ⟨s0, hs0, rfl⟩ := List.mem_map.1 hs
    cases hk : s0.index v with
    | none => simpa [hk] using hok s0 hs0
    | some k => simpa only [hk] using (rsub_set (hok s0 hs0) hk _).1
  · clear hsub
    generalize S0.subs = ss0, S.subs = ss at h hok
    induction h with
    | nil => exact .nil
    | @cons s0 s ss0 ss h1 _ ih =>
      refine .cons ?_ (ih fun s' hs' => hok s' (List.mem_cons_of_mem _ hs'))
      have hs := hok s (by simp)
      cases hk : s.index v with
      | none =>
        simp only [hk]
        refine ⟨h1.dag, h1.index, ?_, h1.either⟩
        intro w k hw x
        rw [h1.pen w k hw x]
        have hwv : w ≠ v := by
          rintro rfl
          rw [← h1.index, hk] at hw; cases hw
        simp [hwv]
      | some k =>
        simp only [hk]
        refine ⟨h1.dag, h1.index, ?_, ?_⟩
        · intro w k' hw x
          simp only [setPenalties_pen, setPen]
          by_cases hwv : w = v
          · subst hwv
            have : k' = k := by
              rw [← h1.index, hk] at hw
              simpa using hw.symm
            subst this
            have h2 := h1.pen w k' hw x
            simp only [hv, false_and, if_false] at h2
            by_cases hx : x = c
            · subst hx; simpa using h2
            · simp [hx]
          · have hkk : k' ≠ k := by
              rintro rfl
              rw [← h1.index] at hw
              exact hwv (hs.view.inj w v k' hw hk)
            rw [if_neg hkk, h1.pen w k' hw x]
            simp [hwv]
        · intro k' x
          simp only [setPenalties_pen, setPen]
          split
          · rename_i hkk
            subst hkk
            by_cases hx : x = c
            · subst hx; simpa using h1.either k' x
            · right; simp [hx]
          · exact h1.either k' x

theorem Narrowed.congr {done : List Nat} {a b : Nat → Nat} {s s' : Sub} (h : Narrowed done a s s')
    (hab : ∀ w ∈ done, a w = b w) : Narrowed done b s s' := by
  refine ⟨h.dag, h.index, ?_, h.either⟩
  intro w k hw x
  rw [h.pen w k hw x]
  by_cases hd : w ∈ done
  · rw [hab w hd]
  · simp [hd]

theorem Narrowed.viewed {done : List Nat} {a : Nat → Nat} {s s' s'' : Sub} (h : Narrowed done a s s')
    (hv : s''.view = s'.view) : Narrowed done a s s'' := by
  have h1 : s''.memo.dag = s'.memo.dag := congrArg View.dag hv
  have h2 : s''.index = s'.index := congrArg View.index hv
  have h3 : s''.memo.pen = s'.memo.pen := congrArg View.pen hv
  exact ⟨h1.trans h.dag, h2.trans h.index, by rw [h3]; exact h.pen, by rw [h3]; exact h.either⟩

theorem forall₂_trans {α β γ : Type} {R : α → β → Prop} {R' : β → γ → Prop} {Q : α → γ → Prop}
    (hQ : ∀ a b c, R a b → R' b c → Q a c) : ∀ {l : List α} {l' : List β} {l'' : List γ},
    List.Forall₂ R l l' → List.Forall₂ R' l' l'' → List.Forall₂ Q l l''
  | _, _, _, .nil, .nil => .nil
  | _, _, _, .cons h1 h2, .cons g1 g2 => .cons (hQ _ _ _ h1 g1) (forall₂_trans hQ h2 g2)

theorem forall₂_right {α β : Type} {R : α → β → Prop} {P : β → Prop} (hP : ∀ a b, R a b → P b)
    {l : List α} {l' : List β} (h : List.Forall₂ R l l') : ∀ b ∈ l', P b := by
  induction h with
  | nil => simp
  | cons h1 _ ih =>
    intro b hb
    rcases List.mem_cons.1 hb with rfl | hb
    · exact hP _ _ h1
    · exact ih b hb

/-- The system whose min-marginals are computed last. -/
theorem greedyLoop_last {S0 : System} : ∀ (vs : List Nat) (S : System) (done : List Nat)
    (a : Nat → Nat) (c : Option Cost) (S' : System) (a' : Nat → Nat) (c' : Option Cost),
    (∀ s ∈ S.subs, RSubOK A.toMachine N V s) → S.numValues = V →
    List.Forall₂ (Narrowed done a) S0.subs S.subs → vs.Nodup → (∀ v ∈ vs, v ∉ done) →
    (∀ w ∈ done, a w < V) → Rounded.greedyLoop A vs S a c = some (S', a', c') →
    (∀ w ∈ done, a' w = a w) ∧ (∀ w ∈ done ++ vs, a' w < V) ∧ (vs = [] → c' = c)
    ∧ (vs ≠ [] → ∃ pre v S1 S2 mm, vs = pre ++ [v] ∧ (∀ s ∈ S1.subs, RSubOK A.toMachine N V s)
      ∧ List.Forall₂ (Narrowed (done ++ pre) a') S0.subs S1.subs
      ∧ Rounded.systemMarginals A S1 v = some (S2, mm) ∧ c' = some (mm (a' v))) := by
  intro vs
  induction vs with
  | nil =>
    intro S done a c S' a' c' _ _ _ _ _ hb he
    simp only [Rounded.greedyLoop, Option.some.injEq, Prod.mk.injEq] at he
    obtain ⟨-, rfl, rfl⟩ := he
    exact ⟨fun _ _ => rfl, by simpa using hb, fun _ => rfl, by simp⟩
  | cons v vs ih =>
    intro S done a c S' a' c' hok hV hn hnd hvs hb he
    rw [List.nodup_cons] at hnd
    have hvd := hvs v (by simp)
    unfold Rounded.greedyLoop at he
    split at he
    · cases he
    · rename_i S1 mm hm
      split at he
      · cases he
      · rename_i hV0
        dsimp only at he
        have hc := (argMin_spec (Nat.pos_of_ne_zero hV0) mm).1
        generalize argMin S.numValues mm = ch at he hc
        have hm' := hm
        unfold Rounded.systemMarginals at hm'
        rw [Option.map_eq_some_iff] at hm'
        obtain ⟨⟨ss, t⟩, hl, hS1⟩ := hm'
        simp only [Prod.mk.injEq] at hS1
        obtain ⟨hS1, rfl⟩ := hS1
        obtain ⟨g1, -⟩ := marginalsLoop_shape v _ _ _ _ hok hl
        have hss : S1.subs = ss := by rw [← hS1]
        have hSv : S1.numValues = V := by rw [← hS1]; exact hV
        rw [← hss] at g1
        have hok1 : ∀ s ∈ S1.subs, RSubOK A.toMachine N V s := forall₂_right (fun _ _ h => h.1) g1
        have hn1 : List.Forall₂ (Narrowed done a) S0.subs S1.subs :=
          forall₂_trans (fun _ _ _ h h' => h.viewed h'.2) hn g1
        obtain ⟨f1, f2⟩ := forbid_narrowed (c := ch) hok1 hvd hn1
        obtain ⟨i1, i2, i3, i4⟩ := ih _ _ _ _ _ _ _ f1 hSv f2 hnd.2 (by
          intro w hw hd
          rcases List.mem_append.1 hd with hd | hd
          · exact hvs w (List.mem_cons_of_mem _ hw) hd
          · rw [List.mem_singleton.1 hd] at hw; exact hnd.1 hw) (by
          intro w hw
          split
          · rw [← hV]; exact hc
          · rename_i hwv
            rcases List.mem_append.1 hw with hw | hw
            · exact hb w hw
            · exact absurd (List.mem_singleton.1 hw) hwv) he
        have hav : a' v = ch := by rw [i1 v (by simp)]; simp
        have hao : ∀ w ∈ done, a' w = a w := by
          intro w hw
          rw [i1 w (List.mem_append_left _ hw)]
          have : w ≠ v := fun h => hvd (h ▸ hw)
          simp [this]
        refine ⟨hao, ?_, by simp, ?_⟩
        · intro w hw
          apply i2
          simpa using hw
        · intro _
          by_cases h0 : vs = []
          · subst h0
            refine ⟨[], v, S, S1, t, rfl, hok, ?_, hm, ?_⟩
            · rw [List.append_nil]
              exact hn.imp fun _ _ h => h.congr fun w hw => (hao w hw).symm
            · rw [i3 rfl, hav]
          · obtain ⟨pre, w, S3, S4, mm', j1, j2, j3, j4, j5⟩ := i4 h0
            refine ⟨v :: pre, w, S3, S4, mm', by rw [j1]; rfl, j2, ?_, j4, j5⟩
            rw [List.append_cons]
            exact j3

/-! ### sums -/

theorem foldl_mono {B : Machine} : ∀ {cs cs' : List Cost} {c c' : Cost}, c ≤ c' →
    List.Forall₂ (· ≤ ·) cs cs' → cs.foldl B.add c ≤ cs'.foldl B.add c' := by
  intro cs cs' c c' hc h
  induction h generalizing c c' with
  | nil => exact hc
  | cons h1 _ ih => exact ih (B.mono hc h1)

theorem foldl_finite {B : Machine} : ∀ {cs : List Cost} {c : Cost}, cs.foldl B.add c < ⊤ →
    c < ⊤ ∧ ∀ x ∈ cs, x < ⊤ := by
  intro cs
  induction cs with
  | nil => intro c h; exact ⟨h, by simp⟩
  | cons x cs ih =>
    intro c h
    obtain ⟨h1, h2⟩ := ih h
    refine ⟨?_, ?_⟩
    · rw [lt_top_iff_ne_top]
      rintro rfl
      rw [B.top_left] at h1
      exact lt_irrefl _ h1
    · intro y hy
      rcases List.mem_cons.1 hy with rfl | hy
      · rw [lt_top_iff_ne_top]
        rintro rfl
        rw [B.top_right] at h1
        exact lt_irrefl _ h1
      · exact h2 y hy

theorem sum_near {B : Machine} (hA : Accurate B F u limit) (hu : 0 ≤ u) {K : Nat} {M : ℚ}
    {rs es : List ℚ} (h : List.Forall₂ (fun r e => F r ∧ Near u K r e M) rs es) :
    ∀ {j : Nat} {f x T : ℚ}, K ≤ j → F f → Near u j f x T →
    (1 + u) ^ (j + rs.length) * (T + rs.length * M) ≤ limit →
    ∃ r : ℚ, F r ∧ (coes rs).foldl B.add f = r
      ∧ Near u (j + rs.length) r (x + es.sum) (T + rs.length * M) := by
  induction h with
  | nil =>
    intro j f x T _ hf hn _
    exact ⟨f, hf, rfl, by simpa using hn⟩
  | @cons r e rs es h1 _ ih =>
    intro j f x T hj hf hn hl
    have hM := h1.2.size
    have hT := hn.size
    rw [List.length_cons] at hl
    push_cast at hl
    have hlen : (0 : ℚ) ≤ rs.length * M := mul_nonneg (Nat.cast_nonneg _) hM
    have hl1 : (1 + u) ^ j * (T + M) ≤ limit := by
      refine le_trans (mul_le_mul (pow_mono hu (show j ≤ j + (rs.length + 1) by omega)) ?_
        (by linarith) ?_) hl
      · linarith
      · have := one_le_pow_u hu (j + (rs.length + 1)); linarith
    obtain ⟨f', g1, g2, g3⟩ := Near.add hA hu hf h1.1 hn (h1.2.weaken hu hj (le_refl _)) hl1
    obtain ⟨r', k1, k2, k3⟩ := ih (j := j + 1) (by omega) g1 g3 (by
      have e1 : j + 1 + rs.length = j + (rs.length + 1) := by omega
      rw [e1]
      refine le_trans (le_of_eq ?_) hl
      ring)
    refine ⟨r', k1, ?_, ?_⟩
    · rw [coes, List.map_cons, List.foldl_cons, g2]
      exact k2
    · have e1 : j + 1 + rs.length = j + (r :: rs).length := by rw [List.length_cons]; omega
      have e2 : x + e + es.sum = x + (e :: es).sum := by rw [List.sum_cons]; ring
      have e3 : T + M + rs.length * M = T + (r :: rs).length * M := by
        rw [List.length_cons]; push_cast; ring
      rw [← e1, ← e2, ← e3]
      exact k3

/-! ### joint solutions and penalised costs -/

/-- The penalised cost of a joint solution is its cost, up to the imbalance. -/
theorem joint_near {S : System} {a : Nat → Nat} {paths : List (List PackedEdge)} {J D : ℚ}
    (hok : ∀ s ∈ S.subs, RSubOK A.toMachine S.numKeys S.numValues s)
    (hj : Joint S a paths) (hJ : jointCost S a paths = J) (hb : ∀ w < S.numKeys, Bal S a w D) :
    ∃ E : ℚ, (List.zipWith (fun s p => pathCost s.memo.pen p) S.subs paths).sum = E
      ∧ |E - J| ≤ S.numKeys * D := by
  have hok' : ∀ w ∈ views S, ViewOK S.numKeys S.numValues w := by
    intro w hw
    obtain ⟨s, hs, rfl⟩ := List.mem_map.1 hw
    exact (hok s hs).view
  have hsum := joint_charges hok' ((joint_iff S a paths).1 hj)
  have hz : List.zipWith (fun (w : View) p => pathCost w.pen p) (views S) paths
      = List.zipWith (fun s p => pathCost s.memo.pen p) S.subs paths := by
    unfold views
    rw [List.zipWith_map_left]
    rfl
  rw [hz] at hsum
  choose! q e hq he hqe using hb
  have hcharges : ((List.range S.numKeys).map fun w =>
      ((views S).map fun s => s.charge w (a w)).sum).sum
      = ((((List.range S.numKeys).map q).sum : ℚ) : Cost) := by
    rw [coe_sum_map]
    congr 1
    apply List.map_congr_left
    intro w hw
    rw [← hq w (List.mem_range.1 hw)]
    unfold views
    rw [List.map_map]
    rfl
  have hextra : ((List.range S.numKeys).map fun w => S.extra w (a w)).sum
      = ((((List.range S.numKeys).map e).sum : ℚ) : Cost) := by
    rw [coe_sum_map]
    congr 1
    apply List.map_congr_left
    intro w hw
    exact he w (List.mem_range.1 hw)
  have hW : (paths.map (weight PackedEdge.cost)).sum ≠ ⊤ := by
    intro hc
    rw [jointCost, hc, WithTop.top_add] at hJ
    exact absurd hJ.symm WithTop.coe_ne_top
  generalize hWe : (paths.map (weight PackedEdge.cost)).sum = W0 at *
  lift W0 to ℚ using hW
  rw [jointCost, hWe, hextra, ← WithTop.coe_add, WithTop.coe_inj] at hJ
  rw [hcharges, ← WithTop.coe_add] at hsum
  refine ⟨_, hsum, ?_⟩
  have h1 : ∀ m, m ≤ S.numKeys →
      |((List.range m).map q).sum - ((List.range m).map e).sum| ≤ m * D := by
    intro m
    induction m with
    | zero => intro _; simp
    | succ m ih =>
      intro hm
      rw [List.range_succ, List.map_append, List.map_append, List.sum_append, List.sum_append]
      simp only [List.map_cons, List.map_nil, List.sum_cons, List.sum_nil, add_zero]
      have h2 := abs_add_le (((List.range m).map q).sum - ((List.range m).map e).sum) (q m - e m)
      have h3 := hqe m (by omega)
      have h4 := ih (by omega)
      push_cast
      rw [show ((List.range m).map q).sum + q m - (((List.range m).map e).sum + e m)
        = ((List.range m).map q).sum - ((List.range m).map e).sum + (q m - e m) by ring]
      linarith
  have h2 := h1 _ (le_refl _)
  rw [← hJ]
  rw [show W0 + ((List.range S.numKeys).map q).sum - (W0 + ((List.range S.numKeys).map e).sum)
    = ((List.range S.numKeys).map q).sum - ((List.range S.numKeys).map e).sum by ring]
  exact h2

/-- In the narrowed system a path with the chosen values costs the same. -/
theorem Narrowed.joint_cost {done : List Nat} {a : Nat → Nat} {s s' : Sub} (h : Narrowed done a s s')
    (hok : ViewOK N V s.view) {p : List PackedEdge} (hp : Complete s.memo.dag p)
    (ha : ∀ v k x, s.index v = some k → (k, x) ∈ assignments p → x = a v) :
    pathCost s'.memo.pen p = pathCost s.memo.pen p := by
  apply pathCost_congr
  intro k x hx
  have hk : k < s.memo.dag.numKeys := by
    have h1 := complete_keys hok.wf hp
    have : k ∈ (assignments p).map Prod.fst := List.mem_map.2 ⟨(k, x), hx, rfl⟩
    rw [h1] at this
    exact List.mem_range.1 this
  obtain ⟨w, hw⟩ := hok.surj k hk
  rw [h.pen w k hw x, ha w k x hw hx]
  simp

theorem narrowed_mem {done : List Nat} {a : Nat → Nat} {ss ss' : List Sub}
    (h : List.Forall₂ (Narrowed done a) ss ss') {n : Nat} {M : ℚ}
    (hr : ∀ s ∈ ss, InRange F s.memo.dag s.memo.pen n M) :
    ∀ s ∈ ss', InRange F s.memo.dag s.memo.pen n M := by
  induction h with
  | nil => simp
  | cons h1 _ ih =>
    intro s hs
    rcases List.mem_cons.1 hs with rfl | hs
    · exact h1.range (hr _ (by simp))
    · exact ih (fun s' hs' => hr s' (List.mem_cons_of_mem _ hs')) s hs

/-- The min-marginals computed last, from above. -/
theorem subCosts_le {M : ℚ} {n v : Nat} {done : List Nat} {a : Nat → Nat}
    (hA : Accurate A.toMachine F u limit) (hu : 0 ≤ u) :
    ∀ {ss0 ss1 : List Sub} {cs : List (Nat → Cost)} {paths : List (List PackedEdge)},
    (ss0 ≠ [] → (1 + u) ^ (2 * n) * M ≤ limit) →
    (∀ s ∈ ss0, ViewOK N V s.view) → (∀ s ∈ ss0, InRange F s.memo.dag s.memo.pen n M) →
    List.Forall₂ (Narrowed done a) ss0 ss1 →
    List.Forall₂ (fun s f => ∀ x, SubCost A.toMachine s v x (f x)) ss1 cs →
    List.Forall₂ (fun (s : Sub) p => Complete s.memo.dag p ∧
      ∀ v k x, s.index v = some k → (k, x) ∈ assignments p → x = a v) ss0 paths →
    (List.zipWith (fun s p => pathCost s.memo.pen p) ss0 paths).sum < ⊤ →
    ∃ rs es : List ℚ, List.Forall₂ (· ≤ ·) (cs.map fun f => f (a v)) (coes rs)
      ∧ List.Forall₂ (fun r e => F r ∧ Near u (2 * n + 1) r e M) rs es
      ∧ (List.zipWith (fun s p => pathCost s.memo.pen p) ss0 paths).sum = ((es.sum : ℚ) : Cost)
      ∧ rs.length = ss0.length := by
  intro ss0 ss1 cs paths hl hok hr hn hc hp hfin
  replace hl : ∀ s ∈ ss0, (1 + u) ^ (2 * n) * M ≤ limit := fun s hs => hl (List.ne_nil_of_mem hs)
  induction hn generalizing cs paths with
  | nil =>
    cases hc; cases hp
    exact ⟨[], [], .nil, .nil, rfl, rfl⟩
  | @cons s s' ss0 ss1 h1 _ ih =>
    cases hc with
    | @cons _ f _ cs c1 c2 =>
      cases hp with
      | @cons _ p _ paths p1 p2 =>
        rw [List.zipWith_cons_cons, List.sum_cons, WithTop.add_lt_top] at hfin
        obtain ⟨rs, es, i1, i2, i3, i4⟩ := ih (fun s' hs' => hok s' (List.mem_cons_of_mem _ hs'))
          (fun s' hs' => hr s' (List.mem_cons_of_mem _ hs')) c2 p2 hfin.2
          (fun s' hs' => hl s' (List.mem_cons_of_mem _ hs'))
        have hs := hok s (by simp)
        have hcost := h1.joint_cost hs p1.1 p1.2
        obtain ⟨r, e, g1, g2, g3, g4⟩ := subCost_le hA hu (s := s') (p := p) (v := v) (x := a v)
          (by rw [h1.dag]; exact hs.wf) (h1.range (hr s (by simp))) (hl s (by simp)) (by rw [h1.dag]; exact p1.1)
          (by rw [hcost]; exact hfin.1) (by
            intro k hk
            rw [h1.index] at hk
            obtain ⟨x, -, hx⟩ := complete_value hs.wf p1.1 (hs.lt v k hk).2
            rw [← p1.2 v k x hk hx]
            exact hx) (c1 (a v))
        refine ⟨r :: rs, e :: es, .cons g1 i1, .cons ⟨g2, g4⟩ i2, ?_, by simp [i4]⟩
        rw [List.zipWith_cons_cons, List.sum_cons, i3, ← hcost, g3, List.sum_cons, WithTop.coe_add]

/-- The min-marginals computed last, from below. -/
theorem subCosts_found {M : ℚ} {n v : Nat} {done : List Nat} {a : Nat → Nat}
    (hA : Accurate A.toMachine F u limit) (hu : 0 ≤ u) (hall : ∀ w < N, w ∈ done ∨ w = v) :
    ∀ {ss0 ss1 : List Sub} {cs : List (Nat → Cost)},
    (ss0 ≠ [] → (1 + u) ^ (2 * n) * M ≤ limit) →
    (∀ s ∈ ss0, ViewOK N V s.view) → (∀ s ∈ ss0, InRange F s.memo.dag s.memo.pen n M) →
    List.Forall₂ (Narrowed done a) ss0 ss1 →
    List.Forall₂ (fun s f => ∀ x, SubCost A.toMachine s v x (f x)) ss1 cs →
    (∀ c ∈ cs.map fun f => f (a v), c < ⊤) →
    ∃ (rs es : List ℚ) (paths : List (List PackedEdge)), (cs.map fun f => f (a v)) = coes rs
      ∧ List.Forall₂ (fun r e => F r ∧ Near u (2 * n + 1) r e M) rs es
      ∧ List.Forall₂ (fun (s : Sub) p => Complete s.memo.dag p ∧
        ∀ v k x, s.index v = some k → (k, x) ∈ assignments p → x = a v) ss0 paths
      ∧ (List.zipWith (fun s p => pathCost s.memo.pen p) ss0 paths).sum = ((es.sum : ℚ) : Cost)
      ∧ rs.length = ss0.length := by
  intro ss0 ss1 cs hl hok hr hn hc hfin
  replace hl : ∀ s ∈ ss0, (1 + u) ^ (2 * n) * M ≤ limit := fun s hs => hl (List.ne_nil_of_mem hs)
  induction hn generalizing cs with
  | nil =>
    cases hc
    exact ⟨[], [], [], rfl, .nil, .nil, rfl, rfl⟩
  | @cons s s' ss0 ss1 h1 _ ih =>
    cases hc with
    | @cons _ f _ cs c1 c2 =>
      obtain ⟨rs, es, paths, i1, i2, i3, i4, i5⟩ :=
        ih (fun s' hs' => hok s' (List.mem_cons_of_mem _ hs'))
          (fun s' hs' => hr s' (List.mem_cons_of_mem _ hs')) c2
          (fun c hc => hfin c (by rw [List.map_cons]; exact List.mem_cons_of_mem _ hc))
          (fun s' hs' => hl s' (List.mem_cons_of_mem _ hs'))
      have hs := hok s (by simp)
      obtain ⟨q, q1, q2, r, e, q3, q4, q5, q6⟩ := subCost_found hA hu
        (h1.range (hr s (by simp))) (hl s (by simp)) (c1 (a v)) (hfin _ (by simp))
      have hlt : pathCost s'.memo.pen q < ⊤ := by rw [q5]; exact WithTop.coe_lt_top _
      have hcost := h1.cost hlt
      refine ⟨r :: rs, e :: es, q :: paths, ?_, .cons ⟨q4, q6⟩ i2, .cons ⟨?_, ?_⟩ i3, ?_,
        by simp [i5]⟩
      · rw [List.map_cons, i1, q3]; rfl
      · rw [← h1.dag]; exact q1
      · intro w k x hk hx
        rw [h1.dag] at q1
        rcases hall w (hs.lt w k hk).1 with hw | rfl
        · by_contra hne
          have h2 := ((pathCost_lt_top _ _).1 hlt).2 (k, x) hx
          dsimp only at h2
          rw [h1.pen w k hk x, if_pos ⟨hw, hne⟩] at h2
          exact lt_irrefl _ h2
        · exact complete_unique hs.wf q1 hx (q2 k (by rw [h1.index]; exact hk))
      · rw [List.zipWith_cons_cons, List.sum_cons, i4, ← hcost, q5, List.sum_cons, WithTop.coe_add]

theorem range_pos (hu : 0 ≤ u) {n L : Nat} {M : ℚ} (hM : 0 ≤ M)
    (hl : (1 + u) ^ (2 * n + 1 + L) * (L * M) ≤ limit) (h0 : L ≠ 0) : (1 + u) ^ (2 * n) * M ≤ limit := by
  refine le_trans (mul_le_mul (pow_mono hu (show 2 * n ≤ 2 * n + 1 + L by omega)) ?_ hM ?_) hl
  · have : (1 : ℚ) ≤ L := by exact_mod_cast Nat.one_le_iff_ne_zero.2 h0
    nlinarith
  · have := one_le_pow_u hu (2 * n + 1 + L); linarith

/-! ### runs -/

/-- The same subproblems, up to penalties and tables. -/
structure SameProblems (S S' : System) : Prop where
  keys : S'.numKeys = S.numKeys
  values : S'.numValues = S.numValues
  extra : S'.extra = S.extra
  subs : List.Forall₂ (fun s s' : Sub => s'.memo.dag = s.memo.dag ∧ s'.index = s.index) S.subs S'.subs

theorem step_same {S S' : System} {v : Nat} {b : Cost}
    (hok : ∀ s ∈ S.subs, RSubOK A.toMachine S.numKeys S.numValues s)
    (he : Rounded.average A S v = some (S', b)) :
    SameProblems S S' ∧ ∀ s ∈ S'.subs, RSubOK A.toMachine S'.numKeys S'.numValues s := by
  obtain ⟨rs, st, h1, h2, -, -, h5, h6, h7, h8, -⟩ := average_effect hok he
  have hclosed : ∀ s r, s ∈ S.subs → Opened A.toMachine S.numKeys S.numValues v s r →
      Closed A S.numKeys S.numValues v (fun x => A.add (st.total x) (S.extra v x)) st.weight s r
        (Rounded.averageClose A (fun x => A.add (st.total x) (S.extra v x)) st.weight r) :=
    fun s r hs hr => averageClose_spec (hok s hs).view hr _ _
  refine ⟨⟨h6, h7, h5, ?_⟩, ?_⟩
  · rw [h8]
    exact forall₂_map_both h2 fun s r hs hr => ⟨(hclosed s r hs hr).dag, (hclosed s r hs hr).index⟩
  · intro s hs
    rw [h8] at hs
    obtain ⟨s0, -, r, hc⟩ := forall₂_of_map h2 hclosed s hs
    rw [h6, h7]
    exact hc.ok

theorem SameProblems.trans {S S' S'' : System} (h : SameProblems S S') (h' : SameProblems S' S'') :
    SameProblems S S'' :=
  ⟨h'.keys.trans h.keys, h'.values.trans h.values, h'.extra.trans h.extra,
    forall₂_trans (fun _ _ _ g g' => ⟨g'.1.trans g.1, g'.2.trans g.2⟩) h.subs h'.subs⟩

theorem SameProblems.joint {S S' : System} (h : SameProblems S S') {a : Nat → Nat}
    {paths : List (List PackedEdge)} : Joint S' a paths ↔ Joint S a paths := by
  have h1 : ∀ {ss ss' : List Sub}, List.Forall₂ (fun s s' : Sub => s'.memo.dag = s.memo.dag
      ∧ s'.index = s.index) ss ss' → ∀ {paths : List (List PackedEdge)},
      (List.Forall₂ (fun (s : Sub) p => Complete s.memo.dag p ∧
        ∀ v k x, s.index v = some k → (k, x) ∈ assignments p → x = a v) ss' paths
      ↔ List.Forall₂ (fun (s : Sub) p => Complete s.memo.dag p ∧
        ∀ v k x, s.index v = some k → (k, x) ∈ assignments p → x = a v) ss paths) := by
    intro ss ss' hs
    induction hs with
    | nil =>
      intro paths
      constructor <;> (intro hp; cases hp; exact .nil)
    | cons g1 _ ih =>
      intro paths
      constructor
      · intro hp
        cases hp with
        | cons p1 p2 =>
          rw [g1.1, g1.2] at p1
          exact .cons p1 (ih.1 p2)
      · intro hp
        cases hp with
        | cons p1 p2 =>
          rw [← g1.1, ← g1.2] at p1
          exact .cons p1 (ih.2 p2)
  constructor
  · rintro ⟨g1, g2⟩
    exact ⟨by rw [← h.keys, ← h.values]; exact g1, (h1 h.subs).1 g2⟩
  · rintro ⟨g1, g2⟩
    exact ⟨by rw [h.keys, h.values]; exact g1, (h1 h.subs).2 g2⟩

theorem SameProblems.cost {S S' : System} (h : SameProblems S S') (a : Nat → Nat)
    (paths : List (List PackedEdge)) : jointCost S' a paths = jointCost S a paths := by
  unfold jointCost
  rw [h.keys, h.extra]

theorem run_same : ∀ (vs : List Nat) (S S' : System) (bs : List Cost),
    (∀ s ∈ S.subs, RSubOK A.toMachine S.numKeys S.numValues s) → averages A vs S = some (S', bs) →
    SameProblems S S' ∧ ∀ s ∈ S'.subs, RSubOK A.toMachine S'.numKeys S'.numValues s := by
  intro vs
  induction vs with
  | nil =>
    intro S S' bs hok he
    simp only [averages, Option.some.injEq, Prod.mk.injEq] at he
    rw [← he.1]
    exact ⟨⟨rfl, rfl, rfl, List.forall₂_same.2 fun _ _ => ⟨rfl, rfl⟩⟩, hok⟩
  | cons v vs ih =>
    intro S S' bs hok he
    unfold averages at he
    cases h1 : Rounded.average A S v with
    | none => rw [h1] at he; cases he
    | some r =>
      obtain ⟨S1, b1⟩ := r
      rw [h1, Option.bind_some] at he
      dsimp only at he
      cases h2 : averages A vs S1 with
      | none => rw [h2] at he; cases he
      | some r' =>
        obtain ⟨S2, bs'⟩ := r'
        rw [h2] at he
        simp only [Option.map_some, Option.some.injEq, Prod.mk.injEq] at he
        obtain ⟨g1, g2⟩ := step_same hok h1
        obtain ⟨g3, g4⟩ := ih S1 S2 bs' g2 h2
        rw [← he.1]
        exact ⟨g1.trans g3, g4⟩

/-- The balance after a run. -/
theorem run_bal (hA : AccurateArith A F u τ limit) (hu : 0 ≤ u) (hτ : 0 ≤ τ)
    {n : Nat} {M X J : ℚ} {a : Nat → Nat} {paths : List (List PackedEdge)} :
    ∀ (vs : List Nat) (S S' : System) (bs : List Cost),
    (∀ s ∈ S.subs, RSubOK A.toMachine S.numKeys S.numValues s) →
    Joint S a paths → jointCost S a paths = J →
    (∀ w < S.numKeys, Bal S a w (imbalance u η τ S.subs.length n M X)) →
    (∀ v ∈ vs, v < S.numKeys ∧ FairShares A S v η) → RunInRange A F n M X vs S →
    rangeNeeded u η τ S.subs.length n M X ≤ limit → averages A vs S = some (S', bs) →
    ∀ w < S'.numKeys, Bal S' a w (imbalance u η τ S.subs.length n M X) := by
  intro vs
  induction vs with
  | nil =>
    intro S S' bs _ _ _ hb _ _ _ he
    simp only [averages, Option.some.injEq, Prod.mk.injEq] at he
    rw [← he.1]
    exact hb
  | cons v vs ih =>
    intro S S' bs hok hj hJ hb hvs hr hl he
    obtain ⟨hv, hs⟩ := hvs v (by simp)
    unfold averages at he
    cases h1 : Rounded.average A S v with
    | none => rw [h1] at he; cases he
    | some r =>
      obtain ⟨S1, b1⟩ := r
      rw [h1, Option.bind_some] at he
      dsimp only at he
      cases h2 : averages A vs S1 with
      | none => rw [h2] at he; cases he
      | some r' =>
        obtain ⟨S2, bs'⟩ := r'
        rw [h2] at he
        simp only [Option.map_some, Option.some.injEq, Prod.mk.injEq] at he
        obtain ⟨k1, k2, k3, k4, k5, k6, k7⟩ := step_keep hok hj h1
        rw [← he.1]
        have h3 := ih S1 S2 bs' k1 k2 (k3.trans hJ) (by
            intro w hw
            rw [k4] at hw
            rw [k5]
            by_cases hwv : w = v
            · rw [hwv]
              exact step_balance hA hu hτ hok hj hJ hb hv hr.1 hs hl h1
            · exact k7 w _ hwv (hb w hw)) (by
            intro w hw
            obtain ⟨g1, g2⟩ := hvs w (List.mem_cons_of_mem _ hw)
            have hsh := step_shares (w := w) hok h1
            refine ⟨by rw [k4]; exact g1, ?_, ?_⟩
            · rw [hsh]; exact g2.nonneg
            · rw [hsh]; exact g2.total) (hr.2 _ h1) (by rw [k5]; exact hl) h2
        rw [k5] at h3
        exact h3

/-- The cost returned by greedy extraction. -/
theorem greedy_cost {S : System} {n : Nat} {M : ℚ} (hA : Accurate A.toMachine F u limit) (hu : 0 ≤ u)
    (hM : 0 ≤ M) (hok : ∀ s ∈ S.subs, RSubOK A.toMachine S.numKeys S.numValues s)
    (hr : ∀ s ∈ S.subs, InRange F s.memo.dag s.memo.pen n M)
    (hl : (1 + u) ^ (2 * n + 1 + S.subs.length) * (S.subs.length * M) ≤ limit)
    {dir : Direction} {vec : List Nat} {c : Option Cost}
    (he : Rounded.greedy A S dir = some (vec, c)) :
    ∃ a : Nat → Nat, vec = (List.range S.numKeys).map a ∧ (∀ w < S.numKeys, a w < S.numValues)
      ∧ (S.numKeys = 0 → c = none)
      ∧ (S.numKeys ≠ 0 → ∃ C, c = some C
        ∧ (∀ paths, Joint S a paths → ∀ E : ℚ,
          (List.zipWith (fun s p => pathCost s.memo.pen p) S.subs paths).sum = E →
          C ≤ ((E + ((1 + u) ^ (2 * n + 1 + S.subs.length) - 1) * (S.subs.length * M) : ℚ) : Cost))
        ∧ (∀ r : ℚ, C = r → ∃ paths, Joint S a paths ∧ ∃ E : ℚ,
          (List.zipWith (fun s p => pathCost s.memo.pen p) S.subs paths).sum = E
          ∧ E ≤ r + ((1 + u) ^ (2 * n + 1 + S.subs.length) - 1) * (S.subs.length * M))) := by
  unfold Rounded.greedy at he
  rw [Option.map_eq_some_iff] at he
  obtain ⟨⟨S', a, c'⟩, h1, h2⟩ := he
  simp only [Prod.mk.injEq] at h2
  obtain ⟨rfl, rfl⟩ := h2
  have hn0 : List.Forall₂ (Narrowed [] fun _ => 0) S.subs S.subs :=
    List.forall₂_same.2 fun s _ => Narrowed.refl _ s
  obtain ⟨-, g2, g3, g4⟩ := greedyLoop_last _ _ [] _ _ _ _ _ hok rfl hn0 (order_nodup _ dir)
    (by simp) (by simp) h1
  have hval : ∀ w < S.numKeys, a w < S.numValues := by
    intro w hw
    apply g2
    rw [List.nil_append]
    exact (mem_order dir).2 hw
  refine ⟨a, rfl, hval, ?_, ?_⟩
  · intro h0
    apply g3
    rw [h0]
    cases dir <;> rfl
  · intro h0
    obtain ⟨pre, v, S1, S2, mm, k1, k2, k3, k4, k5⟩ := g4 (by
      intro hc
      have : 0 ∈ dir.order S.numKeys := (mem_order dir).2 (Nat.pos_of_ne_zero h0)
      rw [hc] at this
      simp at this)
    unfold Rounded.systemMarginals at k4
    rw [Option.map_eq_some_iff] at k4
    obtain ⟨⟨ss, t⟩, hloop, ht⟩ := k4
    simp only [Prod.mk.injEq] at ht
    obtain ⟨-, rfl⟩ := ht
    obtain ⟨-, cs, m1, m2⟩ := marginalsLoop_shape v _ _ _ _ k2 hloop
    rw [List.nil_append] at k3
    have hview : ∀ s ∈ S.subs, ViewOK S.numKeys S.numValues s.view := fun s hs => (hok s hs).view
    have hpow := one_le_pow_u hu (2 * n + 1 + S.subs.length)
    have hzero : Near u (2 * n + 1) 0 0 0 := near_self hu _ (by simp)
    have hl' : S.subs ≠ [] → (1 + u) ^ (2 * n) * M ≤ limit := fun h =>
      range_pos hu hM hl fun hc => h (List.length_eq_zero_iff.1 hc)
    refine ⟨t (a v), k5, ?_, ?_⟩
    · intro paths hj E hE
      obtain ⟨rs, es, r1, r2, r3, r4⟩ := subCosts_le hA hu hl' hview hr k3 m1
        hj.paths (by rw [hE]; exact WithTop.coe_lt_top _)
      rw [hE, WithTop.coe_inj] at r3
      obtain ⟨r, s1, s2, s3⟩ := sum_near hA hu r2 (le_refl _) hA.zero hzero
        (by rw [r4, zero_add]; exact hl)
      rw [m2 (a v)]
      refine (foldl_mono (le_refl _) r1).trans ?_
      have s2' : (coes rs).foldl A.add ((fun _ => 0 : Nat → Cost) (a v)) = (r : Cost) := s2
      rw [s2']
      apply WithTop.coe_le_coe.2
      have := (abs_le.1 s3.err).2
      rw [r4, zero_add, zero_add, ← r3] at this
      linarith
    · intro r0 hr0
      have hfold := m2 (a v)
      rw [hr0] at hfold
      obtain ⟨-, hfin⟩ := foldl_finite (B := A.toMachine) (hfold ▸ WithTop.coe_lt_top r0)
      obtain ⟨rs, es, paths, r1, r2, r3, r4, r5⟩ := subCosts_found hA hu (N := S.numKeys) (by
        intro w hw
        have : w ∈ dir.order S.numKeys := (mem_order dir).2 hw
        rw [k1] at this
        simpa using this) hl' hview hr k3 m1 hfin
      refine ⟨paths, ⟨hval, r3⟩, _, r4, ?_⟩
      obtain ⟨r, s1, s2, s3⟩ := sum_near hA hu r2 (le_refl _) hA.zero hzero
        (by rw [r5, zero_add]; exact hl)
      have s2' : (coes rs).foldl A.add ((fun _ => 0 : Nat → Cost) (a v)) = (r : Cost) := s2
      rw [r1, s2', WithTop.coe_inj] at hfold
      have := (abs_le.1 s3.err).1
      rw [r5, zero_add, zero_add, ← hfold] at this
      linarith

/-! ### when the functions succeed -/

theorem marginalsLoop_some (v : Nat) : ∀ (ss : List Sub) (t : Nat → Cost),
    (∀ s ∈ ss, RSubOK A.toMachine N V s ∧ 0 < s.memo.dag.numKeys) →
    ∃ r, Rounded.marginalsLoop A v ss t = some r := by
  intro ss
  induction ss with
  | nil => intro t _; exact ⟨_, rfl⟩
  | cons s ss ih =>
    intro t hok
    obtain ⟨hs, h0⟩ := hok s (by simp)
    have hss := fun t' => ih t' fun s' hs' => hok s' (List.mem_cons_of_mem _ hs')
    unfold Rounded.marginalsLoop
    cases hk : s.index v with
    | none =>
      obtain ⟨m, c, h1, -⟩ := Rnd.minimalCost_spec A.toMachine hs.view.wf hs.memo .fromMiddle
        (fun _ => h0)
      have h1' : Rounded.minimalCost A.toMachine s.memo .fromMiddle = some (m, c) := h1
      obtain ⟨r, hr⟩ := hss fun x => A.add (t x) c
      simp only [h1', hr]
      exact ⟨_, rfl⟩
    | some k =>
      obtain ⟨m, mm, h1, -⟩ := Rnd.minMarginals_spec A.toMachine hs.view.wf hs.memo
        (hs.view.lt v k hk).2
      have h1' : Rounded.minMarginals A.toMachine s.memo k = some (m, mm) := h1
      obtain ⟨r, hr⟩ := hss fun x => A.add (t x) (mm x)
      simp only [h1', hr]
      exact ⟨_, rfl⟩

theorem averageOpen_some (v : Nat) : ∀ (ss : List Sub) (st : AverageState),
    (∀ s ∈ ss, RSubOK A.toMachine N V s ∧ 0 < s.memo.dag.numKeys) →
    ∃ r, Rounded.averageOpen A v ss st = some r := by
  intro ss
  induction ss with
  | nil => intro t _; exact ⟨_, rfl⟩
  | cons s ss ih =>
    intro st hok
    obtain ⟨hs, h0⟩ := hok s (by simp)
    have hss := fun t' => ih t' fun s' hs' => hok s' (List.mem_cons_of_mem _ hs')
    unfold Rounded.averageOpen
    cases hk : s.index v with
    | none =>
      obtain ⟨m, c, h1, -⟩ := Rnd.minimalCost_spec A.toMachine hs.view.wf hs.memo .fromMiddle
        (fun _ => h0)
      have h1' : Rounded.minimalCost A.toMachine s.memo .fromMiddle = some (m, c) := h1
      obtain ⟨r, hr⟩ := hss { st with skipped := A.add st.skipped c }
      simp only [h1', hr]
      exact ⟨_, rfl⟩
    | some k =>
      have hs' := (rsub_set hs hk fun _ => 0).1
      obtain ⟨m, mm, h1, -⟩ := Rnd.minMarginals_spec A.toMachine hs'.view.wf hs'.memo
        (hs.view.lt v k hk).2
      have h1' : Rounded.minMarginals A.toMachine (s.memo.setPenalties k fun _ => 0) k
        = some (m, mm) := h1
      obtain ⟨r, hr⟩ := hss
        { st with
          total := fun x => A.add (st.total x) (mm x)
          weight := (A.add st.weight s.weight).untopD 0 }
      simp only [h1', hr]
      exact ⟨_, rfl⟩

theorem forall₂_mem_right {α β : Type} {R : α → β → Prop} {l : List α} {l' : List β}
    (h : List.Forall₂ R l l') : ∀ b ∈ l', ∃ a ∈ l, R a b := by
  induction h with
  | nil => simp
  | cons h1 _ ih =>
    intro b hb
    rcases List.mem_cons.1 hb with rfl | hb
    · exact ⟨_, by simp, h1⟩
    · obtain ⟨a, ha, hr⟩ := ih b hb
      exact ⟨a, List.mem_cons_of_mem _ ha, hr⟩

theorem averages_some : ∀ (vs : List Nat) (S : System),
    (∀ s ∈ S.subs, RSubOK A.toMachine S.numKeys S.numValues s ∧ 0 < s.memo.dag.numKeys) →
    ∃ r, averages A vs S = some r := by
  intro vs
  induction vs with
  | nil => intro S _; exact ⟨_, rfl⟩
  | cons v vs ih =>
    intro S hok
    obtain ⟨r, hr⟩ := averageOpen_some v S.subs ⟨fun _ => 0, 0, 0⟩ hok
    cases hav : Rounded.average A S v with
    | none =>
      unfold Rounded.average at hav
      rw [hr] at hav
      cases hav
    | some x =>
      obtain ⟨S', b⟩ := x
      obtain ⟨g1, g2⟩ := step_same (fun s hs => (hok s hs).1) hav
      obtain ⟨r', hr'⟩ := ih S' fun s hs => ⟨g2 s hs, by
        obtain ⟨s0, hs0, h1, -⟩ := forall₂_mem_right g1.subs s hs
        rw [h1]
        exact (hok s0 hs0).2⟩
      unfold averages
      rw [hav, Option.bind_some, hr']
      exact ⟨_, rfl⟩

theorem greedyLoop_some : ∀ (vs : List Nat) (S : System) (a : Nat → Nat) (c : Option Cost),
    (∀ s ∈ S.subs, RSubOK A.toMachine N V s ∧ 0 < s.memo.dag.numKeys) → S.numValues ≠ 0 →
    ∃ r, Rounded.greedyLoop A vs S a c = some r := by
  intro vs
  induction vs with
  | nil => intro S a c _ _; exact ⟨_, rfl⟩
  | cons v vs ih =>
    intro S a c hok hV
    obtain ⟨⟨ss, t⟩, hr⟩ := marginalsLoop_some v S.subs (fun _ => 0) hok
    have hm : Rounded.systemMarginals A S v = some ({ S with subs := ss }, t) := by
      unfold Rounded.systemMarginals
      rw [hr]
      rfl
    obtain ⟨g1, -⟩ := marginalsLoop_shape v _ _ _ _ (fun s hs => (hok s hs).1) hr
    unfold Rounded.greedyLoop
    rw [hm]
    dsimp only
    rw [if_neg hV]
    refine ih _ _ _ ?_ hV
    intro s hs
    obtain ⟨s1, hs1, rfl⟩ := List.mem_map.1 (show s ∈ ss.map _ from hs)
    obtain ⟨s0, hs0, h1, h2⟩ := forall₂_mem_right g1 s1 hs1
    have hd : s1.memo.dag = s0.memo.dag := congrArg View.dag h2
    have h0 := (hok s0 hs0).2
    rw [← hd] at h0
    cases hk : s1.index v with
    | none => exact ⟨h1, h0⟩
    | some k => exact ⟨(rsub_set h1 hk _).1, h0⟩

end RUSure.Lemmas.Rnd
