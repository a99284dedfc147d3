import Verif.Props.RoundedCommitKeeps

/-!
# Partial commitment in `float64`: concrete cases (C88)
-/

namespace RUSure.Props
open RUSure RUSure.Spec RUSure.Lemmas RUSure.Rounded

/-- A DAG with one variable, whose two values have the costs `c0` and `c1`. -/
def choicePacked (c0 c1 : ℚ) : PackedDag where
  numStates := 2
  numKeys := 1
  numValues := 2
  edges := [⟨0, 1, (c0 : Cost), some (0, 0)⟩, ⟨0, 1, (c1 : Cost), some (0, 1)⟩]
  edgeBounds := [0, 0, 2, 2]
  stateBounds := [0, 1, 2]

theorem choicePacked_wf (c0 c1 : ℚ) : PackedWF (choicePacked c0 c1) := by
  have heb : ∀ i, (choicePacked c0 c1).eb i = [0, 0, 2, 2].getD i 0 := fun _ => rfl
  have hsb : ∀ i, (choicePacked c0 c1).sb i = [0, 1, 2].getD i 0 := fun _ => rfl
  have hk : (choicePacked c0 c1).numKeys = 1 := rfl
  refine ⟨rfl, rfl, ?_, rfl, rfl, ?_, ?_, ?_, ?_, ?_, ?_⟩
  · intro i hi
    rw [hk] at hi
    rcases (by omega : i = 0 ∨ i = 1) with rfl | rfl <;> simp [hsb]
  · intro i hi
    rw [hk] at hi
    rcases (by omega : i = 0 ∨ i = 1 ∨ i = 2) with rfl | rfl | rfl <;> simp [heb]
  · intro τ hτ k e h1 h2 h3
    rw [hk] at hτ
    rcases (by omega : τ = 0 ∨ τ = 1) with rfl | rfl <;> simp [heb] at h1 h2 <;> omega
  · intro v hv k e h1 h2 h3
    rw [hk] at hv
    have : v = 0 := by omega
    subst this
    have : k = 0 ∨ k = 1 := by simp [heb] at h1 h2; omega
    rcases this with rfl | rfl <;>
      · simp [choicePacked] at h3
        subst h3
        simp [HasTag, choicePacked, PackedDag.sb]
  · constructor
    · simp [TopoWeak, choicePacked]
    · simp [choicePacked]
  · simp [HasTag, hsb]
  · simp [HasTag, choicePacked, PackedDag.sb]

theorem choicePacked_complete {c0 c1 : ℚ} (p : List PackedEdge) : Complete (choicePacked c0 c1) p
    ↔ p = [⟨0, 1, (c0 : Cost), some (0, 0)⟩] ∨ p = [⟨0, 1, (c1 : Cost), some (0, 1)⟩] := by
  constructor
  · intro h
    rw [Complete, PackedWalk] at h
    cases p with
    | nil => rw [Walk.nil_iff] at h; simp [choicePacked] at h
    | cons a p =>
    rw [Walk.cons_iff] at h
    obtain ⟨ha, hs, h⟩ := h
    simp only [choicePacked, List.mem_cons, List.not_mem_nil, or_false] at ha
    cases p with
    | nil => rcases ha with rfl | rfl <;> simp
    | cons b p =>
      rw [Walk.cons_iff] at h
      obtain ⟨hb, hs, h⟩ := h
      simp only [choicePacked, List.mem_cons, List.not_mem_nil, or_false] at hb
      rcases ha with rfl | rfl <;> rcases hb with rfl | rfl <;> simp at hs
  · rintro (rfl | rfl) <;>
    · rw [Complete, PackedWalk, choicePacked]
      simp only [Walk.cons_iff, Walk.nil_iff]
      simp

/-- Systems of such DAGs, sharing the variable. -/
def choiceDags (cs : List (ℚ × ℚ)) : List (PackedDag × List Nat × List Nat) :=
  cs.map fun c => (choicePacked c.1 c.2, [4], [5, 6])

def choiceSystem (cs : List (ℚ × ℚ)) : System where
  subs := cs.map fun c => ⟨emptyUnpenalizedTable ⊤ (choicePacked c.1 c.2), indexColumn [4] [4], 1⟩
  extra := fun _ _ => 0
  numKeys := 1
  numValues := 2

theorem choiceDags_good (cs : List (ℚ × ℚ)) : ∀ d ∈ choiceDags cs, GoodDag d := by
  intro d hd
  obtain ⟨c, -, rfl⟩ := List.mem_map.1 hd
  exact ⟨choicePacked_wf _ _, by simp, rfl, rfl⟩

/-- Costs `9007199254740997.25` and `9007199254740998` in total. In `float64`, the first is
`9007199254740998` and the second `9007199254740996`. -/
def lossCosts : List (ℚ × ℚ) := [(9007199254740996, 9007199254740996), (5 / 4, 1), (0, 1)]

theorem loss_made : makeSystem ⊤ (choiceDags lossCosts) none = .ok ⟨choiceSystem lossCosts, [4], [5, 6]⟩ := by
  have hk : systemKeys (choiceDags lossCosts) = [4] := by
    have : firstSeen id ((choiceDags lossCosts).flatMap fun d => d.2.1) = [4] := by decide
    unfold systemKeys
    rw [this]
    exact List.mergeSort_of_pairwise (by simp)
  unfold choiceDags lossCosts at hk ⊢
  unfold makeSystem
  dsimp only [List.map]
  rw [if_neg (by simp)]
  dsimp only [List.map] at hk
  rw [hk]
  rfl

theorem loss_min {a : Nat → Nat} {paths : List (List PackedEdge)}
    (h : Joint (choiceSystem lossCosts) a paths) :
    ((36028797018963989 / 4 : ℚ) : Cost) ≤ jointCost (choiceSystem lossCosts) a paths
    ∧ (a 0 ≠ 0 → ((9007199254740998 : ℚ) : Cost) ≤ jointCost (choiceSystem lossCosts) a paths) := by
  obtain ⟨hv, hp⟩ := h
  have hc : jointCost (choiceSystem lossCosts) a paths
      = jointCost (choiceSystem lossCosts) (fun _ => 0) paths := rfl
  rw [hc]
  simp only [choiceSystem, lossCosts, List.map_cons, List.map_nil] at hp
  cases hp with
  | cons h1 hp =>
  cases hp with
  | cons h2 hp =>
  cases hp with
  | cons h3 hp =>
  cases hp
  have hi : indexColumn [4] [4] 0 = some 0 := rfl
  obtain ⟨p1, q1⟩ := h1
  obtain ⟨p2, q2⟩ := h2
  obtain ⟨p3, q3⟩ := h3
  rcases (choicePacked_complete _).1 p1 with rfl | rfl <;>
  rcases (choicePacked_complete _).1 p2 with rfl | rfl <;>
  rcases (choicePacked_complete _).1 p3 with rfl | rfl <;>
  · have e1 := q1 0 0 _ hi (List.mem_cons_self)
    have e2 := q2 0 0 _ hi (List.mem_cons_self)
    have e3 := q3 0 0 _ hi (List.mem_cons_self)
    first
      | (exfalso; omega)
      | exact ⟨by decide +kernel, fun h0 => absurd e1.symm h0⟩
      | exact ⟨by decide +kernel, fun _ => by decide +kernel⟩

/-- C88: an optimum can be lost: on three DAGs, partial commitment in `float64` forbids the value of
an optimal joint solution, although the strictness is positive, and all joint solutions that remain
are worse. -/
theorem C88_loses : ∃ D : DualSystem Nat Nat, makeSystem ⊤ (choiceDags lossCosts) none = .ok D
    ∧ ∃ S', Rounded.partiallyCommit float64Arith D.data .forward (fun _ => .val 9007199254740998)
        (1 / 2) (1 / 100000) = some (S', .madePartialAssignment)
      ∧ ∃ a paths J, Joint D.data a paths ∧ jointCost D.data a paths = J
        ∧ (∀ a' paths', Joint D.data a' paths' → J ≤ jointCost D.data a' paths')
        ∧ J < ⊤ ∧ jointCost S' a paths = ⊤
        ∧ ∀ a' paths', Joint S' a' paths' → J < jointCost S' a' paths' := by
  refine ⟨_, loss_made, ?_⟩
  have h : ((Rounded.partiallyCommit float64Arith (choiceSystem lossCosts) .forward
      (fun _ => .val 9007199254740998) (1 / 2) (1 / 100000)).map fun r =>
        (r.2, r.1.extra 0 0, r.1.numKeys)) = some (.madePartialAssignment, ⊤, 1) := by decide +kernel
  rw [Option.map_eq_some_iff] at h
  obtain ⟨⟨S', st⟩, h1, h2⟩ := h
  simp only [Prod.mk.injEq] at h2
  obtain ⟨rfl, h2, h3⟩ := h2
  refine ⟨S', h1, fun _ => 0, [[⟨0, 1, ((9007199254740996 : ℚ) : Cost), some (0, 0)⟩],
    [⟨0, 1, ((5 / 4 : ℚ) : Cost), some (0, 0)⟩], [⟨0, 1, ((0 : ℚ) : Cost), some (0, 0)⟩]],
    ((36028797018963989 / 4 : ℚ) : Cost), ⟨?_, ?_⟩, ?_, fun a' p' hj => (loss_min hj).1,
    WithTop.coe_lt_top _, ?_, ?_⟩
  · intro v _; exact Nat.zero_lt_two
  · have key : ∀ c0 c1 : ℚ, Complete (choicePacked c0 c1) [⟨0, 1, (c0 : Cost), some (0, 0)⟩]
        ∧ ∀ v k x, indexColumn [4] [4] v = some k →
          (k, x) ∈ assignments [⟨0, 1, (c0 : Cost), some (0, 0)⟩] → x = (fun _ => 0 : Nat → Nat) v := by
      intro c0 c1
      refine ⟨(choicePacked_complete _).2 (.inl rfl), ?_⟩
      intro v k x _ hx
      have : assignments [⟨0, 1, (c0 : Cost), some (0, 0)⟩] = [(0, 0)] := rfl
      rw [this] at hx
      simp at hx
      exact hx.2
    exact .cons (key _ _) (.cons (key _ _) (.cons (key _ _) .nil))
  · decide +kernel
  · unfold jointCost
    rw [h3]
    have : ((List.range 1).map fun v => S'.extra v ((fun _ => 0 : Nat → Nat) v)) = [⊤] := by
      change [S'.extra 0 0] = [⊤]
      rw [h2]
    rw [this]
    simp
  · intro a' p' hj
    obtain ⟨-, g2, g3, -⟩ := C88_only_forbids loss_made (choiceDags_good _) (fun w hw => by cases hw) []
      (A := float64Arith) rfl .forward _ _ _ S' _ h1
    by_cases h0 : a' 0 = 0
    · unfold jointCost
      rw [h3]
      have : ((List.range 1).map fun v => S'.extra v (a' v)) = [⊤] := by
        change [S'.extra 0 (a' 0)] = [⊤]
        rw [h0, h2]
      rw [this]
      simp
    · refine lt_of_lt_of_le (WithTop.coe_lt_coe.2 ?_) (((loss_min ((g2 _ _).1 hj)).2 h0).trans (g3 _ _))
      norm_num

/-- Costs 3 and 8 in total. -/
def keepCosts : List (ℚ × ℚ) := [(1, 5), (2, 3)]

theorem keep_made : makeSystem ⊤ (choiceDags keepCosts) none = .ok ⟨choiceSystem keepCosts, [4], [5, 6]⟩ := by
  have hk : systemKeys (choiceDags keepCosts) = [4] := by
    have : firstSeen id ((choiceDags keepCosts).flatMap fun d => d.2.1) = [4] := by decide
    unfold systemKeys
    rw [this]
    exact List.mergeSort_of_pairwise (by simp)
  unfold choiceDags keepCosts at hk ⊢
  unfold makeSystem
  dsimp only [List.map]
  rw [if_neg (by simp)]
  dsimp only [List.map] at hk
  rw [hk]
  rfl

theorem choice_range {c0 c1 p0 p1 M : ℚ} (h0 : IsFloat64 c0) (h1 : IsFloat64 c1) (g0 : IsFloat64 p0)
    (g1 : IsFloat64 p1) (hM0 : |c0| + |p0| ≤ M) (hM1 : |c1| + |p1| ≤ M) {pen : Penalties}
    (e0 : pen 0 0 = p0) (e1 : pen 0 1 = p1) : InRange IsFloat64 (choicePacked c0 c1) pen 1 M := by
  refine ⟨?_, ?_, ?_⟩
  · intro e he x hx
    simp only [choicePacked, List.mem_cons, List.not_mem_nil, or_false] at he
    rcases he with rfl | rfl <;> rcases hx with hx | hx
    · rw [← WithTop.coe_inj.1 hx]; exact h0
    · rw [← WithTop.coe_inj.1 (e0.symm.trans hx)]; exact g0
    · rw [← WithTop.coe_inj.1 hx]; exact h1
    · rw [← WithTop.coe_inj.1 (e1.symm.trans hx)]; exact g1
  · intro p hp
    rcases (choicePacked_complete p).1 hp with rfl | rfl <;> exact le_refl 1
  · intro p hp t ht
    obtain ⟨l, k1, -, rfl⟩ := ht
    rcases (choicePacked_complete p).1 hp with rfl | rfl
    · have : l = [c0, p0] := by
        apply List.map_injective_iff.2 (fun x y h => WithTop.coe_inj.1 h)
        refine k1.symm.trans ?_
        change [(c0 : Cost), pen 0 0] = _
        rw [e0]
        rfl
      rw [this]
      simpa using hM0
    · have : l = [c1, p1] := by
        apply List.map_injective_iff.2 (fun x y h => WithTop.coe_inj.1 h)
        refine k1.symm.trans ?_
        change [(c1 : Cost), pen 0 1] = _
        rw [e1]
        rfl
      rw [this]
      simpa using hM1

/-- The hypotheses of the theorems above are met by this system in `float64` after averaging its
variable; its optimum keeps its cost, and the other value is forbidden. -/
example : ∃ (S S' : System) (paths : List (List PackedEdge)),
    averages float64Arith [0] (choiceSystem keepCosts) = some (S, [((3 : ℚ) : Cost)])
    ∧ Rounded.partiallyCommit float64Arith S .forward (fun _ => .val 8) (1 / 2) (1 / 100000)
      = some (S', .madePartialAssignment)
    ∧ S'.extra 0 0 = 0 ∧ S'.extra 0 1 = ⊤
    ∧ Joint (choiceSystem keepCosts) (fun _ => 0) paths
    ∧ jointCost (choiceSystem keepCosts) (fun _ => 0) paths = ((3 : ℚ) : Cost)
    ∧ jointCost S' (fun _ => 0) paths = ((3 : ℚ) : Cost) := by
  have h : ((averages float64Arith [0] (choiceSystem keepCosts)).bind fun r =>
      (Rounded.collectMarginals float64Arith (Direction.order r.1.numKeys .forward) r.1
        (fun _ _ => 0)).bind fun m =>
      (Rounded.partiallyCommit float64Arith r.1 .forward (fun _ => .val 8) (1 / 2) (1 / 100000)).map
        fun q => (q.2, [r.2, r.1.subs.map fun s => s.memo.pen 0 0, r.1.subs.map fun s => s.memo.pen 0 1,
          [m.2 0 0, m.2 0 1, q.1.extra 0 0, q.1.extra 0 1]]))
      = some (.madePartialAssignment, [[((3 : ℚ) : Cost)],
        [((1 / 2 : ℚ) : Cost), ((-1 / 2 : ℚ) : Cost)], [((-1 : ℚ) : Cost), ((1 : ℚ) : Cost)],
        [((3 : ℚ) : Cost), ((8 : ℚ) : Cost), 0, ⊤]]) := by decide +kernel
  rw [Option.bind_eq_some_iff] at h
  obtain ⟨⟨S, bs⟩, h1, h⟩ := h
  rw [Option.bind_eq_some_iff] at h
  obtain ⟨⟨S1, agg⟩, h2, h⟩ := h
  rw [Option.map_eq_some_iff] at h
  obtain ⟨⟨S', st⟩, h3, h⟩ := h
  simp only [Prod.mk.injEq, List.cons.injEq, and_true] at h
  obtain ⟨rfl, rfl, hp, hp', ha0, ha1, hx0, hx1⟩ := h
  have hw : GoodWeights (choiceDags keepCosts).length none := fun w hw => by cases hw
  have hsub : (choiceSystem keepCosts).subs = [⟨emptyUnpenalizedTable ⊤ (choicePacked 1 5), indexColumn [4] [4], 1⟩,
      ⟨emptyUnpenalizedTable ⊤ (choicePacked 2 3), indexColumn [4] [4], 1⟩] := rfl
  obtain ⟨g1, -⟩ := Rnd.run_same (A := float64Arith) [0] _ _ _
    (made_ready keep_made (choiceDags_good _) hw).1 h1
  have hint : ∀ m : ℤ, |m| ≤ 2 ^ 53 → IsFloat64 (m : ℚ) := fun m hm =>
    ⟨m, 0, hm, by norm_num, by simp⟩
  have f0 : IsFloat64 0 := by simpa using hint 0 (by norm_num)
  have f1 : IsFloat64 1 := by simpa using hint 1 (by norm_num)
  have f2 : IsFloat64 2 := by simpa using hint 2 (by norm_num)
  have f3 : IsFloat64 3 := by simpa using hint 3 (by norm_num)
  have f5 : IsFloat64 5 := by simpa using hint 5 (by norm_num)
  have fm1 : IsFloat64 (-1) := by simpa using hint (-1) (by norm_num)
  have fh : IsFloat64 (1 / 2) := ⟨1, -1, by norm_num, by norm_num, by norm_num⟩
  have fmh : IsFloat64 (-1 / 2) := ⟨-1, -1, by norm_num, by norm_num, by norm_num⟩
  have hjoint : Joint (choiceSystem keepCosts) (fun _ => 0)
      [[⟨0, 1, ((1 : ℚ) : Cost), some (0, 0)⟩], [⟨0, 1, ((2 : ℚ) : Cost), some (0, 0)⟩]] := by
    refine ⟨fun v _ => Nat.zero_lt_two, ?_⟩
    have key : ∀ c0 c1 : ℚ, Complete (choicePacked c0 c1) [⟨0, 1, (c0 : Cost), some (0, 0)⟩]
        ∧ ∀ v k x, indexColumn [4] [4] v = some k →
          (k, x) ∈ assignments [⟨0, 1, (c0 : Cost), some (0, 0)⟩] → x = (fun _ => 0 : Nat → Nat) v := by
      intro c0 c1
      refine ⟨(choicePacked_complete _).2 (.inl rfl), ?_⟩
      intro v k x _ hx
      have : assignments [⟨0, 1, (c0 : Cost), some (0, 0)⟩] = [(0, 0)] := rfl
      rw [this] at hx
      simp at hx
      exact hx.2
    exact .cons (key _ _) (.cons (key _ _) .nil)
  have hJ : jointCost (choiceSystem keepCosts) (fun _ => 0)
      [[⟨0, 1, ((1 : ℚ) : Cost), some (0, 0)⟩], [⟨0, 1, ((2 : ℚ) : Cost), some (0, 0)⟩]]
      = ((3 : ℚ) : Cost) := by decide +kernel
  have e : (choiceDags keepCosts).length = 2 := rfl
  have ht : (2 : ℚ) ^ (-1075 : ℤ) ≤ 1 / 100 :=
    (zpow_le_zpow_right₀ (by norm_num) (show (-1075 : ℤ) ≤ -10 by norm_num)).trans (by norm_num)
  have h60 : (2 : ℚ) ^ 60 ≤ 2 ^ 1023 := pow_le_pow_right₀ (by norm_num) (by omega)
  refine ⟨S, S', _, h1, h3, hx0, hx1, hjoint, hJ, ?_⟩
  refine C88_keeps (n := 1) (M := 5) (X := 0) (M' := 6) (η := 1 / 2 ^ 52) C68_float64 (by norm_num)
    (zpow_nonneg (by norm_num) _) (by norm_num) keep_made (choiceDags_good _) hw (by norm_num) (le_refl _)
    (by norm_num) [0] (by simp [choiceSystem]) ?_ ⟨⟨?_, ?_⟩, fun _ _ => trivial⟩ ?_ h1 ?_ ?_ .forward _ _ _ S' _
    h3 _ _ hjoint 3 hJ (.inr ⟨S1, agg, ((3 : ℚ) : Cost), 8, h2, ?_, rfl, ?_⟩)
  · intro v hv
    obtain rfl : v = 0 := by simpa using hv
    have hpl : (participants (choiceSystem keepCosts) 0).length = 2 := rfl
    refine C68_shares ?_ (by rw [hpl]; norm_num) (by rw [hpl]; norm_num)
    intro s hs
    rw [hsub] at hs
    simp only [List.mem_cons, List.not_mem_nil, or_false] at hs
    rcases hs with rfl | rfl <;> rfl
  · intro s hs
    rw [hsub] at hs
    simp only [List.mem_cons, List.not_mem_nil, or_false] at hs
    rcases hs with rfl | rfl
    · exact choice_range f1 f5 f0 f0 (by norm_num) (by norm_num) rfl rfl
    · exact choice_range f2 f3 f0 f0 (by norm_num) (by norm_num) rfl rfl
  · intro x c hc
    obtain rfl : (0 : ℚ) = c := WithTop.coe_inj.1 hc
    exact ⟨f0, by simp⟩
  · rw [e]
    unfold rangeNeeded
    have h4 : 2 * (1 + 1 / 2 ^ 52) * (1 + 1 / 2 ^ 53 : ℚ) ^ (2 * 1 + 2 + 4) * (((2 : ℕ) : ℚ) * 5 + 0) + 1 / 100
        ≤ 2 ^ 60 := by norm_num
    exact (add_le_add (le_refl _) ht).trans (h4.trans h60)
  · have hs := g1.subs
    dsimp only at hs
    rw [hsub] at hs
    generalize S.subs = ss at hs hp hp'
    cases hs with
    | @cons _ s0 _ _ k0 hs =>
    cases hs with
    | @cons _ s1 _ _ k1 hs =>
    cases hs
    simp only [List.map_cons, List.map_nil, List.cons.injEq, and_true] at hp hp'
    intro s hs
    simp only [List.mem_cons, List.not_mem_nil, or_false] at hs
    rcases hs with rfl | rfl
    · rw [k0.1]
      exact choice_range f1 f5 fh fm1 (by norm_num) (by norm_num) hp.1 hp'.1
    · rw [k1.1]
      exact choice_range f2 f3 fmh f1 (by norm_num) (by norm_num) hp.2 hp'.2
  · rw [e]
    refine le_trans ?_ h60
    norm_num
  · have k1 : S.numKeys = 1 := g1.keys
    have k2 : S.numValues = 2 := g1.values
    rw [k1, k2]
    refine ⟨⟨0, by norm_num, ?_⟩, ?_⟩
    · intro x hx
      rcases (by omega : x = 0 ∨ x = 1) with rfl | rfl
      · rw [ha0]
      · rw [ha1]; exact WithTop.coe_le_coe.2 (by norm_num)
    · intro v hv
      obtain rfl : v = 0 := by omega
      exact ⟨0, by norm_num, by rw [ha0]⟩
  · have hlim : commitLimit float64Arith ((3 : ℚ) : Cost) 8 (1 / 2) = ((11 / 2 : ℚ) : Cost) := by
      decide +kernel
    rw [hlim, e]
    apply WithTop.coe_le_coe.2
    change 3 + extractError _ _ _ 2 1 1 5 0 6 ≤ _
    unfold extractError imbalance
    generalize (2 : ℚ) ^ (-1075 : ℤ) = τ at ht
    norm_num
    linarith

end RUSure.Props
