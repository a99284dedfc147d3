import Verif.Lemmas.RoundedConstrain
import Verif.Props.RoundedGreedy
import Verif.Props.RoundedStops

/-!
# C85: constraints and noise in machine arithmetic
-/

namespace RUSure.Props
open RUSure RUSure.Spec RUSure.Lemmas RUSure.Rounded

theorem exact_addUnary (S : System) (v : Nat) (p : Nat → Cost) :
    Rounded.addUnary exactArith S v p = S.addUnary v p := rfl

/-- C85: with exact arithmetic, these are the functions of C56. -/
theorem C85_exact {K V : Type} [DecidableEq K] [DecidableEq V] (penalty : Cost) (cs : List (K × V))
    (D : DualSystem K V) (S : System) (noise : Nat → Nat → ℚ) :
    Rounded.constrain exactArith penalty cs D = DualSystem.constrain penalty cs D
    ∧ Rounded.breakSymmetry exactArith S noise = S.breakSymmetry noise := by
  refine ⟨?_, rfl⟩
  induction cs generalizing D with
  | nil => rfl
  | cons c cs ih =>
    unfold Rounded.constrain DualSystem.constrain
    simp only [ih, exact_addUnary]
    rfl

/-! ## `float64` -/

/-- A `float64` number is not rounded. -/
theorem round64_float {a : ℚ} (h : IsFloat64 a) : round64 a = a := by
  have key : ∀ a : ℚ, 0 ≤ a → IsFloat64 a → roundPos a = a := by
    rintro a ha ⟨m, e, h1, h2, rfl⟩
    rcases ha.eq_or_lt with h0 | h0
    · rw [← h0, roundPos_zero]
    have hp := two_zpow_pos e
    have hm : 0 < m := by
      by_contra hc
      push Not at hc
      have : (m : ℚ) ≤ 0 := by exact_mod_cast hc
      nlinarith
    unfold roundPos
    have hint : ∃ k : ℤ, (m : ℚ) * 2 ^ e / 2 ^ lastPlace ((m : ℚ) * 2 ^ e) = k := by
      generalize hL : lastPlace ((m : ℚ) * 2 ^ e) = L
      by_cases hle : L ≤ e
      · refine ⟨m * 2 ^ (e - L).toNat, ?_⟩
        push_cast
        rw [mul_div_assoc, ← zpow_sub₀ (by norm_num), ← zpow_natCast, Int.toNat_of_nonneg (by omega)]
      · push Not at hle
        have hlog : Int.log 2 ((m : ℚ) * 2 ^ e) - 52 = L := by
          unfold lastPlace at hL
          omega
        have h3 := Int.zpow_log_le_self (R := ℚ) (b := 2) (by norm_num) h0
        have hexp : (2 : ℚ) ^ (e + 53) ≤ ((2 : ℕ) : ℚ) ^ Int.log 2 ((m : ℚ) * 2 ^ e) := by
          push_cast
          exact zpow_le_zpow_right₀ (by norm_num) (by omega)
        have h4 := hexp.trans h3
        rw [zpow_add₀ (by norm_num), mul_comm (m : ℚ)] at h4
        have h5 : (2 : ℚ) ^ (53 : ℤ) ≤ m := le_of_mul_le_mul_left h4 hp
        have h6 : m = 2 ^ 53 := by
          rw [abs_of_pos hm] at h1
          have : ((2 ^ 53 : ℤ) : ℚ) ≤ m := by
            rw [show ((2 ^ 53 : ℤ) : ℚ) = (2 : ℚ) ^ (53 : ℤ) by norm_num]
            exact h5
          have := Int.cast_le.1 this
          omega
        subst h6
        have e1 : (((2 ^ 53 : ℤ) : ℚ)) * 2 ^ e = ((2 : ℕ) : ℚ) ^ (53 + e) := by
          push_cast
          rw [zpow_add₀ (by norm_num)]
          norm_num
        have hlog' : Int.log 2 (((2 ^ 53 : ℤ) : ℚ) * 2 ^ e) = 53 + e := by
          rw [e1]
          exact Int.log_zpow (R := ℚ) (b := 2) (by norm_num) _
        rw [hlog'] at hlog
        refine ⟨2 ^ 52, ?_⟩
        rw [e1, ← hlog]
        push_cast
        rw [← zpow_sub₀ (by norm_num), show (53 + e - (53 + e - 52) : ℤ) = ((52 : ℕ) : ℤ) by push_cast; ring,
          zpow_natCast]
        norm_num
    obtain ⟨k, hk⟩ := hint
    rw [hk, roundEven_int, ← hk, div_mul_cancel₀ _ (two_zpow_pos _).ne']
  unfold round64
  split
  · rename_i hn
    exact key a hn h
  · rename_i hn
    push Not at hn
    have h' : IsFloat64 (-a) := C68_float64.neg a h
    rw [key (-a) (by linarith) h', neg_neg]

/-- C85: `float64` arithmetic is such an arithmetic. -/
theorem C85_float64 :
    AccurateShares float64Arith IsFloat64 (1 / 2 ^ 53) (2 ^ (-1075 : ℤ)) (2 ^ 1023) := by
  have hb : (2 : ℚ) ^ 1023 < 2 ^ 1024 := pow_lt_pow_right₀ (by norm_num) (by omega)
  refine ⟨?_, ?_⟩
  · intro a ha hl
    change nearest64 (0 + a) = _
    rw [zero_add]
    unfold nearest64
    rw [round64_float ha, if_pos (lt_of_le_of_lt ((le_abs_self _).trans hl) hb)]
  · intro a n _ hl hn
    have h1 : (1 : ℚ) ≤ n := by exact_mod_cast hn
    obtain ⟨r, r1, r2, r3⟩ := nearest64_error (s := a / n) (by
      rw [abs_div, Nat.abs_cast]
      exact (div_le_self (abs_nonneg _) h1).trans hl)
    have e : float64Arith.div a n = r := by
      change (nearest64 (a / n)).untopD 0 = r
      rw [r2]; rfl
    rw [e]
    exact ⟨r1, r3⟩

section
variable {K V : Type} [LinearOrder K] [DecidableEq V]
variable {A : Arith} {F : ℚ → Prop} {u τ η limit : ℚ} {n : Nat} {M X : ℚ}
variable {invalid : Cost} {dags : List (PackedDag × List K × List V)} {weights : Option (List ℚ)}
  {D D' : DualSystem K V}

theorem made_ustart (hm : makeSystem invalid dags weights = .ok D)
    (hd : ∀ d ∈ dags, GoodDag d) (hw : GoodWeights dags.length weights) (p : Nat → Nat → Cost) :
    Rnd.UStart A D.data p [] D.data := by
  obtain ⟨h1, -⟩ := made_ready (A := A) hm hd hw
  obtain ⟨-, -, -, -, -, h6, h7⟩ := makeSystem_ok hm
  refine ⟨rfl, rfl, List.forall₂_same.2 fun s hs => ⟨rfl, rfl, rfl, h1 s hs⟩, ?_, by simp, by simp, ?_⟩
  · intro w _
    refine ⟨fun x => by rw [h6], ?_⟩
    intro s hs x
    rw [h7] at hs
    obtain ⟨⟨d, i⟩, hx, rfl⟩ := List.mem_map.1 hs
    unfold View.charge
    split <;> rfl
  · intro s hs k x
    rw [h7] at hs
    obtain ⟨⟨d, i⟩, hx, rfl⟩ := List.mem_map.1 hs
    exact .inl rfl

theorem made_relevant (hm : makeSystem invalid dags weights = .ok D)
    (hd : ∀ d ∈ dags, GoodDag d) (hw : GoodWeights dags.length weights) {w : Nat}
    (hlt : w < D.data.numKeys) : 0 < D.data.numRelevant w := by
  obtain ⟨s, hs, k, hk⟩ := (makeSystem_inv hm hd hw).inv.part w hlt
  obtain ⟨s', hs', rfl⟩ := List.mem_map.1 hs
  apply List.length_pos_iff.2
  intro hc
  have : s' ∈ D.data.subs.filter fun s => (s.index w).isSome := by
    rw [List.mem_filter]
    refine ⟨hs', ?_⟩
    have hk' : s'.index w = some k := hk
    rw [hk']; rfl
  rw [hc] at this
  cases this

theorem prepared_ustart (hm : makeSystem invalid dags weights = .ok D)
    (hd : ∀ d ∈ dags, GoodDag d) (hw : GoodWeights dags.length weights) (hF0 : F 0) (hX : 0 ≤ X)
    (hp : Prepared A F X D D') :
    ∃ p us, Rnd.UStart A D.data p us D'.data
      ∧ ∀ w ∈ us, ∀ x, ∀ q : ℚ, p w x = q → F q ∧ |q| ≤ X := by
  cases hp with
  | plain => exact ⟨fun _ _ => 0, [], made_ustart hm hd hw _, by simp⟩
  | constrained penalty cs _ hp hk he =>
    obtain ⟨p, us, g1, -, -, g4⟩ := Rnd.constrain_start cs D D' (fun _ _ => 0) []
      (made_ustart hm hd hw _) hk (by simp) he (by simp)
    refine ⟨p, us, g1, ?_⟩
    intro w hw x q hq
    rcases g4 w hw x with h | h
    · rw [h] at hq
      rw [← WithTop.coe_inj.1 (show ((0 : ℚ) : Cost) = q from hq)]
      exact ⟨hF0, by rw [abs_zero]; exact hX⟩
    · rw [h] at hq
      exact hp q hq
  | noisy noise hn =>
    have := Rnd.noise_start (noise := noise) (List.range D.data.numKeys) D.data []
      (made_ustart (A := A) hm hd hw _) (by simpa using List.nodup_range)
    refine ⟨_, _, this, ?_⟩
    intro w _ x q hq
    rw [← WithTop.coe_inj.1 hq]
    exact hn w x

/-- What is known about a prepared system. -/
structure PreparedOK (A : Arith) (u τ η : ℚ) (n : Nat) (M X : ℚ) (S0 S : System) : Prop where
  keys : S.numKeys = S0.numKeys
  values : S.numValues = S0.numValues
  length : S.subs.length = S0.subs.length
  ok : ∀ s ∈ S.subs, Rnd.RSubOK A.toMachine S.numKeys S.numValues s
  dags : List.Forall₂ (fun s s' : Sub => s'.memo.dag = s.memo.dag ∧ s'.index = s.index) S0.subs S.subs
  shares : ∀ v, machineShares A S v = machineShares A S0 v
  settled : ∀ w < S.numKeys, ∀ x, S.extra w x = ⊤
    ∨ Rnd.Bal S (fun _ => x) w (imbalance u η τ S.subs.length n M X)

theorem PreparedOK.joint {S0 S : System} (h : PreparedOK A u τ η n M X S0 S) {a : Nat → Nat}
    {paths : List (List PackedEdge)} : Joint S a paths ↔ Joint S0 a paths := by
  have h1 : Rnd.SameProblems S0 { S with extra := S0.extra } := ⟨h.keys, h.values, rfl, h.dags⟩
  rw [← h1.joint (a := a) (paths := paths)]
  exact ⟨fun g => ⟨g.1, g.2⟩, fun g => ⟨g.1, g.2⟩⟩

theorem prepared_ok (hS : AccurateShares A F u τ limit) (hF0 : F 0) (hu : 0 ≤ u) (hτ : 0 ≤ τ)
    (hη : 0 ≤ η) (hM : 0 ≤ M) (hX : 0 ≤ X) (hm : makeSystem invalid dags weights = .ok D)
    (hd : ∀ d ∈ dags, GoodDag d) (hw : GoodWeights dags.length weights) (hp : Prepared A F X D D')
    (hl : rangeNeeded u η τ dags.length n M X ≤ limit) :
    PreparedOK A u τ η n M X D.data D'.data := by
  obtain ⟨p, us, g1, g2⟩ := prepared_ustart hm hd hw hF0 hX hp
  have hlen0 : D.data.subs.length = dags.length := by
    rw [(makeSystem_ok hm).2.2.2.2.2.2]; simp
  have hlen : D'.data.subs.length = D.data.subs.length := g1.subs.length_eq.symm
  refine ⟨g1.keys, g1.values, hlen, g1.ok, ?_, ?_, ?_⟩
  · exact g1.subs.imp fun s s' h => ⟨h.1, h.2.1⟩
  · intro v
    have hpart : (participants D'.data v).map Sub.weight = (participants D.data v).map Sub.weight := by
      unfold participants
      have := g1.subs
      generalize D.data.subs = l0 at this
      generalize D'.data.subs = l at this
      induction this with
      | nil => rfl
      | cons g _ ih =>
        rw [List.filter_cons, List.filter_cons, g.2.1]
        split
        · rw [List.map_cons, List.map_cons, ih, g.2.2.1]
        · exact ih
    have hgen : ∀ l : List Sub, (l.map fun s => A.div s.weight
        (l.foldl (fun (w : ℚ) s => (A.add w s.weight).untopD 0) 0))
        = (l.map Sub.weight).map fun q => A.div q
          ((l.map Sub.weight).foldl (fun (w : ℚ) (q : ℚ) => (A.add w q).untopD 0) 0) := by
      intro l
      rw [List.foldl_map, List.map_map]
      rfl
    unfold machineShares
    rw [hgen, hgen, hpart]
  · intro w hlt x
    rw [hlen]
    rw [g1.keys] at hlt
    exact g1.balance hS hu hη hτ hM hX (by rw [hlen0]; exact hl) g2 (made_relevant hm hd hw hlt) x

open Classical in
/-- C85: constraining a new system in machine arithmetic changes neither the joint solutions nor, up to
the penalties of the violated constraints, their costs. -/
theorem C85_constrain (hS : AccurateShares A F u τ limit) (hF0 : F 0) (hlim : 0 ≤ limit)
    (hm : makeSystem invalid dags weights = .ok D)
    (hd : ∀ d ∈ dags, GoodDag d) (hw : GoodWeights dags.length weights) (hv : D.values.Nodup)
    {penalty : Cost} (hp : ∀ q : ℚ, penalty = q → F q ∧ |q| ≤ limit) {cs : List (K × V)}
    (hk : (cs.map Prod.fst).Nodup) (he : Rounded.constrain A penalty cs D = some D')
    (a : Nat → Nat) (paths : List (List PackedEdge)) :
    (Joint D'.data a paths ↔ Joint D.data a paths)
    ∧ jointCost D'.data a paths = jointCost D.data a paths
      + (cs.map fun c => if ∃ v, D.keys[v]? = some c.1 ∧ D.values[a v]? = some c.2 then 0
          else penalty).sum := by
  obtain ⟨k1, -, -, k4, k5, -, -⟩ := makeSystem_ok hm
  have hkn : D.keys.Nodup := by rw [k1]; exact systemKeys_nodup dags
  have h0 : A.add 0 0 = 0 := hS.zero_add 0 hF0 (by rw [abs_zero]; exact hlim)
  have hpen : A.add 0 penalty = penalty := by
    cases hq : penalty using WithTop.recTopCoe with
    | top => exact A.top_right _
    | coe q => exact hS.zero_add q (hp q hq).1 (hp q hq).2
  constructor
  · obtain ⟨p, us, g1, -, -, -⟩ := Rnd.constrain_start cs D D' (fun _ _ => 0) []
      (made_ustart hm hd hw _) hk (by simp) he (by simp)
    have h1 : Rnd.SameProblems D.data { D'.data with extra := D.data.extra } :=
      ⟨g1.keys, g1.values, rfl, g1.subs.imp fun s s' h => ⟨h.1, h.2.1⟩⟩
    rw [← h1.joint (a := a) (paths := paths)]
    exact ⟨fun g => ⟨g.1, g.2⟩, fun g => ⟨g.1, g.2⟩⟩
  · suffices H : ∀ (cs : List (K × V)) (E : DualSystem K V) (p : Nat → Nat → Cost) (us : List Nat),
        Rnd.UStart A D.data p us E.data → (cs.map Prod.fst).Nodup →
        (∀ c ∈ cs, ∀ v, dictIndex D.keys c.1 = some v → v ∉ us) → E.keys = D.keys →
        E.values = D.values → Rounded.constrain A penalty cs E = some D' →
        jointCost D'.data a paths = jointCost E.data a paths
          + (cs.map fun c => if ∃ v, D.keys[v]? = some c.1 ∧ D.values[a v]? = some c.2 then 0
            else penalty).sum from
      H cs D _ [] (made_ustart hm hd hw (fun _ _ => 0)) hk (by simp) rfl rfl he
    intro cs
    induction cs with
    | nil =>
      intro E p us _ _ _ _ _ he
      simp only [Rounded.constrain, Option.some.injEq] at he
      subst he
      simp
    | cons c cs ih =>
      intro E p us hE hn hu hek hev he
      unfold Rounded.constrain at he
      rw [List.map_cons, List.nodup_cons] at hn
      split at he
      · rename_i v i hv' hi
        rw [hek] at hv'
        rw [hev] at hi
        have hvu := hu c (by simp) v hv'
        have hlt : v < E.data.numKeys := by
          rw [hE.keys, k4]
          exact dictIndex_lt hv'
        rw [ih { E with data := Rounded.addUnary A E.data v (setEntry (fun _ => penalty) i 0) } _ _
          (hE.add hvu _) hn.2 ?_ hek hev he]
        · rw [Rnd.unary_cost hlt (hE.rest v hvu).1 ?_]
          · rw [List.map_cons, List.sum_cons, add_assoc]
            congr 2
            by_cases hc : i = a v
            · subst hc
              have : ∃ v, D.keys[v]? = some c.1 ∧ D.values[a v]? = some c.2 :=
                ⟨v, dictIndex_get hv', dictIndex_get hi⟩
              simp [setEntry, this]
            · have : ¬ ∃ v, D.keys[v]? = some c.1 ∧ D.values[a v]? = some c.2 := by
                rintro ⟨w, hu1, hu2⟩
                have e1 := dictIndex_of_get hkn hu1
                rw [hv'] at e1
                simp only [Option.some.injEq] at e1
                subst e1
                have e2 := dictIndex_of_get hv hu2
                rw [hi] at e2
                simp only [Option.some.injEq] at e2
                exact hc e2
              rw [if_neg this]
              simp [setEntry, Ne.symm hc]
          · intro x
            unfold setEntry
            split
            · exact h0
            · exact hpen
        · intro c' hc' v' hv'' hmem
          rcases List.mem_append.1 hmem with hm' | hm'
          · exact hu c' (List.mem_cons_of_mem _ hc') v' hv'' hm'
          · have hvv := List.mem_singleton.1 hm'
            subst hvv
            have e1 := dictIndex_get hv'
            have e2 := dictIndex_get hv''
            rw [e1, Option.some.injEq] at e2
            exact hn.1 (List.mem_map.2 ⟨c', hc', e2.symm⟩)
      · cases he

/-- C85: noise changes neither the joint solutions nor, up to the noise at their values, their costs. -/
theorem C85_noise (hS : AccurateShares A F u τ limit) (hm : makeSystem invalid dags weights = .ok D)
    (hd : ∀ d ∈ dags, GoodDag d) (hw : GoodWeights dags.length weights)
    {noise : Nat → Nat → ℚ} (hn : ∀ v x, F (noise v x) ∧ |noise v x| ≤ limit)
    (a : Nat → Nat) (paths : List (List PackedEdge)) :
    (Joint (Rounded.breakSymmetry A D.data noise) a paths ↔ Joint D.data a paths)
    ∧ jointCost (Rounded.breakSymmetry A D.data noise) a paths = jointCost D.data a paths
      + ((List.range D.data.numKeys).map fun v => ((noise v (a v) : ℚ) : Cost)).sum := by
  have h0 := made_ustart (A := A) hm hd hw (fun v x => (noise v x : Cost))
  constructor
  · have g1 := Rnd.noise_start (noise := noise) (List.range D.data.numKeys) D.data [] h0
      (by simpa using List.nodup_range)
    have h1 : Rnd.SameProblems D.data
        { Rounded.breakSymmetry A D.data noise with extra := D.data.extra } :=
      ⟨g1.keys, g1.values, rfl, g1.subs.imp fun s s' h => ⟨h.1, h.2.1⟩⟩
    rw [← h1.joint (a := a) (paths := paths)]
    exact ⟨fun g => ⟨g.1, g.2⟩, fun g => ⟨g.1, g.2⟩⟩
  · suffices H : ∀ (vs us : List Nat) (T : System),
        Rnd.UStart A D.data (fun v x => (noise v x : Cost)) us T → (us ++ vs).Nodup →
        (∀ v ∈ vs, v < D.data.numKeys) →
        jointCost (vs.foldl (fun S v => Rounded.addUnary A S v (fun x => (noise v x : Cost))) T) a paths
          = jointCost T a paths + (vs.map fun v => ((noise v (a v) : ℚ) : Cost)).sum from
      H _ [] _ h0 (by simpa using List.nodup_range) (by simp)
    intro vs
    induction vs with
    | nil => intro us T _ _ _; simp
    | cons v vs ih =>
      intro us T hT hnd hlt
      have hv : v ∉ us := fun hc => (List.nodup_append.1 hnd).2.2 v hc v (by simp) rfl
      have hT' : Rnd.UStart A D.data (fun v x => (noise v x : Cost)) (us ++ [v])
          (Rounded.addUnary A T v (fun x => (noise v x : Cost))) :=
        Rnd.noise_start (noise := noise) [v] T us hT (by
          rw [List.append_cons] at hnd
          exact (List.nodup_append.1 hnd).1)
      rw [List.foldl_cons, ih (us ++ [v]) _ hT' (by simpa using hnd)
        (fun w hw => hlt w (List.mem_cons_of_mem _ hw)),
        Rnd.unary_cost (by rw [hT.keys]; exact hlt v (by simp)) (hT.rest v hv).1
          (fun x => hS.zero_add _ (hn v x).1 (hn v x).2), List.map_cons, List.sum_cons, add_assoc]

theorem prepared_bal (h : PreparedOK A u τ η n M X D.data D'.data) {a : Nat → Nat}
    {paths : List (List PackedEdge)} {J : ℚ} (hJ : jointCost D'.data a paths = J) :
    ∀ w < D'.data.numKeys, Rnd.Bal D'.data a w (imbalance u η τ D'.data.subs.length n M X) := by
  intro w hw
  rcases h.settled w hw (a w) with ht | hb
  · exfalso
    have h1 : jointCost D'.data a paths < ⊤ := by rw [hJ]; exact WithTop.coe_lt_top J
    unfold jointCost at h1
    rw [WithTop.add_lt_top] at h1
    have h2 := sum_lt_top.1 h1.2 (D'.data.extra w (a w))
      (List.mem_map.2 ⟨w, List.mem_range.2 hw, rfl⟩)
    rw [ht] at h2
    exact lt_irrefl _ h2
  · exact hb

/-- C85: the bounds reported for a system with constraints or noise exceed the cost of no joint solution
of that system by more than those of C68 do. -/
theorem C85_bound (hA : AccurateArith A F u τ limit) (hS : AccurateShares A F u τ limit) (hF0 : F 0)
    (hu : 0 ≤ u) (hτ : 0 ≤ τ) (hη : 0 ≤ η) (hM : 0 ≤ M) (hX : 0 ≤ X)
    (hm : makeSystem invalid dags weights = .ok D)
    (hd : ∀ d ∈ dags, GoodDag d) (hw : GoodWeights dags.length weights) (hp : Prepared A F X D D')
    (vs : List Nat) (hvs : ∀ v ∈ vs, v < D.data.numKeys)
    (hs : ∀ v ∈ vs, FairShares A D.data v η) (hr : RunInRange A F n M X vs D'.data)
    (hl : rangeNeeded u η τ dags.length n M X ≤ limit)
    {S : System} {bs : List Cost} (he : averages A vs D'.data = some (S, bs))
    {a : Nat → Nat} {paths : List (List PackedEdge)} (hj : Joint D'.data a paths) :
    ∀ b ∈ bs, b ≤ jointCost D'.data a paths
      + (((D.data.numKeys - 1) * imbalance u η τ dags.length n M X
        + sumError u dags.length n M X : ℚ) : Cost) := by
  have h := prepared_ok hS hF0 hu hτ hη hM hX hm hd hw hp hl
  have hlen : D'.data.subs.length = dags.length := by
    rw [h.length, (makeSystem_ok hm).2.2.2.2.2.2]; simp
  intro b hb
  by_cases hJ : jointCost D'.data a paths = ⊤
  · rw [hJ]; simp
  · obtain ⟨J, hJ⟩ := WithTop.ne_top_iff_exists.1 hJ
    rw [← hJ]
    have := Rnd.run_bound hA hu hτ vs _ _ _ h.ok hj hJ.symm (prepared_bal h hJ.symm)
      (fun v hv => ⟨by rw [h.keys]; exact hvs v hv,
        ⟨by rw [h.shares]; exact (hs v hv).nonneg, by rw [h.shares]; exact (hs v hv).total⟩⟩)
      hr (by rw [hlen]; exact hl) he b hb
    rw [hlen, add_assoc, WithTop.coe_add, h.keys] at this
    exact this

/-- C85: a finite penalty, or noise, makes no extra cost infinite. -/
theorem C85_finite (hS : AccurateShares A F u τ limit) (hF0 : F 0) (hlim : 0 ≤ limit)
    (hm : makeSystem invalid dags weights = .ok D)
    (hd : ∀ d ∈ dags, GoodDag d) (hw : GoodWeights dags.length weights)
    {q : ℚ} (hq : F q ∧ |q| ≤ limit) {cs : List (K × V)}
    (hk : (cs.map Prod.fst).Nodup) (he : Rounded.constrain A (q : Cost) cs D = some D') :
    ∀ w x, D'.data.extra w x ≠ ⊤ := by
  obtain ⟨p, us, g1, -, -, g4⟩ := Rnd.constrain_start cs D D' (fun _ _ => 0) []
    (made_ustart hm hd hw _) hk (by simp) he (by simp)
  intro w x
  by_cases hwu : w ∈ us
  · rw [g1.extra w hwu x]
    rcases g4 w hwu x with h | h
    · rw [h]
      have h0 : A.add 0 0 = 0 := hS.zero_add 0 hF0 (by rw [abs_zero]; exact hlim)
      rw [h0]; exact WithTop.coe_ne_top
    · rw [h]
      have h0 : A.add 0 (q : Cost) = q := hS.zero_add q hq.1 hq.2
      rw [h0]; exact WithTop.coe_ne_top
  · rw [(g1.rest w hwu).1 x]; exact WithTop.coe_ne_top

/-- C85: greedy extraction from a system with noise, or with constraints for a finite penalty, has the
accuracy of C69. -/
theorem C85_greedy (hA : AccurateArith A F u τ limit) (hS : AccurateShares A F u τ limit) (hF0 : F 0)
    (hu : 0 ≤ u) (hτ : 0 ≤ τ) (hη : 0 ≤ η) {M' : ℚ} (hM : 0 ≤ M) (hX : 0 ≤ X) (hM' : 0 ≤ M')
    (hm : makeSystem invalid dags weights = .ok D)
    (hd : ∀ d ∈ dags, GoodDag d) (hw : GoodWeights dags.length weights) (hp : Prepared A F X D D')
    (hfin : ∀ w x, D'.data.extra w x ≠ ⊤)
    (vs : List Nat) (hvs : ∀ v ∈ vs, v < D.data.numKeys)
    (hs : ∀ v ∈ vs, FairShares A D.data v η) (hr : RunInRange A F n M X vs D'.data)
    (hl : rangeNeeded u η τ dags.length n M X ≤ limit)
    {S : System} {bs : List Cost} (he : averages A vs D'.data = some (S, bs))
    (hr' : ∀ s ∈ S.subs, InRange F s.memo.dag s.memo.pen n M')
    (hl' : (1 + u) ^ (2 * n + 1 + dags.length) * (dags.length * M') ≤ limit)
    {dir : Direction} {vec : List Nat} {c : Option Cost}
    (hg : Rounded.greedy A S dir = some (vec, c)) :
    vec.length = D.data.numKeys ∧ (∀ x ∈ vec, x < D.data.numValues)
    ∧ (D.data.numKeys = 0 → c = none)
    ∧ (D.data.numKeys ≠ 0 → ∃ C, c = some C
      ∧ (∀ paths, Joint D'.data (fun v => vec.getD v 0) paths →
        C ≤ jointCost D'.data (fun v => vec.getD v 0) paths
          + (extractError u η τ dags.length D.data.numKeys n M X M' : Cost))
      ∧ (C ≠ ⊤ → ∃ paths, Joint D'.data (fun v => vec.getD v 0) paths
        ∧ jointCost D'.data (fun v => vec.getD v 0) paths
          ≤ C + (extractError u η τ dags.length D.data.numKeys n M X M' : Cost))) := by
  have h := prepared_ok hS hF0 hu hτ hη hM hX hm hd hw hp hl
  have hinv := makeSystem_inv hm hd hw
  have hlen : D'.data.subs.length = dags.length := by
    rw [h.length, (makeSystem_ok hm).2.2.2.2.2.2]; simp
  have hcongr : ∀ {b b' : Nat → Nat} {paths}, (∀ w < D.data.numKeys, b w = b' w) →
      Joint D'.data b paths → Joint D'.data b' paths := by
    intro b b' paths hbb hj
    exact h.joint.2 (joint_congr hinv hbb (h.joint.1 hj))
  obtain ⟨hsame, hok⟩ := Rnd.run_same vs _ _ _ h.ok he
  have hlen' : S.subs.length = dags.length := by rw [← hsame.subs.length_eq, hlen]
  obtain ⟨a, rfl, g2, g3, g4⟩ := Rnd.greedy_cost hA.sums hu hM' hok hr' (by rw [hlen']; exact hl') hg
  have hkeys : S.numKeys = D.data.numKeys := hsame.keys.trans h.keys
  rw [hkeys] at g2 g3 g4 ⊢
  rw [hsame.values, h.values] at g2
  have hag : ∀ w < D.data.numKeys, a w = ((List.range D.data.numKeys).map a).getD w 0 := by
    intro w hw
    simp [List.getD_eq_getElem?_getD, hw]
  have hag' : ∀ w < D'.data.numKeys, a w = ((List.range D.data.numKeys).map a).getD w 0 := by
    rw [h.keys]; exact hag
  -- the penalised cost of a joint solution
  have hnear : ∀ paths, Joint D'.data a paths → ∀ J : ℚ, jointCost D'.data a paths = J →
      ∃ E : ℚ, (List.zipWith (fun s p => pathCost s.memo.pen p) S.subs paths).sum = E
        ∧ |E - J| ≤ D.data.numKeys * imbalance u η τ dags.length n M X := by
    intro paths hj J hJ
    have hb := Rnd.run_bal hA hu hτ vs _ _ _ h.ok hj hJ (prepared_bal h hJ)
      (fun v hv => ⟨by rw [h.keys]; exact hvs v hv,
        ⟨by rw [h.shares]; exact (hs v hv).nonneg, by rw [h.shares]; exact (hs v hv).total⟩⟩)
      hr (by rw [hlen]; exact hl) he
    rw [hlen] at hb
    have := Rnd.joint_near hok (hsame.joint.2 hj) ((hsame.cost a paths).trans hJ) hb
    rwa [hkeys] at this
  refine ⟨by simp, ?_, g3, ?_⟩
  · intro x hx
    obtain ⟨w, hw, rfl⟩ := List.mem_map.1 hx
    exact g2 w (List.mem_range.1 hw)
  · intro h0
    obtain ⟨C, c1, c2, c3⟩ := g4 h0
    rw [hlen'] at c2 c3
    refine ⟨C, c1, ?_, ?_⟩
    · intro paths hj
      have hj' := hcongr (fun w hw => (hag w hw).symm) hj
      rw [← jointCost_congr (b := a) hag']
      cases hJ : jointCost D'.data a paths using WithTop.recTopCoe with
      | top => simp
      | coe J =>
        obtain ⟨E, e1, e2⟩ := hnear paths hj' J hJ
        refine (c2 paths (hsame.joint.2 hj') E e1).trans ?_
        rw [← WithTop.coe_add]
        apply WithTop.coe_le_coe.2
        have := (abs_le.1 e2).2
        unfold extractError
        linarith
    · intro hC
      lift C to ℚ using hC
      obtain ⟨paths, p1, E, p2, p3⟩ := c3 C rfl
      have hj := hsame.joint.1 p1
      have hJ : jointCost D'.data a paths ≠ ⊤ := by
        have h3 : ((List.range D'.data.numKeys).map fun w => D'.data.extra w (a w)).sum < ⊤ := by
          rw [sum_lt_top]
          intro c hc
          obtain ⟨w, -, rfl⟩ := List.mem_map.1 hc
          exact lt_top_iff_ne_top.2 (hfin _ _)
        unfold jointCost
        rw [← lt_top_iff_ne_top, WithTop.add_lt_top]
        refine ⟨?_, h3⟩
        rw [sum_lt_top]
        have h4 := p1.paths
        have h5 : (List.zipWith (fun s p => pathCost s.memo.pen p) S.subs paths).sum < ⊤ := by
          rw [p2]; exact WithTop.coe_lt_top _
        clear p1 p2 p3 hj c1 c2 c3 hnear hg he hr' hok hsame hlen' hkeys
        generalize S.subs = ss at h4 h5
        induction h4 with
        | nil => simp
        | @cons s p ss ps _ _ ih =>
          rw [List.zipWith_cons_cons, List.sum_cons, WithTop.add_lt_top] at h5
          intro c hc
          rw [List.map_cons] at hc
          rcases List.mem_cons.1 hc with rfl | hc
          · exact ((pathCost_lt_top _ _).1 h5.1).1
          · exact ih h5.2 c hc
      obtain ⟨J, hJ⟩ := WithTop.ne_top_iff_exists.1 hJ
      obtain ⟨E', e1, e2⟩ := hnear paths hj J hJ.symm
      rw [p2, WithTop.coe_inj] at e1
      refine ⟨paths, hcongr hag hj, ?_⟩
      rw [← jointCost_congr (b := a) hag', ← hJ, ← WithTop.coe_add]
      apply WithTop.coe_le_coe.2
      have := (abs_le.1 e2).1
      unfold extractError
      linarith

theorem prepared_run (hS : AccurateShares A F u τ limit) (hF0 : F 0) (hu : 0 ≤ u) (hτ : 0 ≤ τ)
    (hη : 0 ≤ η) (hM : 0 ≤ M) (hX : 0 ≤ X) (hm : makeSystem invalid dags weights = .ok D)
    (hd : ∀ d ∈ dags, GoodDag d) (hw : GoodWeights dags.length weights)
    (hk : ∀ d ∈ dags, d.2.1 ≠ []) (hp : Prepared A F X D D')
    (vs : List Nat) (hvs : ∀ v ∈ vs, v < D.data.numKeys)
    (hs : ∀ v ∈ vs, FairShares A D.data v η) (hr : RunInRange A F n M X vs D'.data)
    (hl : rangeNeeded u η τ dags.length n M X ≤ limit) :
    Rnd.RunGood A F u τ η limit n dags.length D.data.numKeys M X vs D'.data := by
  have h := prepared_ok hS hF0 hu hτ hη hM hX hm hd hw hp hl
  have hsubs := (makeSystem_ok hm).2.2.2.2.2.2
  have hlen : D'.data.subs.length = dags.length := by
    rw [h.length, hsubs]; simp
  refine ⟨?_, ?_, ?_, hr, by rw [hlen]; exact hl, hX, hlen, h.keys⟩
  · intro s' hs'
    refine ⟨h.ok s' hs', ?_⟩
    obtain ⟨s, hs, e1, -⟩ := Rnd.forall₂_mem_right h.dags s' hs'
    rw [e1]
    rw [hsubs] at hs
    obtain ⟨⟨d, i⟩, hx, rfl⟩ := List.mem_map.1 hs
    have hdm := List.fst_mem_of_mem_zipIdx hx
    change 0 < d.1.numKeys
    have h3 := (hd d hdm).keys_length
    rw [← h3]
    exact List.length_pos_iff.2 (hk d hdm)
  · intro w hw x
    rcases h.settled w hw x with h1 | h1
    · exact .inr (.inl h1)
    · exact .inl h1
  · exact fun v hv => ⟨by rw [h.keys]; exact hvs v hv,
      ⟨by rw [h.shares]; exact (hs v hv).nonneg, by rw [h.shares]; exact (hs v hv).total⟩⟩

/-- C85: the bounds for a system with constraints or noise hardly fall, and do not get large. -/
theorem C85_steps (hA : AccurateArith A F u τ limit) (hS : AccurateShares A F u τ limit) (hF0 : F 0)
    (hu : 0 ≤ u) (hτ : 0 ≤ τ) (hη : 0 ≤ η) (hη1 : η < 1) (hM : 0 ≤ M) (hX : 0 ≤ X)
    (hm : makeSystem invalid dags weights = .ok D)
    (hd : ∀ d ∈ dags, GoodDag d) (hw : GoodWeights dags.length weights)
    (hk : ∀ d ∈ dags, d.2.1 ≠ []) (hp : Prepared A F X D D')
    (vs : List Nat) (hvs : ∀ v ∈ vs, v < D.data.numKeys)
    (hs : ∀ v ∈ vs, FairShares A D.data v η) (hr : RunInRange A F n M X vs D'.data)
    (hl : rangeNeeded u η τ dags.length n M X ≤ limit)
    {S : System} {bs : List Cost} (he : averages A vs D'.data = some (S, bs)) :
    (∀ i b b', bs[i]? = some b → bs[i + 1]? = some b' →
      b ≤ b' + ((dropError u η τ dags.length n M X : ℚ) : Cost))
    ∧ ∀ q : ℚ, (q : Cost) ∈ bs → |q| ≤ boundSize u dags.length n M X :=
  (run_steps hA hu hτ hη1 vs _ _ _
    (prepared_run hS hF0 hu hτ hη hM hX hm hd hw hk hp vs hvs hs hr hl) he).2

/-- C85: the sweeps end for systems with constraints or noise, as in C84. -/
theorem C85_stops (hA : AccurateArith A F u τ limit) (hS : AccurateShares A F u τ limit) (hF0 : F 0)
    (hu : 0 ≤ u) (hu1 : u < 1) (hτ : 0 ≤ τ) (hη : 0 ≤ η) (hη1 : η < 1) (hM : 0 ≤ M) (hX : 0 ≤ X)
    (hm : makeSystem invalid dags weights = .ok D)
    (hd : ∀ d ∈ dags, GoodDag d) (hw : GoodWeights dags.length weights)
    (hk : ∀ d ∈ dags, d.2.1 ≠ []) (hp : Prepared A F X D D')
    (hs : ∀ v < D.data.numKeys, FairShares A D.data v η)
    {tol : ℚ} (htol : 0 ≤ tol) {late : Nat → Bool} {rounds : Nat}
    (hr : RunInRange A F n M X (sweepOrder late D.data.numKeys (rounds + 2) 0) D'.data)
    (hl : rangeNeeded u η τ dags.length n M X ≤ limit)
    (hrounds : 2 * boundSize u dags.length n M X
      < rounds * roundGain u η τ tol D.data.numKeys dags.length n M X) :
    ∃ st, Rounded.solve A D'.data tol late (rounds + 2) = .ok st := by
  have hlt := sweepOrder_lt (late := late) (numKeys := D.data.numKeys) (rounds + 2) 0
  exact Rnd.sweeps_stop hA hu hu1 hτ hη1 htol
    (prepared_run hS hF0 hu hτ hη hM hX hm hd hw hk hp _ hlt (fun v hv => hs v (hlt v hv)) hr hl) hrounds

end

/-! ## Concrete cases -/

/-- A joint solution of the sample system of C35 that violates a constraint: in `float64` its cost is
larger by the penalty, and the hypotheses of `C85_constrain` are met. -/
example : ∃ D D' a paths, makeSystem 7 sampleDags (some [1, 2]) = .ok D
    ∧ Rounded.constrain float64Arith ((1000000 : ℚ) : Cost) [(7, 10)] D = some D'
    ∧ Joint D'.data a paths ∧ jointCost D'.data a paths = ((1000007 : ℚ) : Cost) := by
  obtain ⟨D, h, hk, hv, hw, -⟩ := sample_made
  have h6 : IsFloat64 1000000 := ⟨1000000, 0, by norm_num, by norm_num, by norm_num⟩
  have h0 : IsFloat64 0 := ⟨0, 0, by norm_num, by norm_num, by norm_num⟩
  obtain ⟨D', hD'⟩ : ∃ D', Rounded.constrain float64Arith ((1000000 : ℚ) : Cost) [(7, 10)] D = some D' := by
    have e1 : dictIndex D.keys 7 = some 1 := by rw [hk]; decide
    have e2 : dictIndex D.values 10 = some 0 := by rw [hv]; decide
    simp only [Rounded.constrain, e1, e2]
    exact ⟨_, rfl⟩
  let a : Nat → Nat := fun v => if v = 1 then 1 else 0
  let paths : List (List PackedEdge) :=
    [[⟨0, 1, 1, some (0, 0)⟩, ⟨1, 2, 3, some (1, 1)⟩], [⟨0, 1, 1, none⟩, ⟨1, 3, 2, some (0, 1)⟩]]
  have hj : Joint D.data a paths ∧ jointCost D.data a paths = ((7 : ℚ) : Cost) := sample_joint_paths h
  obtain ⟨g1, g2⟩ := C85_constrain C85_float64 h0 (by positivity) h sampleDags_good hw
    (by rw [hv]; simp) (penalty := ((1000000 : ℚ) : Cost)) (fun q hq => by
      rw [← WithTop.coe_inj.1 hq]
      refine ⟨h6, ?_⟩
      have h2 : (2 : ℚ) ^ 60 ≤ 2 ^ 1023 := pow_le_pow_right₀ (by norm_num) (by omega)
      refine le_trans ?_ h2
      norm_num) (by simp) hD' a paths
  refine ⟨D, D', a, paths, h, hD', g1.2 hj.1, ?_⟩
  rw [g2, hj.2, hk, hv]
  have hno : ¬ ∃ v, ([3, 7] : List Nat)[v]? = some 7 ∧ ([10, 20] : List Nat)[a v]? = some 10 := by
    rintro ⟨v, v1, v2⟩
    match v, v1 with
    | 0, v1 => simp at v1
    | 1, _ => simp [a] at v2
  simp only [List.map_cons, List.map_nil, List.sum_cons, List.sum_nil, add_zero, if_neg hno]
  rw [← WithTop.coe_add]
  congr 1
  norm_num

/-- The noise of the next example: 6 for the only variable and value. -/
def upNoise : Nat → Nat → ℚ := fun _ _ => 6

/-- The hypotheses of `C85_bound` are met by two copies of a DAG with this noise, `float64` and any
number of steps. -/
example (vs : List Nat) (hvs : ∀ v ∈ vs, v = 0) :
    Prepared float64Arith IsFloat64 6 (⟨upSystem, [4], [5]⟩ : DualSystem Nat Nat)
      ⟨Rounded.breakSymmetry float64Arith upSystem upNoise, [4], [5]⟩
    ∧ Joint (Rounded.breakSymmetry float64Arith upSystem upNoise) (fun _ => 0)
      [upPacked.edges, upPacked.edges]
    ∧ jointCost (Rounded.breakSymmetry float64Arith upSystem upNoise) (fun _ => 0)
      [upPacked.edges, upPacked.edges] = ((18014398509481996 : ℚ) : Cost)
    ∧ RunInRange float64Arith IsFloat64 3 9007199254740995 6 vs
      (Rounded.breakSymmetry float64Arith upSystem upNoise)
    ∧ rangeNeeded (1 / 2 ^ 53) (1 / 2 ^ 52) (2 ^ (-1075 : ℤ)) upDags.length 3 9007199254740995 6
      ≤ 2 ^ 1023 := by
  have h6 : IsFloat64 6 := ⟨6, 0, by norm_num, by norm_num, by norm_num⟩
  have h0 : IsFloat64 0 := ⟨0, 0, by norm_num, by norm_num, by norm_num⟩
  have h2 : (2 : ℚ) ^ 60 ≤ 2 ^ 1023 := pow_le_pow_right₀ (by norm_num) (by omega)
  have hrange : rangeNeeded (1 / 2 ^ 53) (1 / 2 ^ 52) (2 ^ (-1075 : ℤ)) upDags.length 3 9007199254740995 6
      ≤ 2 ^ 1023 := by
    have e : upDags.length = 2 := rfl
    rw [e]
    unfold rangeNeeded
    have h1 : (2 : ℚ) ^ (-1075 : ℤ) ≤ 1 := zpow_le_one_of_nonpos₀ (by norm_num) (by norm_num)
    have h3 : 2 * (1 + 1 / 2 ^ 52) * (1 + 1 / 2 ^ 53 : ℚ) ^ (2 * 3 + 2 + 4)
        * (((2 : ℕ) : ℚ) * 9007199254740995 + 6) + 1 ≤ 2 ^ 60 := by norm_num
    exact (add_le_add (le_refl _) h1).trans (h3.trans h2)
  have hp : Prepared float64Arith IsFloat64 6 (⟨upSystem, [4], [5]⟩ : DualSystem Nat Nat)
      ⟨Rounded.breakSymmetry float64Arith upSystem upNoise, [4], [5]⟩ :=
    .noisy upNoise (fun v x => ⟨h6, by norm_num [upNoise]⟩)
  have hok := prepared_ok (n := 3) (M := 9007199254740995) C85_float64 h0 (by norm_num)
    (zpow_nonneg (by norm_num) _) (by norm_num) (by norm_num) (by norm_num) up_made upDags_good (fun w hw => by cases hw) hp hrange
  obtain ⟨n1, n2⟩ := C85_noise C85_float64 up_made upDags_good (fun w hw => by cases hw)
    (noise := upNoise) (fun v x => ⟨h6, le_trans (by norm_num [upNoise]) h2⟩)
    (fun _ => 0) [upPacked.edges, upPacked.edges]
  have hj := n1.2 up_joint.1
  refine ⟨hp, hj, ?_, ?_, hrange⟩
  · clear hok hp hrange h2 hj n1
    have n3 : jointCost (Rounded.breakSymmetry float64Arith upSystem upNoise) (fun _ => 0)
        [upPacked.edges, upPacked.edges] = jointCost upSystem (fun _ => 0)
        [upPacked.edges, upPacked.edges]
          + ((List.range 1).map fun _ => ((6 : ℚ) : Cost)).sum := n2
    rw [n3, up_joint.2]
    decide +kernel
  · suffices H : ∀ (vs : List Nat) (S : System), (∀ v ∈ vs, v = 0) →
        (∀ s ∈ S.subs, Rnd.RSubOK float64Arith.toMachine S.numKeys S.numValues s) →
        Joint S (fun _ => 0) [upPacked.edges, upPacked.edges] →
        (∀ s ∈ S.subs, s.memo.dag = upPacked ∧ s.index 0 = some 0) →
        (∀ x, S.extra 0 x = ((6 : ℚ) : Cost)) →
        RunInRange float64Arith IsFloat64 3 9007199254740995 6 vs S by
      refine H vs _ hvs hok.ok hj ?_ ?_
      · intro s hs
        obtain ⟨s0, hs0, e1, e2⟩ := Rnd.forall₂_mem_right hok.dags s hs
        rw [e1, e2]
        simp only [upSystem, List.mem_cons, List.not_mem_nil, or_false] at hs0
        rcases hs0 with rfl | rfl <;> exact ⟨rfl, rfl⟩
      · intro x
        have : float64Arith.add ((0 : ℚ) : Cost) ((6 : ℚ) : Cost) = ((6 : ℚ) : Cost) :=
          C85_float64.zero_add 6 h6 (le_trans (by norm_num) h2)
        exact this
    intro vs
    induction vs with
    | nil => intro S _ _ _ _ _; trivial
    | cons v vs ih =>
      intro S hv hok hj hd he
      have hv0 := hv v (by simp)
      subst hv0
      refine ⟨⟨?_, ?_⟩, ?_⟩
      · intro s hs
        obtain ⟨h1, h2⟩ := hd s hs
        rw [h1]
        apply upPacked_range
        unfold Sub.without
        rw [if_pos h2]
      · intro x c hc
        rw [he] at hc
        rw [← WithTop.coe_inj.1 hc]
        exact ⟨h6, by norm_num⟩
      · rintro ⟨S', b⟩ ha
        obtain ⟨k1, k2, -, -, -, k6, -⟩ := Rnd.step_keep hok hj ha
        refine ih S' (fun w hw => hv w (List.mem_cons_of_mem _ hw)) k1 k2 ?_ (by rw [k6]; exact he)
        intro s hs
        exact Rnd.step_dags hok ha (P := fun d i => d = upPacked ∧ i 0 = some 0) hd s hs

end RUSure.Props
