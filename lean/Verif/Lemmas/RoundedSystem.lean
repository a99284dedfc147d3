import Verif.Lemmas.RoundedGuard
import Verif.Lemmas.SystemSolve
import Verif.Spec.RoundedSystem

/-! # Systems built in machine arithmetic -/

namespace RUSure.Lemmas.Rnd
open RUSure RUSure.Spec RUSure.Lemmas RUSure.Rounded RUSure.Props

variable {A : Arith} {F : ℚ → Prop} {u τ limit : ℚ}

/-! ### changing the costs of edges -/

/-- Change the cost of an edge. -/
def repriceEdge (f : Cost → Cost) (e : PackedEdge) : PackedEdge := { e with cost := f e.cost }

/-- Change the costs of all edges. -/
def reprice (f : Cost → Cost) (d : PackedDag) : PackedDag :=
  { d with edges := d.edges.map (repriceEdge f) }

theorem reprice_wf {f g : Cost → Cost} {d : PackedDag} (wf : PackedWF (reprice f d)) :
    PackedWF (reprice g d) := by
  have hget : ∀ (k : Nat) (e : PackedEdge), (reprice g d).edges[k]? = some e →
      ∃ e0, (reprice f d).edges[k]? = some e0 ∧ e.source = e0.source ∧ e.dest = e0.dest
        ∧ e.req = e0.req := by
    intro k e he
    change (d.edges.map (repriceEdge g))[k]? = some e at he
    rw [List.getElem?_map, Option.map_eq_some_iff] at he
    obtain ⟨e0, he0, rfl⟩ := he
    refine ⟨repriceEdge f e0, ?_, rfl, rfl, rfl⟩
    change (d.edges.map (repriceEdge f))[k]? = _
    rw [List.getElem?_map, he0]
    rfl
  exact {
    sb_zero := wf.sb_zero
    sb_last := wf.sb_last
    sb_mono := wf.sb_mono
    eb_zero := wf.eb_zero
    eb_last := by
      have := wf.eb_last
      unfold reprice at this ⊢
      simpa [PackedDag.eb] using this
    eb_mono := wf.eb_mono
    between := by
      intro τ hτ k e h1 h2 h3
      obtain ⟨e0, he0, e1, e2, e3⟩ := hget k e h3
      rw [e1, e2, e3]
      exact wf.between τ hτ k e0 h1 h2 he0
    assigning := by
      intro τ hτ k e h1 h2 h3
      obtain ⟨e0, he0, e1, e2, e3⟩ := hget k e h3
      rw [e1, e2, e3]
      exact wf.assigning τ hτ k e0 h1 h2 he0
    topo := by
      obtain ⟨t1, t2⟩ := wf.topo
      constructor
      · exact List.pairwise_map.2 (List.pairwise_map.1 t1)
      · intro e he
        obtain ⟨e0, he0, rfl⟩ := List.mem_map.1 he
        exact t2 (repriceEdge f e0) (List.mem_map.2 ⟨e0, he0, rfl⟩)
    start := wf.start
    final := wf.final }

theorem reprice_complete {f : Cost → Cost} {d : PackedDag} {q : List PackedEdge} :
    Complete (reprice f d) q ↔ ∃ p, q = p.map (repriceEdge f) ∧ Complete d p := by
  constructor
  · intro h
    exact walk_unmap (repriceEdge f) (fun _ => rfl) (fun _ => rfl) h
  · rintro ⟨p, rfl, hp⟩
    exact walk_map (repriceEdge f) (fun _ => rfl) (fun _ => rfl) hp

theorem reprice_assignments (f : Cost → Cost) (p : List PackedEdge) :
    assignments (p.map (repriceEdge f)) = assignments p := by
  unfold assignments
  rw [List.filterMap_map]
  rfl

/-! ### costs that are close to each other -/

/-- Both costs are infinite, or they differ by at most `δ`. -/
def NearCost (δ : ℚ) (x0 x1 : Cost) : Prop :=
  (x0 = ⊤ ∧ x1 = ⊤) ∨ ∃ q0 q1 : ℚ, x0 = q0 ∧ x1 = q1 ∧ |q1 - q0| ≤ δ

theorem NearCost.add {δ ε : ℚ} {x0 x1 y0 y1 : Cost} (h : NearCost δ x0 x1) (h' : NearCost ε y0 y1) :
    NearCost (δ + ε) (x0 + y0) (x1 + y1) := by
  rcases h with ⟨rfl, rfl⟩ | ⟨p0, p1, rfl, rfl, h⟩
  · exact .inl (by simp)
  · rcases h' with ⟨rfl, rfl⟩ | ⟨q0, q1, rfl, rfl, h'⟩
    · exact .inl (by simp)
    · refine .inr ⟨p0 + q0, p1 + q1, by rw [WithTop.coe_add], by rw [WithTop.coe_add], ?_⟩
      rw [show p1 + q1 - (p0 + q0) = (p1 - p0) + (q1 - q0) by ring]
      exact (abs_add_le _ _).trans (add_le_add h h')

theorem NearCost.lt_top {δ : ℚ} {x0 x1 : Cost} (h : NearCost δ x0 x1) : x0 < ⊤ ↔ x1 < ⊤ := by
  rcases h with ⟨rfl, rfl⟩ | ⟨p0, p1, rfl, rfl, -⟩
  · rfl
  · simp

theorem NearCost.right_le {δ : ℚ} {x0 x1 : Cost} (h : NearCost δ x0 x1) : x1 ≤ x0 + (δ : Cost) := by
  rcases h with ⟨rfl, rfl⟩ | ⟨p0, p1, rfl, rfl, h⟩
  · simp
  · rw [← WithTop.coe_add]
    apply WithTop.coe_le_coe.2
    linarith [(abs_le.1 h).2]

theorem NearCost.left_le {δ : ℚ} {x0 x1 : Cost} (h : NearCost δ x0 x1) : x0 ≤ x1 + (δ : Cost) := by
  rcases h with ⟨rfl, rfl⟩ | ⟨p0, p1, rfl, rfl, h⟩
  · simp
  · rw [← WithTop.coe_add]
    apply WithTop.coe_le_coe.2
    linarith [(abs_le.1 h).1]

theorem edges_near (hA : AccurateArith A F u τ limit) {d : PackedDag} {s : ℚ}
    (hm : ∀ e ∈ d.edges, ∀ x : ℚ, e.cost = x → F x ∧ |x * s| ≤ limit) :
    ∀ (p : List PackedEdge) (l : List ℚ), (∀ e ∈ p, e ∈ d.edges) →
    p.map PackedEdge.cost = l.map (fun x : ℚ => (x : Cost)) →
    NearCost (u * (l.map fun x => |x * s|).sum + p.length * τ)
      (weight PackedEdge.cost (p.map (repriceEdge fun c => c.map (· * s))))
      (weight PackedEdge.cost (p.map (repriceEdge fun c => A.mul c s))) := by
  intro p
  induction p with
  | nil =>
    intro l _ h
    obtain rfl : l = [] := by simpa using h.symm
    exact .inr ⟨0, 0, rfl, rfl, by simp⟩
  | cons e p ih =>
    intro l hp h
    cases l with
    | nil => simp at h
    | cons x l =>
      simp only [List.map_cons, List.cons.injEq] at h
      obtain ⟨h1, h2⟩ := hm e (hp e (by simp)) x h.1
      obtain ⟨r, -, r2, r3⟩ := hA.mul x s h1 h2
      have i := ih l (fun e' he' => hp e' (List.mem_cons_of_mem _ he')) h.2
      have hx : NearCost (u * |x * s| + τ) ((repriceEdge (fun c => c.map (· * s)) e).cost)
          ((repriceEdge (fun c => A.mul c s) e).cost) := by
        refine .inr ⟨x * s, r, ?_, ?_, r3⟩
        · change e.cost.map (· * s) = _
          rw [h.1]; rfl
        · change A.mul e.cost s = _
          rw [h.1]; exact r2
      have := hx.add i
      simp only [weight, List.map_cons, List.sum_cons, List.length_cons] at this ⊢
      have e1 : u * (|x * s| + (l.map fun x => |x * s|).sum) + ((p.length + 1 : ℕ) : ℚ) * τ
          = u * |x * s| + τ + (u * (l.map fun x => |x * s|).sum + p.length * τ) := by
        push_cast; ring
      rw [e1]
      exact this

theorem NearCost.mono {δ ε : ℚ} {x0 x1 : Cost} (h : NearCost δ x0 x1) (hle : δ ≤ ε) :
    NearCost ε x0 x1 := by
  rcases h with h | ⟨p0, p1, h1, h2, h3⟩
  · exact .inl h
  · exact .inr ⟨p0, p1, h1, h2, h3.trans hle⟩

theorem path_near (hA : AccurateArith A F u τ limit) (hu : 0 ≤ u) (hτ : 0 ≤ τ) {d : PackedDag} {s : ℚ}
    {n : Nat} {M : ℚ} (h : ScaleInRange F limit d s n M) {p : List PackedEdge} (hp : Complete d p) :
    NearCost (u * M + n * τ)
      (weight PackedEdge.cost (p.map (repriceEdge fun c => c.map (· * s))))
      (weight PackedEdge.cost (p.map (repriceEdge fun c => A.mul c s))) := by
  by_cases hf : ∀ e ∈ p, e.cost ≠ ⊤
  · have hl : ∃ l : List ℚ, p.map PackedEdge.cost = l.map (fun x : ℚ => (x : Cost)) := by
      clear hp
      induction p with
      | nil => exact ⟨[], rfl⟩
      | cons e p ih =>
        obtain ⟨l, hl⟩ := ih fun e he => hf e (List.mem_cons_of_mem _ he)
        obtain ⟨x, hx⟩ := WithTop.ne_top_iff_exists.1 (hf e (by simp))
        exact ⟨x :: l, by rw [List.map_cons, List.map_cons, hl, hx]⟩
    obtain ⟨l, hl⟩ := hl
    refine (edges_near hA h.member p l (complete_mem hp) hl).mono ?_
    have h1 := mul_le_mul_of_nonneg_left (h.total p hp l hl) hu
    have h2 : (p.length : ℚ) ≤ n := by exact_mod_cast h.length p hp
    have h3 := mul_le_mul_of_nonneg_right h2 hτ
    linarith
  · push Not at hf
    obtain ⟨e, he, htop⟩ := hf
    have hsum : ∀ f : Cost → Cost, f ⊤ = ⊤ →
        weight PackedEdge.cost (p.map (repriceEdge f)) = ⊤ := by
      intro f hft
      by_contra hne
      have hlt := lt_top_iff_ne_top.2 hne
      unfold weight at hlt
      rw [sum_lt_top] at hlt
      have := hlt (f e.cost) (List.mem_map.2 ⟨repriceEdge f e, List.mem_map.2 ⟨e, he, rfl⟩, rfl⟩)
      rw [htop, hft] at this
      exact lt_irrefl _ this
    exact .inl ⟨hsum _ rfl, hsum _ (A.mul_top s)⟩

/-! ### systems with costs that are close to each other -/

/-- The same DAG with the same variables, scaled exactly and by the machine. -/
def SubNear (A : Arith) (F : ℚ → Prop) (limit : ℚ) (n : Nat) (M : ℚ) (s0 s1 : Sub) : Prop :=
  s1.index = s0.index ∧ ∃ d s, s0.memo.dag = PackedDag.scale d s ∧ s1.memo.dag = scaleDag A d s
    ∧ ScaleInRange F limit d s n M

/-- A path that assigns these values. -/
def Fits (a : Nat → Nat) (s : Sub) (p : List PackedEdge) : Prop :=
  Complete s.memo.dag p ∧ ∀ v k x, s.index v = some k → (k, x) ∈ assignments p → x = a v

theorem sub_near (hA : AccurateArith A F u τ limit) (hu : 0 ≤ u) (hτ : 0 ≤ τ) {n : Nat} {M : ℚ}
    {s0 s1 : Sub} (h : SubNear A F limit n M s0 s1) (a : Nat → Nat) :
    (∀ p0, Fits a s0 p0 → ∃ p1, Fits a s1 p1 ∧ NearCost (u * M + n * τ)
      (weight PackedEdge.cost p0) (weight PackedEdge.cost p1))
    ∧ ∀ p1, Fits a s1 p1 → ∃ p0, Fits a s0 p0 ∧ NearCost (u * M + n * τ)
      (weight PackedEdge.cost p0) (weight PackedEdge.cost p1) := by
  obtain ⟨hi, d, s, h0, h1, hr⟩ := h
  have h0' : s0.memo.dag = reprice (fun c => c.map (· * s)) d := h0
  have h1' : s1.memo.dag = reprice (fun c => A.mul c s) d := h1
  constructor
  · rintro p0 ⟨hc, ha⟩
    rw [h0', reprice_complete] at hc
    obtain ⟨p, rfl, hp⟩ := hc
    refine ⟨p.map (repriceEdge fun c => A.mul c s), ⟨?_, ?_⟩, path_near hA hu hτ hr hp⟩
    · rw [h1', reprice_complete]; exact ⟨p, rfl, hp⟩
    · rw [reprice_assignments, hi]
      rw [reprice_assignments] at ha
      exact ha
  · rintro p1 ⟨hc, ha⟩
    rw [h1', reprice_complete] at hc
    obtain ⟨p, rfl, hp⟩ := hc
    refine ⟨p.map (repriceEdge fun c => c.map (· * s)), ⟨?_, ?_⟩, path_near hA hu hτ hr hp⟩
    · rw [h0', reprice_complete]; exact ⟨p, rfl, hp⟩
    · rw [reprice_assignments, ← hi]
      rw [reprice_assignments] at ha
      exact ha

theorem subs_near (hA : AccurateArith A F u τ limit) (hu : 0 ≤ u) (hτ : 0 ≤ τ) {n : Nat} {M : ℚ}
    {ss0 ss1 : List Sub} (h : List.Forall₂ (SubNear A F limit n M) ss0 ss1) (a : Nat → Nat) :
    (∀ ps0, List.Forall₂ (Fits a) ss0 ps0 → ∃ ps1, List.Forall₂ (Fits a) ss1 ps1
      ∧ NearCost (ss0.length * (u * M + n * τ)) (ps0.map (weight PackedEdge.cost)).sum
        (ps1.map (weight PackedEdge.cost)).sum)
    ∧ ∀ ps1, List.Forall₂ (Fits a) ss1 ps1 → ∃ ps0, List.Forall₂ (Fits a) ss0 ps0
      ∧ NearCost (ss0.length * (u * M + n * τ)) (ps0.map (weight PackedEdge.cost)).sum
        (ps1.map (weight PackedEdge.cost)).sum := by
  have e : ∀ (k : Nat) (δ : ℚ), ((k + 1 : ℕ) : ℚ) * δ = δ + k * δ := by intros; push_cast; ring
  induction h with
  | nil =>
    refine ⟨fun ps hp => ⟨[], .nil, ?_⟩, fun ps hp => ⟨[], .nil, ?_⟩⟩ <;>
    · cases hp
      exact .inr ⟨0, 0, rfl, rfl, by simp⟩
  | @cons s0 s1 ss0 ss1 h1 _ ih =>
    obtain ⟨g1, g2⟩ := sub_near hA hu hτ h1 a
    constructor
    · intro ps hp
      cases hp with
      | cons p1 p2 =>
        obtain ⟨q, q1, q2⟩ := g1 _ p1
        obtain ⟨qs, r1, r2⟩ := ih.1 _ p2
        refine ⟨q :: qs, .cons q1 r1, ?_⟩
        rw [List.length_cons, e, List.map_cons, List.map_cons, List.sum_cons, List.sum_cons]
        exact q2.add r2
    · intro ps hp
      cases hp with
      | cons p1 p2 =>
        obtain ⟨q, q1, q2⟩ := g2 _ p1
        obtain ⟨qs, r1, r2⟩ := ih.2 _ p2
        refine ⟨q :: qs, .cons q1 r1, ?_⟩
        rw [List.length_cons, e, List.map_cons, List.map_cons, List.sum_cons, List.sum_cons]
        exact q2.add r2

/-- The same system, with costs scaled exactly and by the machine. -/
structure SysNear (A : Arith) (F : ℚ → Prop) (limit : ℚ) (n : Nat) (M : ℚ) (S0 S1 : System) :
    Prop where
  keys : S1.numKeys = S0.numKeys
  values : S1.numValues = S0.numValues
  extra : S1.extra = S0.extra
  zero : S0.extra = fun _ _ => 0
  subs : List.Forall₂ (SubNear A F limit n M) S0.subs S1.subs

theorem SysNear.cost {n : Nat} {M : ℚ} {S0 S1 : System} (h : SysNear A F limit n M S0 S1)
    (a : Nat → Nat) (ps : List (List PackedEdge)) :
    jointCost S0 a ps = (ps.map (weight PackedEdge.cost)).sum
    ∧ jointCost S1 a ps = (ps.map (weight PackedEdge.cost)).sum := by
  have h0 : ∀ k : Nat, ((List.range k).map fun _ => (0 : Cost)).sum = 0 :=
    fun k => List.sum_eq_zero (by simp)
  unfold jointCost
  rw [h.extra, h.zero]
  constructor <;> rw [h0, add_zero]

theorem SysNear.joint (hA : AccurateArith A F u τ limit) (hu : 0 ≤ u) (hτ : 0 ≤ τ) {n : Nat} {M : ℚ}
    {S0 S1 : System} (h : SysNear A F limit n M S0 S1) (a : Nat → Nat) :
    (∀ ps0, Joint S0 a ps0 → ∃ ps1, Joint S1 a ps1
      ∧ NearCost (scaleError u τ S0.subs.length n M) (jointCost S0 a ps0) (jointCost S1 a ps1))
    ∧ ∀ ps1, Joint S1 a ps1 → ∃ ps0, Joint S0 a ps0
      ∧ NearCost (scaleError u τ S0.subs.length n M) (jointCost S0 a ps0) (jointCost S1 a ps1) := by
  obtain ⟨g1, g2⟩ := subs_near hA hu hτ h.subs a
  constructor
  · rintro ps ⟨hv, hp⟩
    obtain ⟨qs, q1, q2⟩ := g1 ps hp
    refine ⟨qs, ⟨by rw [h.keys, h.values]; exact hv, q1⟩, ?_⟩
    rw [(h.cost a _).1, (h.cost a _).2]
    exact q2
  · rintro ps ⟨hv, hp⟩
    obtain ⟨qs, q1, q2⟩ := g2 ps hp
    refine ⟨qs, ⟨by rw [← h.keys, ← h.values]; exact hv, q1⟩, ?_⟩
    rw [(h.cost a _).1, (h.cost a _).2]
    exact q2

theorem SysNear.guards (hA : AccurateArith A F u τ limit) (hu : 0 ≤ u) (hτ : 0 ≤ τ) {n : Nat} {M : ℚ}
    {S0 S1 : System} (h : SysNear A F limit n M S0 S1) {w : View} (hw : w ∈ views S0)
    (hg : Guards S0 w) : ∃ s1 ∈ S1.subs, Guards S1 s1.view := by
  obtain ⟨s0, hs0, rfl⟩ := List.mem_map.1 hw
  have hsame : List.Forall₂ (fun s s' : Sub => s = s') S1.subs S1.subs :=
    List.forall₂_same.2 fun _ _ => rfl
  obtain ⟨s1, -, hs1, -, hr, -⟩ := forall₂_triple h.subs hsame s0 hs0
  have hi : s1.index = s0.index := hr.1
  refine ⟨s1, hs1, ⟨?_, ?_⟩⟩
  · intro v hv
    change ∃ k, s1.index v = some k
    rw [hi]
    exact hg.total v (by rw [← h.keys]; exact hv)
  · intro b p hb hp hfin hbp
    have hr' := (sub_near hA hu hτ hr b).2 p ⟨hp, hbp⟩
    obtain ⟨p0, ⟨c1, c2⟩, c3⟩ := hr'
    obtain ⟨ps0, j1, j2⟩ := hg.extends_ b p0 (by rw [← h.keys, ← h.values]; exact hb) c1
      (c3.lt_top.2 hfin) c2
    obtain ⟨ps1, k1, k2⟩ := (h.joint hA hu hτ b).1 ps0 j1
    exact ⟨ps1, k1, k2.lt_top.1 j2⟩

/-! ### what is built -/

section
variable {T E S I M : Type} [DecidableEq S] {total : List ℚ → ℚ} {invalid : Cost}
  {make : T → Except E (Dag S DecisionKey DecisionValue I)} {proto : List (Node M)} {targets : List T}
  {factors : Option (List ℚ)} {B : BuiltSystem S I}

/-- A system built by the machine, together with the one whose costs are scaled exactly. -/
structure RBuilt (A : Arith) (invalid : Cost)
    (make : T → Except E (Dag S DecisionKey DecisionValue I)) (proto : List (Node M))
    (l : List (T × ℚ)) (w : ℚ) (B : BuiltSystem S I) (B0 : BuiltSystem S I) : Prop where
  exact : Built invalid make proto l w B0
  utilities : B0.utilities = B.utilities
  constraint : B0.constraint = B.constraint
  system : makeSystem invalid (B.utilities.map (entry A) ++ [entry A B.constraint])
    (some (B.utilities.map Part.scale ++ [w])) = .ok B.system

theorem makeSystem_reprice {K V : Type} [LinearOrder K] [DecidableEq V] {invalid : Cost}
    {dags dags' : List (PackedDag × List K × List V)} {weights : Option (List ℚ)} {D : DualSystem K V}
    (h : makeSystem invalid dags weights = .ok D)
    (he : dags'.map Prod.snd = dags.map Prod.snd) :
    ∃ D', makeSystem invalid dags' weights = .ok D' := by
  obtain ⟨e1, e2⟩ := C35_errors invalid dags' weights
  cases hr : makeSystem invalid dags' weights with
  | ok D => exact ⟨D, rfl⟩
  | error e =>
    obtain ⟨-, h2, h3, -⟩ := makeSystem_ok h
    cases e with
    | noDags =>
      rw [e1.1 hr] at he
      exact absurd (by simpa using he.symm) h3
    | valuesDiffer =>
      obtain ⟨d, hd, d', hd', hne⟩ := e2.1 hr
      have hval : ∀ d ∈ dags', d.2.2 = D.values := by
        intro d hd
        have : d.2 ∈ dags.map Prod.snd := by rw [← he]; exact List.mem_map.2 ⟨d, hd, rfl⟩
        obtain ⟨d0, hd0, h0⟩ := List.mem_map.1 this
        rw [← h0]
        exact h2 d0 hd0
      exact absurd ((hval d hd).trans (hval d' hd').symm) hne

omit [DecidableEq S] in
theorem entries_snd (A : Arith) (ps : List (Part S I)) (pc : Part ConstraintState Bool) :
    (ps.map Part.entry ++ [pc.entry]).map Prod.snd
      = (ps.map (entry A) ++ [entry A pc]).map Prod.snd := by
  rw [List.map_append, List.map_append, List.map_map, List.map_map]
  rfl

theorem rbuilt_of (hpos : ∀ f ∈ machineWeights A targets.length factors, 0 < f)
    (htot : 0 < total (machineWeights A targets.length factors))
    (hg : ∀ t ∈ targets, ∀ d, make t = .ok d → GoodUtility proto d)
    (h : Rounded.buildSystem A total invalid make proto targets factors = .ok B) :
    ∃ B0, RBuilt A invalid make proto (targets.zip (machineWeights A targets.length factors))
      (total (machineWeights A targets.length factors)) B B0 := by
  have hfs : ∀ fs, Rounded.scaleFactors (E := E) A targets.length factors = .ok fs →
      fs = machineWeights A targets.length factors := by
    intro fs hfs
    cases factors with
    | none =>
      unfold Rounded.scaleFactors at hfs
      dsimp only at hfs
      split at hfs
      · cases hfs
      · exact (Except.ok.inj hfs).symm
    | some fs' => exact (Except.ok.inj hfs).symm
  unfold Rounded.buildSystem at h
  split at h
  · cases h
  rename_i fs hfs'
  obtain rfl := hfs fs hfs'
  split at h
  · cases h
  rename_i ps hps
  split at h
  · cases h
  rename_i dc hdc
  split at h
  · cases h
  rename_i pc hpc
  split at h
  · cases h
  rename_i D hD
  injection h with h
  subst h
  obtain ⟨cc, hcc, rfl⟩ := packPart_ok hpc
  obtain ⟨D0, hD0⟩ := makeSystem_reprice hD (entries_snd A ps _)
  exact ⟨⟨D0, ps, _⟩, ⟨fun ts hts => hpos _ (List.of_mem_zip (a := ts.1) (b := ts.2) hts).2, htot,
    fun ts hts => hg _ (List.of_mem_zip (a := ts.1) (b := ts.2) hts).1,
    utilityParts_inv _ _ hps, ⟨dc, cc, hdc, hcc, rfl⟩, hD0⟩, rfl, rfl, hD⟩

theorem rbuild_total (hne : factors = none → targets ≠ [])
    (hg : ∀ t ∈ targets, ∃ d, make t = .ok d ∧ GoodUtility proto d) :
    ∃ B, Rounded.buildSystem A total invalid make proto targets factors = .ok B := by
  have hfs : Rounded.scaleFactors (E := E) A targets.length factors
      = .ok (machineWeights A targets.length factors) := by
    cases factors with
    | none =>
      have : targets.length ≠ 0 := fun hc => hne rfl (List.length_eq_zero_iff.1 hc)
      simp only [Rounded.scaleFactors, if_neg this]; rfl
    | some fs => rfl
  obtain ⟨ps, hps⟩ := utilityParts_total (proto := proto) (make := make)
    (targets.zip (machineWeights A targets.length factors))
    (fun ts hts => hg _ (List.of_mem_zip (a := ts.1) (b := ts.2) hts).1)
  obtain ⟨dc, hdc⟩ := C42_builds proto
  obtain ⟨⟨cc, hcc⟩, -⟩ := C45_constraint_packs proto dc hdc
  have hpc : packPart (E := E) dc (total (machineWeights A targets.length factors))
      = .ok ⟨dc.prune, cc, total (machineWeights A targets.length factors)⟩ := by
    unfold packPart; rw [hcc]
  have hvals : ∀ e ∈ ps.map (entry A)
      ++ [entry A (⟨dc.prune, cc, total (machineWeights A targets.length factors)⟩ :
        Part ConstraintState Bool)], e.2.2 = allValues := by
    have hparts := utilityParts_inv _ _ hps
    intro e he
    rcases List.mem_append.1 he with he | he
    · obtain ⟨p, hp, rfl⟩ := List.mem_map.1 he
      obtain ⟨ts, hts, d, c, hd, hc, rfl⟩ := forall₂_mem_right' hparts hp
      obtain ⟨d', hd', hg'⟩ := hg _ (List.of_mem_zip (a := ts.1) (b := ts.2) hts).1
      rw [hd] at hd'
      obtain rfl := Except.ok.inj hd'
      exact (convert_values (prune_topo d hg'.topo) hc).1
    · simp only [List.mem_singleton] at he
      subst he
      exact (convert_values (prune_topo dc (C45_constraint proto dc hdc).1) hcc).1
  generalize hL : ps.map (entry A)
      ++ [entry A (⟨dc.prune, cc, total (machineWeights A targets.length factors)⟩ :
        Part ConstraintState Bool)] = L at hvals
  have hsys : ∃ D, makeSystem invalid L
      (some (ps.map Part.scale ++ [total (machineWeights A targets.length factors)])) = .ok D := by
    obtain ⟨e1, e2⟩ := C35_errors invalid L
      (some (ps.map Part.scale ++ [total (machineWeights A targets.length factors)]))
    cases hr : makeSystem invalid L
        (some (ps.map Part.scale ++ [total (machineWeights A targets.length factors)])) with
    | ok D => exact ⟨D, rfl⟩
    | error e =>
      cases e with
      | noDags => exact absurd (e1.1 hr) (by rw [← hL]; simp)
      | valuesDiffer =>
        obtain ⟨e, he, e', he', hne⟩ := e2.1 hr
        exact absurd ((hvals e he).trans (hvals e' he').symm) hne
  obtain ⟨D, hD⟩ := hsys
  refine ⟨⟨D, ps, ⟨dc.prune, cc, total (machineWeights A targets.length factors)⟩⟩, ?_⟩
  unfold Rounded.buildSystem
  rw [hfs]; dsimp only
  rw [hps]; dsimp only
  rw [hdc]; dsimp only
  rw [hpc]; dsimp only
  rw [hL, hD]

variable {l : List (T × ℚ)} {w : ℚ} {B0 : BuiltSystem S I}

theorem RBuilt.good (h : RBuilt A invalid make proto l w B B0) :
    ∀ d ∈ B.utilities.map (entry A) ++ [entry A B.constraint],
      GoodDag d ∧ d.2.1 = seqKeys 0 proto ∧ d.2.2 = allValues := by
  have he := h.exact.entries
  rw [h.utilities, h.constraint] at he
  have key : ∀ {S I : Type} (p : Part S I), GoodDag p.entry ∧ p.entry.2.1 = seqKeys 0 proto
      ∧ p.entry.2.2 = allValues → GoodDag (entry A p) ∧ (entry A p).2.1 = seqKeys 0 proto
      ∧ (entry A p).2.2 = allValues := by
    rintro S I p ⟨g, h1, h2⟩
    refine ⟨⟨?_, g.keys_nodup, g.keys_length, g.values_length⟩, h1, h2⟩
    exact reprice_wf (f := fun c => c.map (· * p.scale)) (g := fun c => A.mul c p.scale) g.wf
  intro d hd
  rcases List.mem_append.1 hd with hd | hd
  · obtain ⟨p, hp, rfl⟩ := List.mem_map.1 hd
    exact key p (he _ (List.mem_append_left _ (List.mem_map.2 ⟨p, hp, rfl⟩)))
  · rw [List.mem_singleton.1 hd]
    exact key _ (he _ (by simp))

theorem RBuilt.weights (h : RBuilt A invalid make proto l w B B0) :
    GoodWeights (B.utilities.map (entry A) ++ [entry A B.constraint]).length
      (some (B.utilities.map Part.scale ++ [w])) := by
  have := h.exact.weights
  rw [h.utilities, h.constraint] at this
  simpa using this

theorem RBuilt.length (h : RBuilt A invalid make proto l w B B0) :
    (B.utilities.map (entry A) ++ [entry A B.constraint]).length = l.length + 1 := by
  have := h.exact.parts.length_eq
  rw [h.utilities] at this
  simp [this]

theorem RBuilt.keys (h : RBuilt A invalid make proto l w B B0) : B.system.keys = B0.system.keys := by
  obtain ⟨a1, -⟩ := makeSystem_ok h.exact.system
  obtain ⟨b1, -⟩ := makeSystem_ok h.system
  rw [h.utilities, h.constraint] at a1
  have e1 : ∀ L : List (PackedDag × List DecisionKey × List DecisionValue),
      (L.flatMap fun d => d.2.1) = (L.map Prod.snd).flatMap fun d => d.1 := by
    intro L; rw [List.flatMap_map]
  rw [a1, b1]
  unfold systemKeys
  rw [e1, e1, entries_snd A]

theorem RBuilt.near (h : RBuilt A invalid make proto l w B B0) {n : Nat} {size : ℚ}
    (hr : PartsInRange F limit B n size) :
    SysNear A F limit n size B0.system.data B.system.data
    ∧ B.system.keys = B0.system.keys ∧ B.system.values = B0.system.values
    ∧ B0.system.data.subs.length = l.length + 1 := by
  obtain ⟨a1, a2, a3, a4, a5, a6, a7⟩ := makeSystem_ok h.exact.system
  obtain ⟨b1, b2, b3, b4, b5, b6, b7⟩ := makeSystem_ok h.system
  rw [h.utilities, h.constraint] at a1 a2 a7
  have hsk : systemKeys (B.utilities.map Part.entry ++ [B.constraint.entry])
      = systemKeys (B.utilities.map (entry A) ++ [entry A B.constraint]) := by
    have e1 : ∀ L : List (PackedDag × List DecisionKey × List DecisionValue),
        (L.flatMap fun d => d.2.1) = (L.map Prod.snd).flatMap fun d => d.1 := by
      intro L; rw [List.flatMap_map]
    unfold systemKeys
    rw [e1, e1, entries_snd A]
  have hk := h.keys
  have hv : B.system.values = B0.system.values :=
    (b2 (entry A B.constraint) (by simp)).symm.trans (a2 B.constraint.entry (by simp))
  have hpl : B.utilities.length = l.length := by
    have := h.exact.parts.length_eq
    rw [h.utilities] at this
    exact this.symm
  refine ⟨⟨by rw [a4, b4, hk], by rw [a5, b5, hv], by rw [a6, b6], a6, ?_⟩, hk, hv, ?_⟩
  · rw [a7, b7, hsk]
    have hgen : ∀ {S I : Type} (p : Part S I) (i : Nat),
        ScaleInRange F limit p.conversion.packed p.scale n size →
        SubNear A F limit n size
          ⟨emptyUnpenalizedTable invalid p.entry.1,
            indexColumn (systemKeys (B.utilities.map (entry A) ++ [entry A B.constraint])) p.entry.2.1,
            subWeight (some (B.utilities.map Part.scale ++ [w])) i⟩
          ⟨emptyUnpenalizedTable invalid (entry A p).1,
            indexColumn (systemKeys (B.utilities.map (entry A) ++ [entry A B.constraint]))
              (entry A p).2.1, subWeight (some (B.utilities.map Part.scale ++ [w])) i⟩ :=
      fun p i hp => ⟨rfl, p.conversion.packed, p.scale, rfl, rfl, hp⟩
    have hcat : ∀ (ps : List (Part S I)) (k : Nat), (∀ p ∈ ps, p ∈ B.utilities) →
        List.Forall₂ (SubNear A F limit n size)
          (((ps.map Part.entry ++ [B.constraint.entry]).zipIdx k).map fun x =>
            (⟨emptyUnpenalizedTable invalid x.1.1,
              indexColumn (systemKeys (B.utilities.map (entry A) ++ [entry A B.constraint])) x.1.2.1,
              subWeight (some (B.utilities.map Part.scale ++ [w])) x.2⟩ : Sub))
          (((ps.map (entry A) ++ [entry A B.constraint]).zipIdx k).map fun x =>
            (⟨emptyUnpenalizedTable invalid x.1.1,
              indexColumn (systemKeys (B.utilities.map (entry A) ++ [entry A B.constraint])) x.1.2.1,
              subWeight (some (B.utilities.map Part.scale ++ [w])) x.2⟩ : Sub)) := by
      intro ps
      induction ps with
      | nil => intro k _; exact .cons (hgen _ _ hr.constraint) .nil
      | cons p ps ih =>
        intro k hp
        exact .cons (hgen _ _ (hr.utilities p (hp p (by simp))))
          (ih (k + 1) fun p' hp' => hp p' (List.mem_cons_of_mem _ hp'))
    exact hcat B.utilities 0 fun _ h => h
  · rw [a7]; simp [hpl]

end

end RUSure.Lemmas.Rnd
