import Verif.Lemmas.SystemSolve
import Verif.Spec.Solution
import Mathlib.Tactic.FieldSimp
import Mathlib.Tactic.Ring

/-!
# The best path under some decisions, and statistics of costs
-/

namespace RUSure.Lemmas
open RUSure RUSure.Spec RUSure.Props

/-! ## The best path -/

section
variable {S I : Type} [DecidableEq S]

/-- The path makes the decisions `a`. -/
def AgreesOn (a : Decisions) (w : List (Edge S DecisionKey DecisionValue I)) : Prop :=
  ∀ kv ∈ a, (valueOn w kv.1).getD .na = kv.2

theorem mapAll_eq {A B : Type} {f : A → Option B} : ∀ {l : List A}, (∀ a ∈ l, ∃ b, f a = some b) →
    ∃ r, mapAll f l = some r ∧ List.Forall₂ (fun a b => f a = some b) l r := by
  intro l
  induction l with
  | nil => intro _; exact ⟨[], rfl, .nil⟩
  | cons x l ih =>
    intro h
    obtain ⟨b, hb⟩ := h x (by simp)
    obtain ⟨r, hr, hf⟩ := ih fun y hy => h y (List.mem_cons_of_mem _ hy)
    exact ⟨b :: r, by simp [mapAll, hb, hr], .cons hb hf⟩

theorem mapAll_none {A B : Type} {f : A → Option B} : ∀ {l : List A} {a : A}, a ∈ l → f a = none →
    mapAll f l = none := by
  intro l
  induction l with
  | nil => intro a h; simp at h
  | cons x l ih =>
    intro a h hf
    rcases List.mem_cons.1 h with rfl | h
    · simp [mapAll, hf]
    · have := ih h hf
      unfold mapAll
      rw [this]
      cases f x <;> rfl

/-- The numbers of a decision. -/
def pairIndex (keys : List DecisionKey) (values : List DecisionValue) (kv : DecisionKey × DecisionValue) :
    Option (Nat × Nat) :=
  (dictIndex keys kv.1).bind fun i => (dictIndex values kv.2).map fun j => (i, j)

theorem bestPath_spec {d : Dag S DecisionKey DecisionValue I}
    (ht : Topo Edge.source Edge.dest d.edges) {c : Conversion S DecisionKey DecisionValue}
    (h : d.prune.convert .na (some allValues) = .ok c) {s : ℚ} (hs : 0 < s) (invalid : Cost)
    {a : Decisions} (hnd : (a.map Prod.fst).Nodup) (hk : ∀ kv ∈ a, kv.1 ∈ c.keys)
    (hex : ∃ w, DagSolution d w ∧ AgreesOn a w) :
    ∃ w, (Part.mk d.prune c s).bestPath invalid a = .ok w ∧ DagSolution d w ∧ AgreesOn a w
      ∧ ∀ w', DagSolution d w' → AgreesOn a w' → weight Edge.cost w ≤ weight Edge.cost w' := by
  have htp := prune_topo d ht
  obtain ⟨wf, hkn, hsort, -, -⟩ := C27_convert d.prune htp _ _ c h
  obtain ⟨hv, -⟩ := convert_values htp h
  have hknd : c.keys.Nodup := hsort.imp fun h => ne_of_lt h
  obtain ⟨wfs, -, hk', hv', -⟩ := C34_scale_paths c.packed wf s hs
  -- the numbers of the decisions
  obtain ⟨cs, hcs, hf⟩ := mapAll_eq (f := pairIndex c.keys c.values) (l := a) (by
    intro kv hkv
    obtain ⟨i, hi⟩ := dictIndex_isSome (hk kv hkv)
    obtain ⟨j, hj⟩ := dictIndex_isSome (l := c.values) (a := kv.2) (by
      rw [hv]; cases kv.2 <;> simp [allValues])
    exact ⟨(i, j), by simp [pairIndex, hi, hj]⟩)
  have hmem : ∀ {x : Nat × Nat}, x ∈ cs → ∃ kv ∈ a, c.keys[x.1]? = some kv.1 ∧ c.values[x.2]? = some kv.2 := by
    intro x hx
    obtain ⟨kv, hkv, hp⟩ := forall₂_mem_right' hf hx
    refine ⟨kv, hkv, ?_⟩
    unfold pairIndex at hp
    rw [Option.bind_eq_some_iff] at hp
    obtain ⟨i, hi, hp⟩ := hp
    rw [Option.map_eq_some_iff] at hp
    obtain ⟨j, hj, rfl⟩ := hp
    exact ⟨dictIndex_get hi, dictIndex_get hj⟩
  have hmem' : ∀ {kv}, kv ∈ a → ∀ {i j}, c.keys[i]? = some kv.1 → c.values[j]? = some kv.2 → (i, j) ∈ cs := by
    intro kv hkv i j hi hj
    have e1 := dictIndex_of_get hknd hi
    have e2 := dictIndex_of_get (by rw [hv]; exact allValues_nodup) hj
    have : pairIndex c.keys c.values kv = some (i, j) := by simp [pairIndex, e1, e2]
    clear hmem hcs hex
    induction hf with
    | nil => simp at hkv
    | cons h1 _ ih =>
      rcases List.mem_cons.1 hkv with rfl | hkv'
      · rw [this] at h1; rw [← Option.some.inj h1]; simp
      · exact List.mem_cons_of_mem _ (ih (by simp at hnd; exact hnd.2)
          (fun kv h => hk kv (List.mem_cons_of_mem _ h)) hkv')
  have hcsnd : (cs.map Prod.fst).Nodup := by
    clear hmem hmem' hcs hex
    induction hf with
    | nil => simp
    | @cons kv x a cs h1 hf ih =>
      rw [List.map_cons, List.nodup_cons] at hnd ⊢
      refine ⟨?_, ih hnd.2 fun kv h => hk kv (List.mem_cons_of_mem _ h)⟩
      intro hc
      obtain ⟨y, hy, hxy⟩ := List.mem_map.1 hc
      obtain ⟨kv', hkv', hp⟩ := forall₂_mem_right' hf hy
      refine hnd.1 (List.mem_map.2 ⟨kv', hkv', ?_⟩)
      unfold pairIndex at hp h1
      rw [Option.bind_eq_some_iff] at hp h1
      obtain ⟨i, hi, hp⟩ := hp
      obtain ⟨i', hi', h1⟩ := h1
      rw [Option.map_eq_some_iff] at hp h1
      obtain ⟨j, hj, rfl⟩ := hp
      obtain ⟨j', hj', rfl⟩ := h1
      simp only at hxy
      subst hxy
      exact dictIndex_inj hi hi'
  have hlt : ∀ x ∈ cs, x.1 < (c.packed.scale s).numKeys := by
    intro x hx
    obtain ⟨kv, -, h1, -⟩ := hmem hx
    rw [hk', hkn]; exact (List.getElem?_eq_some_iff.1 h1).1
  -- agreement
  have hagree : ∀ q, IndexedPath c.packed q → Complete c.packed (q.map Prod.snd) →
      ((∀ kv ∈ cs, kv ∈ assignments (q.map Prod.snd)) ↔ AgreesOn a (c.originalPath d.prune q)) := by
    intro q h1 h2
    obtain ⟨-, -, b3, b4⟩ := C26_backward d.prune htp _ _ c h q h1 h2
    rw [b3, List.map_map] at b4
    have b4 : (assignments (q.map Prod.snd)).map (fun kv => (c.keys[kv.1]?, c.values[kv.2]?))
        = c.keys.map fun k => (some k, some ((valueOn (c.originalPath d.prune q) k).getD .na)) := by
      rw [b4]
      refine List.map_congr_left fun k _ => ?_
      simp only [Function.comp]
      congr
    constructor
    · intro hall kv hkv
      obtain ⟨i, hi⟩ := List.mem_iff_getElem?.1 (hk kv hkv)
      obtain ⟨j, hj⟩ := List.mem_iff_getElem?.1 (show kv.2 ∈ c.values by
        rw [hv]; cases kv.2 <;> simp [allValues])
      have hm := List.mem_map_of_mem (f := fun kv : Nat × Nat => (c.keys[kv.1]?, c.values[kv.2]?))
        (hall _ (hmem' hkv hi hj))
      rw [b4] at hm
      obtain ⟨k, -, he⟩ := List.mem_map.1 hm
      simp only [Function.comp, hi, hj, Prod.mk.injEq, Option.some.injEq] at he
      rw [← he.1]; exact he.2
    · intro hall x hx
      obtain ⟨kv, hkv, h3, h4⟩ := hmem hx
      have hm := List.mem_map_of_mem
        (f := fun k => (some k, some ((valueOn (c.originalPath d.prune q) k).getD .na))) (hk kv hkv)
      rw [← b4] at hm
      obtain ⟨y, hy, he⟩ := List.mem_map.1 hm
      simp only [Function.comp, Prod.mk.injEq] at he
      rw [hall kv hkv, ← h3, ← h4] at he
      have e1 : y.1 = x.1 :=
        (List.getElem?_inj (List.getElem?_eq_some_iff.1 (he.1.trans h3)).1 hknd).1 he.1
      have e2 : y.2 = x.2 :=
        (List.getElem?_inj (List.getElem?_eq_some_iff.1 (he.2.trans h4)).1
          (by rw [hv]; exact allValues_nodup)).1 he.2
      have : y = x := Prod.ext e1 e2
      rw [← this]; exact hy
  -- paths of the scaled DAG
  have hasg : ∀ p : List PackedEdge, assignments (p.map (scaleEdge s)) = assignments p := by
    intro p
    unfold assignments
    rw [List.filterMap_map]
    rfl
  have hscost : ∀ p : List PackedEdge, plainCost (p.map (scaleEdge s)) = (plainCost p).map (· * s) := by
    intro p
    rw [plainCost_eq, plainCost_eq, scale_pathCost]
    rfl
  have hfwd : ∀ w, DagSolution d w → AgreesOn a w → ∃ q, Complete (c.packed.scale s) q
      ∧ (∀ kv ∈ cs, kv ∈ assignments q) ∧ plainCost q = (weight Edge.cost w).map (· * s) := by
    intro w hw hwa
    obtain ⟨q, h1, h2, h3⟩ := C26_forward d.prune htp _ _ c h w ((C23_solutions d ht.1 w).2 hw)
    obtain ⟨-, b2, -⟩ := C26_backward d.prune htp _ _ c h q h1 h2
    refine ⟨(q.map Prod.snd).map (scaleEdge s), walk_map (scaleEdge s) (fun _ => rfl) (fun _ => rfl) h2, ?_, ?_⟩
    · rw [hasg]
      exact (hagree q h1 h2).2 (by rw [h3]; exact hwa)
    · rw [hscost, b2, h3]
  obtain ⟨w0, hw0, hw0a⟩ := hex
  have hw0f : weight Edge.cost w0 < ⊤ := by
    unfold weight
    rw [sum_lt_top, List.forall_mem_map]
    exact hw0.2
  obtain ⟨q0, g1, g2, g3⟩ := hfwd w0 hw0 hw0a
  have hfin : plainCost q0 < ⊤ := by
    rw [g3]
    obtain ⟨r, hr⟩ := WithTop.ne_top_iff_exists.1 hw0f.ne
    rw [← hr]
    exact WithTop.coe_lt_top _
  obtain ⟨q, asg, r1, r2, r3, r4, r5, r6⟩ := C33_constrained (c.packed.scale s) wfs invalid cs hcsnd hlt
    ⟨q0, g1, g2, hfin⟩
  subst r4
  -- the same path in the packed DAG before scaling
  obtain ⟨q', hq', hqs⟩ : ∃ q' : List (Nat × PackedEdge), IndexedPath c.packed q'
      ∧ q = q'.map fun o => (o.1, scaleEdge s o.2) := by
    clear r1 r3 r5 r6
    induction q with
    | nil => exact ⟨[], by intro o ho; simp at ho, rfl⟩
    | cons o q ih =>
      obtain ⟨q', h1, h2⟩ := ih (fun o' ho' => r2 o' (List.mem_cons_of_mem _ ho'))
      have ho := r2 o (by simp)
      change (c.packed.edges.map (scaleEdge s))[o.1]? = some o.2 at ho
      rw [List.getElem?_map, Option.map_eq_some_iff] at ho
      obtain ⟨e, he, he'⟩ := ho
      refine ⟨(o.1, e) :: q', ?_, ?_⟩
      · intro o' ho'
        rcases List.mem_cons.1 ho' with rfl | ho'
        · exact he
        · exact h1 o' ho'
      · rw [h2, List.map_cons, he']
  have hsnd : q.map Prod.snd = (q'.map Prod.snd).map (scaleEdge s) := by
    rw [hqs]; simp
  have horig : c.originalPath d.prune q = c.originalPath d.prune q' := by
    rw [hqs]
    unfold Conversion.originalPath
    rw [List.filterMap_map]
    rfl
  have hcq : Complete c.packed (q'.map Prod.snd) := by
    obtain ⟨p, hp1, hp2⟩ := walk_unmap (scaleEdge s) (fun _ => rfl) (fun _ => rfl) r3
    rw [hsnd] at hp1
    have : q'.map Prod.snd = p :=
      List.map_injective_iff.2 (fun _ _ he => scaleEdge_inj s hs he) hp1
    rw [this]; exact hp2
  obtain ⟨b1, b2, -, -⟩ := C26_backward d.prune htp _ _ c h q' hq' hcq
  refine ⟨c.originalPath d.prune q, ?_, ?_, ?_, ?_⟩
  · unfold Part.bestPath
    change (match mapAll (pairIndex c.keys c.values) a with
      | none => _
      | some cs => _) = _
    rw [hcs]
    dsimp only
    rw [r1]
  · rw [horig]
    exact (C23_solutions d ht.1 _).1 b1
  · rw [horig]
    refine (hagree q' hq' hcq).1 ?_
    rw [← hasg, ← hsnd]; exact r5
  · intro w hw hwa
    obtain ⟨qw, e1, e2, e3⟩ := hfwd w hw hwa
    have h1 := r6 qw e1 e2
    rw [e3, hsnd, hscost, b2, ← horig] at h1
    exact map_mul_lt hs h1

/-- Unknown keys are reported. -/
theorem bestPath_key {p : Part S I} (invalid : Cost) {a : Decisions}
    (hk : ∃ kv ∈ a, kv.1 ∉ p.conversion.keys) : p.bestPath invalid a = .error .key := by
  obtain ⟨kv, hkv, hn⟩ := hk
  unfold Part.bestPath
  rw [mapAll_none hkv]
  cases h : dictIndex p.conversion.keys kv.1 with
  | none => rfl
  | some i => exact absurd (dictIndex_mem h) hn

end

/-! ## The parts of a system -/

section
variable {T E S I M : Type} [DecidableEq S]
  {make : T → Except E (Dag S DecisionKey DecisionValue I)} {proto : List (Node M)}

/-- `w` is the cheapest path for the target that makes the decisions in the dictionary. -/
def CheapestPath (make : T → Except E (Dag S DecisionKey DecisionValue I)) (a : Decisions) (t : T)
    (w : List (Edge S DecisionKey DecisionValue I)) : Prop :=
  ∃ d, make t = .ok d ∧ DagSolution d w ∧ AgreesOn a w
    ∧ ∀ w', DagSolution d w' → AgreesOn a w' → weight Edge.cost w ≤ weight Edge.cost w'

theorem given_best {ts : T × ℚ} {p : Part S I} (hp : PartOf make ts p) (hs : 0 < ts.2)
    (hg : ∀ d, make ts.1 = .ok d → GoodUtility proto d) (invalid : Cost)
    {α : DecisionKey → DecisionValue} (hα : WellFormedRegions α proto) {a : Decisions}
    (ha : Records proto α a) :
    ∃ w, p.bestPath invalid a = .ok w ∧ CheapestPath make a ts.1 w := by
  obtain ⟨d, c, hd, hc, rfl⟩ := hp
  have g := hg d hd
  obtain ⟨w0, hw0, hw0α⟩ := g.serves α hα
  obtain ⟨w, h1, h2, h3, h4⟩ := bestPath_spec g.topo hc hs invalid ha.once
    (fun kv hkv => by rw [g.keys c hc]; exact ha.known kv hkv)
    ⟨w0, hw0, fun kv hkv => by rw [← hw0α _ (ha.known kv hkv), ← ha.agrees kv hkv]⟩
  exact ⟨w, h1, d, hd, h2, h3, h4⟩

theorem sampleCosts_best {l : List (T × ℚ)} {ps : List (Part S I)} (h : List.Forall₂ (PartOf make) l ps)
    (hs : ∀ ts ∈ l, 0 < ts.2) (hg : ∀ ts ∈ l, ∀ d, make ts.1 = .ok d → GoodUtility proto d)
    (invalid : Cost) {α : DecisionKey → DecisionValue} (hα : WellFormedRegions α proto) {a : Decisions}
    (ha : Records proto α a) :
    ∃ ws, sampleCosts invalid a ps = .ok (ws.map (weight Edge.cost))
      ∧ List.Forall₂ (fun ts w => CheapestPath make a ts.1 w) l ws := by
  induction h with
  | nil => exact ⟨[], rfl, .nil⟩
  | @cons ts p l ps h1 _ ih =>
    obtain ⟨w, hw, hb⟩ := given_best h1 (hs ts (by simp)) (hg ts (by simp)) invalid hα ha
    obtain ⟨ws, hws, hf⟩ := ih (fun x hx => hs x (List.mem_cons_of_mem _ hx))
      (fun x hx => hg x (List.mem_cons_of_mem _ hx))
    refine ⟨w :: ws, ?_, .cons hb hf⟩
    simp only [sampleCosts, Part.bestCost, hw, hws, List.map_cons]
    rfl

end

/-! ## Extraction of the parts -/

theorem records_extract {M : Type} {proto : List (Node M)} {α : DecisionKey → DecisionValue}
    (hα : WellFormedRegions α proto) {a : Decisions} (ha : Records proto α a) (marker : Text) :
    extractRegions (pack proto) (fun k => a.lookup k) marker
      = .ok (annotated α marker [] (kept α proto)) := by
  obtain ⟨d, hd⟩ := C42_builds proto
  refine (C43_accepted proto d hd _ α marker ((C42_accepts proto d hd α).2 hα) fun k hk hc => ?_).1
  obtain ⟨v, hv⟩ := ha.markers k hk hc
  rw [lookup_of_mem ha.once hv]
  exact congrArg some (ha.agrees _ hv)

/-! ## Statistics -/

theorem finiteCosts_coe (l : List ℚ) : finiteCosts (l.map fun c : ℚ => (c : Cost)) = some l := by
  induction l with
  | nil => rfl
  | cons c l ih =>
    unfold finiteCosts at ih ⊢
    rw [List.map_cons, mapAll, ih]

theorem getD_at {l : List Cost} {i : Nat} (h : i < l.length) : l.getD i 0 = l[i] := by
  simp [List.getD_eq_getElem?_getD, h]

theorem bisectLeft_spec {l : List Cost} (hl : l.Pairwise (· ≤ ·)) (x : Cost) :
    ∀ (fuel lo hi : Nat), hi - lo ≤ fuel → lo ≤ hi → hi ≤ l.length →
      (∀ i < lo, l.getD i 0 < x) → (∀ i, hi ≤ i → i < l.length → ¬ l.getD i 0 < x) →
      bisectLeft l x fuel lo hi = l.countP fun c => decide (c < x) := by
  have hmono : ∀ i j, i ≤ j → j < l.length → l.getD i 0 ≤ l.getD j 0 := by
    intro i j hij hj
    rcases Nat.lt_or_eq_of_le hij with h | rfl
    · rw [getD_at (h.trans hj), getD_at hj]
      exact List.pairwise_iff_getElem.1 hl i j (h.trans hj) hj h
    · exact le_rfl
  have hcount : ∀ n, n ≤ l.length → (∀ i < n, l.getD i 0 < x) →
      (∀ i, n ≤ i → i < l.length → ¬ l.getD i 0 < x) → n = l.countP fun c => decide (c < x) := by
    intro n hn h1 h2
    rw [← List.take_append_drop n l, List.countP_append]
    have e1 : (l.take n).countP (fun c => decide (c < x)) = (l.take n).length := by
      rw [List.countP_eq_length]
      intro c hc
      obtain ⟨i, hi, rfl⟩ := List.mem_iff_getElem.1 hc
      rw [List.length_take] at hi
      have := h1 i (by omega)
      rw [getD_at (by omega)] at this
      simpa using this
    have e2 : (l.drop n).countP (fun c => decide (c < x)) = 0 := by
      rw [List.countP_eq_zero]
      intro c hc
      obtain ⟨i, hi, rfl⟩ := List.mem_iff_getElem.1 hc
      rw [List.length_drop] at hi
      have := h2 (n + i) (by omega) (by omega)
      rw [getD_at (by omega)] at this
      simpa using this
    rw [e1, e2, List.length_take]
    omega
  intro fuel
  induction fuel with
  | zero =>
    intro lo hi h1 h2 h3 h4 h5
    have : lo = hi := by omega
    subst this
    exact hcount lo h3 h4 h5
  | succ fuel ih =>
    intro lo hi h1 h2 h3 h4 h5
    unfold bisectLeft
    split_ifs with hlt
    · dsimp only
      split_ifs with hx
      · refine ih _ _ (by omega) (by omega) h3 (fun i hi => ?_) h5
        exact lt_of_le_of_lt (hmono i _ (by omega) (by omega)) hx
      · refine ih _ _ (by omega) (by omega) (by omega) h4 (fun i hi hil h => hx ?_)
        exact lt_of_le_of_lt (hmono _ i hi hil) h
    · have : lo = hi := by omega
      subst this
      exact hcount lo h3 h4 h5

theorem map_coe_perm {l : List Cost} : ∀ {c : List ℚ}, l.Perm (c.map fun c : ℚ => (c : Cost)) →
    ∃ r : List ℚ, l = r.map (fun c : ℚ => (c : Cost)) ∧ r.Perm c := by
  intro c h
  have hall : ∀ x ∈ l, ∃ q : ℚ, (q : Cost) = x := by
    intro x hx
    obtain ⟨q, -, hq⟩ := List.mem_map.1 (h.mem_iff.1 hx)
    exact ⟨q, hq⟩
  have : ∃ r : List ℚ, l = r.map (fun c : ℚ => (c : Cost)) := by
    clear h
    induction l with
    | nil => exact ⟨[], rfl⟩
    | cons x l ih =>
      obtain ⟨r, hr⟩ := ih fun y hy => hall y (List.mem_cons_of_mem _ hy)
      obtain ⟨q, hq⟩ := hall x (by simp)
      exact ⟨q :: r, by rw [List.map_cons, hq, hr]⟩
  obtain ⟨r, hr⟩ := this
  refine ⟨r, hr, ?_⟩
  rw [hr] at h
  exact (List.map_perm_map_iff (fun _ _ h => WithTop.coe_injective h)).1 h

theorem sampleInfo_describes (costs : List ℚ) (total : Option ℚ) :
    Describes costs total (sampleInfo (costs.map fun c : ℚ => (c : Cost)) (total.map fun c : ℚ => (c : Cost))) := by
  set l : List Cost := costs.map fun c : ℚ => (c : Cost) with hl
  have hperm : (l.mergeSort fun a b => decide (a ≤ b)).Perm l := List.mergeSort_perm _ _
  have hsort : (l.mergeSort fun a b => decide (a ≤ b)).Pairwise (· ≤ ·) := by
    have := List.pairwise_mergeSort (le := fun a b : Cost => decide (a ≤ b))
      (fun a b c h1 h2 => by simpa using le_trans (by simpa using h1) (by simpa using h2 : b ≤ c))
      (fun a b => by simpa using le_total a b) l
    exact this.imp fun h => by simpa using h
  obtain ⟨r, hr, hrp⟩ := map_coe_perm (hl ▸ hperm)
  have hlen : r.length = costs.length := hrp.length_eq
  have havg : (sampleInfo l (total.map fun c : ℚ => (c : Cost))).average = mean r := by
    change (finiteCosts (l.mergeSort fun a b => decide (a ≤ b))).bind mean = _
    rw [hr, finiteCosts_coe]; rfl
  have hvar : (sampleInfo l (total.map fun c : ℚ => (c : Cost))).variance = sampleVariance r := by
    change (finiteCosts (l.mergeSort fun a b => decide (a ≤ b))).bind sampleVariance = _
    rw [hr, finiteCosts_coe]; rfl
  refine ⟨rfl, hperm, hsort, ?_, ?_, ?_, ?_, ?_, ?_⟩
  · rw [havg]
    unfold mean
    split_ifs with h
    · subst h
      simp only [List.length_nil] at hlen
      simpa using (List.length_eq_zero_iff.1 hlen.symm)
    · simp only [reduceCtorEq, false_iff]
      rintro rfl
      exact h (List.length_eq_zero_iff.1 hlen)
  · intro m hm
    rw [havg] at hm
    unfold mean at hm
    split_ifs at hm with h
    rw [Option.some.injEq] at hm
    rw [← hm, hlen, hrp.sum_eq]
    have : (costs.length : ℚ) ≠ 0 := by
      rw [← hlen]
      exact_mod_cast fun he => h (List.length_eq_zero_iff.1 he)
    field_simp
  · rw [hvar]
    unfold sampleVariance mean
    by_cases h : r = []
    · subst h
      simp only [List.length_nil] at hlen
      simp [← hlen]
    · rw [if_neg h]
      dsimp only
      have : r.length ≠ 0 := fun he => h (List.length_eq_zero_iff.1 he)
      split_ifs with h1
      · simp; omega
      · simp; omega
  · intro m v hm hv
    rw [havg] at hm
    rw [hvar] at hv
    unfold sampleVariance at hv
    rw [hm] at hv
    dsimp only at hv
    split_ifs at hv with h1
    rw [Option.some.injEq] at hv
    rw [← hv, hlen]
    have hne : (costs.length : ℚ) - 1 ≠ 0 := by
      rw [← hlen]
      intro he
      exact h1 (by exact_mod_cast (sub_eq_zero.1 he))
    rw [(hrp.map _).sum_eq, div_mul_cancel₀ _ hne]
    congr 1
    exact List.map_congr_left fun x _ => by ring
  · rintro rfl; rfl
  · rintro t rfl
    change some (bisectLeft _ _ _ 0 _) = _
    rw [bisectLeft_spec hsort _ _ _ _ (by omega) (by omega) le_rfl (by omega) (by omega), hperm.countP_eq,
      hl, List.countP_map]
    congr 1
    refine List.countP_congr fun c _ => ?_
    simp

end RUSure.Lemmas
