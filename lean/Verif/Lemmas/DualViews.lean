import Verif.Lemmas.DualBase

/-!
# Systems of DAGs, without their tables
-/

namespace RUSure.Lemmas
open RUSure RUSure.Spec

/-- A subproblem without its tables. -/
structure View where
  dag : PackedDag
  index : Nat → Option Nat
  weight : ℚ
  pen : Penalties

def _root_.RUSure.Sub.view (s : Sub) : View := ⟨s.memo.dag, s.index, s.weight, s.memo.pen⟩

/-- The charge for a value. -/
def View.charge (w : View) (v x : Nat) : Cost :=
  match w.index v with
  | none => 0
  | some k => w.pen k x

/-- The minimal penalised cost. -/
def View.cost (w : View) : Cost := costOf w.dag w.pen

/-- The contribution to the min-marginals of the system. -/
def View.marg (w : View) (v x : Nat) : Cost :=
  match w.index v with
  | none => w.cost
  | some k => margOf w.dag w.pen k x

/-- The min-marginals without the penalties of the variable; zero for other subproblems. -/
def View.openMarg (w : View) (v x : Nat) : Cost :=
  match w.index v with
  | none => 0
  | some k => margOf w.dag (setPen w.pen k fun _ => 0) k x

/-- The minimal cost of subproblems not using the variable; zero for other subproblems. -/
def View.skipped (w : View) (v : Nat) : Cost :=
  match w.index v with
  | none => w.cost
  | some _ => 0

/-- The weight of subproblems using the variable; zero for other subproblems. -/
def View.share (w : View) (v : Nat) : ℚ :=
  match w.index v with
  | none => 0
  | some _ => w.weight

structure ViewOK (N V : Nat) (w : View) : Prop where
  wf : PackedWF w.dag
  values : w.dag.numValues = V
  lt : ∀ v k, w.index v = some k → v < N ∧ k < w.dag.numKeys
  inj : ∀ v u k, w.index v = some k → w.index u = some k → v = u
  surj : ∀ k < w.dag.numKeys, ∃ v, w.index v = some k
  pos : 0 < w.weight

theorem index_perm {N V : Nat} {w : View} (h : ViewOK N V w) :
    ((List.range N).filterMap w.index).Perm (List.range w.dag.numKeys) := by
  rw [List.perm_ext_iff_of_nodup _ List.nodup_range]
  · intro k
    simp only [List.mem_filterMap, List.mem_range]
    constructor
    · rintro ⟨v, -, hv⟩
      exact (h.lt v k hv).2
    · intro hk
      obtain ⟨v, hv⟩ := h.surj k hk
      exact ⟨v, (h.lt v k hv).1, hv⟩
  · refine List.Nodup.filterMap ?_ List.nodup_range
    intro a a' b h1 h2
    exact h.inj a a' b h1 h2

theorem sum_filterMap (l : List Nat) (g : Nat → Option Nat) (f : Nat → Cost) :
    ((l.filterMap g).map f).sum = (l.map fun v => (g v).elim 0 f).sum := by
  induction l with
  | nil => rfl
  | cons a l ih =>
    cases h : g a with
    | none => simp [h, ih]
    | some b => simp [h, ih]

/-- A sum over the variables of a subproblem is a sum over the variables of the system. -/
theorem sum_index {N V : Nat} {w : View} (h : ViewOK N V w) (f : Nat → Cost) :
    ((List.range w.dag.numKeys).map f).sum
      = ((List.range N).map fun v => (w.index v).elim 0 f).sum := by
  rw [← sum_filterMap]
  exact (((index_perm h).map f).sum_eq).symm

/-- Joint solutions on views. -/
structure VJoint (N V : Nat) (ws : List View) (a : Nat → Nat) (paths : List (List PackedEdge)) :
    Prop where
  values : ∀ v < N, a v < V
  paths : List.Forall₂ (fun (w : View) p => Complete w.dag p ∧
    ∀ v k x, w.index v = some k → (k, x) ∈ assignments p → x = a v) ws paths

def vCost (N : Nat) (extra : Nat → Nat → Cost) (a : Nat → Nat) (paths : List (List PackedEdge)) :
    Cost :=
  (paths.map (weight PackedEdge.cost)).sum + ((List.range N).map fun v => extra v (a v)).sum

def VFeas (N V : Nat) (extra : Nat → Nat → Cost) (ws : List View) (v x : Nat) : Prop :=
  ∃ a paths, VJoint N V ws a paths ∧ vCost N extra a paths < ⊤ ∧ a v = x

/-- The penalised cost of one path of a joint solution. -/
theorem path_charge {N V : Nat} {w : View} (h : ViewOK N V w) {p : List PackedEdge} {a : Nat → Nat}
    (hp : Complete w.dag p)
    (ha : ∀ v k x, w.index v = some k → (k, x) ∈ assignments p → x = a v) :
    pathCost w.pen p = weight PackedEdge.cost p
      + ((List.range N).map fun v => w.charge v (a v)).sum := by
  classical
  rw [pathCost_split]
  congr 1
  have hb : ∃ b : Nat → Nat, ∀ v k, w.index v = some k → b k = a v := by
    refine ⟨fun k => if h' : ∃ v, w.index v = some k then a h'.choose else 0, ?_⟩
    intro v k hv
    have h' : ∃ v, w.index v = some k := ⟨v, hv⟩
    dsimp only
    rw [dif_pos h']
    rw [h.inj _ _ _ h'.choose_spec hv]
  obtain ⟨b, hb⟩ := hb
  rw [complete_sum h.wf hp w.pen b, sum_index h]
  · congr 1
    apply List.map_congr_left
    intro v _
    unfold View.charge
    cases hv : w.index v with
    | none => rfl
    | some k => simp [hb v k hv]
  · intro k x hm
    obtain ⟨h1, -, -⟩ := assign_edge h.wf hp hm
    obtain ⟨v, hv⟩ := h.surj k h1
    rw [hb v k hv]
    exact ha v k x hv hm

theorem sum_comm {α β : Type} (l : List α) (m : List β) (f : α → β → Cost) :
    (l.map fun a => (m.map fun b => f a b).sum).sum = (m.map fun b => (l.map fun a => f a b).sum).sum := by
  induction l with
  | nil => simp
  | cons a l ih =>
    simp only [List.map_cons, List.sum_cons, ih]
    rw [← List.sum_map_add]

/-- Sum of the penalised costs of the paths of a joint solution. -/
theorem joint_charges {N V : Nat} {ws : List View} (hok : ∀ w ∈ ws, ViewOK N V w) {a : Nat → Nat}
    {paths : List (List PackedEdge)} (hj : VJoint N V ws a paths) :
    (List.zipWith (fun (w : View) p => pathCost w.pen p) ws paths).sum
      = (paths.map (weight PackedEdge.cost)).sum
        + ((List.range N).map fun v => (ws.map fun w => w.charge v (a v)).sum).sum := by
  have h := hj.paths
  rw [← sum_comm ws (List.range N) (fun w v => w.charge v (a v))]
  clear hj
  induction h with
  | nil => simp
  | @cons w p ws paths h1 h2 ih =>
    simp only [List.zipWith_cons_cons, List.sum_cons, List.map_cons]
    rw [ih fun w' hw' => hok w' (List.mem_cons_of_mem _ hw'),
      path_charge (hok w (by simp)) h1.1 h1.2]
    exact add_add_add_comm _ _ _ _

theorem zipWith_mono {α β : Type} {P : α → β → Prop} {ws : List α} {ps : List β} {f g : α → β → Cost}
    (h : List.Forall₂ P ws ps) (hle : ∀ w ∈ ws, ∀ p, P w p → f w p ≤ g w p) :
    (List.zipWith f ws ps).sum ≤ (List.zipWith g ws ps).sum := by
  induction h with
  | nil => simp
  | cons h1 _ ih =>
    simp only [List.zipWith_cons_cons, List.sum_cons]
    exact add_le_add (hle _ (by simp) _ h1) (ih fun w hw p hp => hle w (List.mem_cons_of_mem _ hw) p hp)

theorem zipWith_left {α β : Type} {P : α → β → Prop} {ws : List α} {ps : List β} {f : α → Cost}
    (h : List.Forall₂ P ws ps) : (List.zipWith (fun w _ => f w) ws ps).sum = (ws.map f).sum := by
  induction h with
  | nil => simp
  | cons h1 _ ih => simp [ih]

/-- The total of `min_marginal_average`. -/
def totalAt (extra : Nat → Nat → Cost) (ws : List View) (v x : Nat) : Cost :=
  (ws.map fun w => w.openMarg v x).sum + extra v x

/-- A value that has been found to be impossible. -/
structure Blocked (N V : Nat) (extra : Nat → Nat → Cost) (ws : List View) (v x : Nat) : Prop where
  pens : ∀ w ∈ ws, ∀ k, w.index v = some k → w.pen k x = ⊤
  total : totalAt extra ws v x = ⊤
  infeasible : ¬ VFeas N V extra ws v x

/-- The invariant of systems. -/
structure VInv (N V : Nat) (extra : Nat → Nat → Cost) (ws : List View) : Prop where
  ok : ∀ w ∈ ws, ViewOK N V w
  part : ∀ v < N, ∃ w ∈ ws, ∃ k, w.index v = some k
  bal : ∀ v < N, ∀ x < V, (ws.map fun w => w.charge v x).sum = extra v x
    ∨ Blocked N V extra ws v x

theorem VInv.charges {N V : Nat} {extra : Nat → Nat → Cost} {ws : List View} (h : VInv N V extra ws)
    {a : Nat → Nat} {paths : List (List PackedEdge)} (hj : VJoint N V ws a paths)
    (hfin : vCost N extra a paths < ⊤) :
    (∀ v < N, (ws.map fun w => w.charge v (a v)).sum = extra v (a v))
    ∧ (List.zipWith (fun (w : View) p => pathCost w.pen p) ws paths).sum = vCost N extra a paths := by
  have h1 : ∀ v < N, (ws.map fun w => w.charge v (a v)).sum = extra v (a v) := by
    intro v hv
    rcases h.bal v hv (a v) (hj.values v hv) with h' | h'
    · exact h'
    · exact absurd ⟨a, paths, hj, hfin, rfl⟩ h'.infeasible
  refine ⟨h1, ?_⟩
  rw [joint_charges h.ok hj, vCost]
  congr 2
  apply List.map_congr_left
  intro v hv
  exact h1 v (by simpa using hv)

/-- Every joint solution costs at least the sum of the min-marginals. -/
theorem VInv.marg_le {N V : Nat} {extra : Nat → Nat → Cost} {ws : List View} (h : VInv N V extra ws)
    {a : Nat → Nat} {paths : List (List PackedEdge)} (hj : VJoint N V ws a paths) (v : Nat) :
    (ws.map fun w => w.marg v (a v)).sum ≤ vCost N extra a paths := by
  by_cases hfin : vCost N extra a paths < ⊤
  · obtain ⟨-, h2⟩ := h.charges hj hfin
    rw [← h2, ← zipWith_left hj.paths]
    apply zipWith_mono hj.paths
    intro w hw p hp
    unfold View.marg
    cases hv : w.index v with
    | none => exact (costOf_min (h.ok w hw).wf w.pen).le p hp.1
    | some k =>
      have hk := ((h.ok w hw).lt v k hv).2
      obtain ⟨x, hx, hm⟩ := complete_value (h.ok w hw).wf hp.1 hk
      have := hp.2 v k x hv hm
      subst this
      exact (margOf_min (h.ok w hw).wf w.pen hk _).le p ⟨hp.1, hm⟩
  · rw [not_lt_top_iff.1 hfin]
    exact le_top

theorem VInv.cost_le {N V : Nat} {extra : Nat → Nat → Cost} {ws : List View} (h : VInv N V extra ws)
    {a : Nat → Nat} {paths : List (List PackedEdge)} (hj : VJoint N V ws a paths) :
    (ws.map View.cost).sum ≤ vCost N extra a paths := by
  by_cases hfin : vCost N extra a paths < ⊤
  · obtain ⟨-, h2⟩ := h.charges hj hfin
    rw [← h2, ← zipWith_left hj.paths]
    apply zipWith_mono hj.paths
    intro w hw p hp
    exact (costOf_min (h.ok w hw).wf w.pen).le p hp.1
  · rw [not_lt_top_iff.1 hfin]
    exact le_top

/-- The effect of changing the penalties of one variable. -/
def View.update (w : View) (v : Nat) (q : View → Nat → Nat → Cost) : View :=
  match w.index v with
  | none => w
  | some k => { w with pen := setPen w.pen k (q w k) }

section update
variable {N V : Nat} {w : View} (v : Nat) (q : View → Nat → Nat → Cost)

theorem update_dag : (w.update v q).dag = w.dag := by
  unfold View.update; cases w.index v <;> rfl

theorem update_index : (w.update v q).index = w.index := by
  unfold View.update; cases w.index v <;> rfl

theorem update_weight : (w.update v q).weight = w.weight := by
  unfold View.update; cases w.index v <;> rfl

theorem update_ok (h : ViewOK N V w) : ViewOK N V (w.update v q) := by
  constructor <;> simp only [update_dag, update_index, update_weight]
  · exact h.wf
  · exact h.values
  · exact h.lt
  · exact h.inj
  · exact h.surj
  · exact h.pos

theorem update_pen_same {k : Nat} (hk : w.index v = some k) : (w.update v q).pen k = q w k := by
  simp [View.update, hk, setPen]

theorem update_pen_other (h : ViewOK N V w) {u k : Nat} (hu : w.index u = some k) (huv : u ≠ v) :
    (w.update v q).pen k = w.pen k := by
  unfold View.update
  cases hv : w.index v with
  | none => rfl
  | some k' =>
    have : k ≠ k' := by
      rintro rfl
      exact huv (h.inj u v k hu hv)
    simp [setPen, this]

theorem update_charge_other (h : ViewOK N V w) {u : Nat} (huv : u ≠ v) (x : Nat) :
    (w.update v q).charge u x = w.charge u x := by
  unfold View.charge
  rw [update_index]
  cases hu : w.index u with
  | none => rfl
  | some k => simp only; rw [update_pen_other v q h hu huv]

theorem update_openMarg_same (x : Nat) : (w.update v q).openMarg v x = w.openMarg v x := by
  unfold View.openMarg
  rw [update_index, update_dag]
  cases hv : w.index v with
  | none => rfl
  | some k => simp only [View.update, hv]; rw [setPen_setPen]

/-- Impossible values stay impossible if infinite penalties stay infinite. -/
theorem update_openMarg_top (h : ViewOK N V w)
    (hq : ∀ k, w.index v = some k → ∀ y < V, w.pen k y = ⊤ → q w k y = ⊤) {u x : Nat}
    (ht : w.openMarg u x = ⊤) : (w.update v q).openMarg u x = ⊤ := by
  unfold View.openMarg at ht ⊢
  rw [update_index, update_dag]
  cases hu : w.index u with
  | none => rw [hu] at ht; exact ht
  | some k =>
    rw [hu] at ht
    simp only at ht ⊢
    refine margOf_top_mono h.wf (h.lt u k hu).2 ?_ ht
    intro k' hk' y hy hpen
    unfold setPen at hpen ⊢
    split at hpen
    · rename_i hkk
      rw [if_pos hkk]
      exact hpen
    · rename_i hkk
      rw [if_neg hkk]
      unfold View.update
      cases hv : w.index v with
      | none => exact hpen
      | some kv =>
        simp only [setPen]
        split
        · rename_i hc
          subst hc
          exact hq k' hv y (h.values ▸ hy) hpen
        · exact hpen

end update

theorem vjoint_update {N V : Nat} {ws : List View} (v : Nat) (q : View → Nat → Nat → Cost)
    (a : Nat → Nat) (paths : List (List PackedEdge)) :
    VJoint N V (ws.map fun w => w.update v q) a paths ↔ VJoint N V ws a paths := by
  have : ∀ (ws : List View) (paths : List (List PackedEdge)),
      List.Forall₂ (fun (w : View) p => Complete w.dag p ∧
        ∀ v k x, w.index v = some k → (k, x) ∈ assignments p → x = a v)
        (ws.map fun w => w.update v q) paths ↔
      List.Forall₂ (fun (w : View) p => Complete w.dag p ∧
        ∀ v k x, w.index v = some k → (k, x) ∈ assignments p → x = a v) ws paths := by
    intro ws paths
    rw [List.forall₂_map_left_iff]
    simp only [update_dag, update_index]
  constructor
  · rintro ⟨h1, h2⟩; exact ⟨h1, (this ws paths).1 h2⟩
  · rintro ⟨h1, h2⟩; exact ⟨h1, (this ws paths).2 h2⟩

theorem sum_eq_top {l : List Cost} : l.sum = ⊤ ↔ ∃ c ∈ l, c = ⊤ := by
  rw [← not_lt_top_iff, sum_lt_top]
  simp

/-- A general step: the penalties of one variable and its extra costs change. -/
theorem VInv.step {N V : Nat} {extra extra' : Nat → Nat → Cost} {ws : List View}
    (h : VInv N V extra ws) (v : Nat) (hv : v < N) (q : View → Nat → Nat → Cost)
    (hother : ∀ u, u ≠ v → extra' u = extra u)
    (hextra : ∀ x < V, extra v x = ⊤ → extra' v x = ⊤)
    (hq : ∀ w ∈ ws, ∀ k, w.index v = some k → ∀ x < V, w.pen k x = ⊤ → q w k x = ⊤)
    (hbal : ∀ x < V, (ws.map fun w => (w.update v q).charge v x).sum = extra' v x
      ∨ Blocked N V extra' (ws.map fun w => w.update v q) v x) :
    VInv N V extra' (ws.map fun w => w.update v q) := by
  have hcost : ∀ (a : Nat → Nat) (paths : List (List PackedEdge)), VJoint N V ws a paths →
      vCost N extra' a paths < ⊤ → vCost N extra a paths < ⊤ := by
    intro a paths hj hlt
    unfold vCost at hlt ⊢
    rw [WithTop.add_lt_top, sum_lt_top, sum_lt_top, List.forall_mem_map, List.forall_mem_map] at hlt ⊢
    refine ⟨hlt.1, ?_⟩
    intro u hu
    have hlt' := hlt.2 u hu
    by_cases huv : u = v
    · subst huv
      rw [lt_top_iff_ne_top] at hlt' ⊢
      intro hc
      exact hlt' (hextra _ (hj.values u (by simpa using hu)) hc)
    · rw [hother u huv] at hlt'; exact hlt'
  constructor
  · intro w hw
    obtain ⟨w0, hw0, rfl⟩ := List.mem_map.1 hw
    exact update_ok v q (h.ok w0 hw0)
  · intro u hu
    obtain ⟨w, hw, k, hk⟩ := h.part u hu
    exact ⟨w.update v q, List.mem_map.2 ⟨w, hw, rfl⟩, k, by rw [update_index]; exact hk⟩
  · intro u hu x hx
    by_cases huv : u = v
    · subst huv
      rw [List.map_map]
      exact hbal x hx
    · rcases h.bal u hu x hx with h' | h'
      · left
        rw [hother u huv, ← h', List.map_map]
        congr 1
        apply List.map_congr_left
        intro w hw
        exact update_charge_other v q (h.ok w hw) huv x
      · right
        constructor
        · intro w hw k hk
          obtain ⟨w0, hw0, rfl⟩ := List.mem_map.1 hw
          rw [update_index] at hk
          rw [update_pen_other v q (h.ok w0 hw0) hk huv]
          exact h'.pens w0 hw0 k hk
        · have ht := h'.total
          unfold totalAt at ht ⊢
          rw [hother u huv, List.map_map]
          rw [WithTop.add_eq_top, sum_eq_top] at ht ⊢
          rcases ht with ⟨c, hc, hct⟩ | ht
          · left
            obtain ⟨w, hw, rfl⟩ := List.mem_map.1 hc
            refine ⟨_, List.mem_map.2 ⟨w, hw, rfl⟩, ?_⟩
            exact update_openMarg_top v q (h.ok w hw) (hq w hw) hct
          · exact .inr ht
        · rintro ⟨a, paths, hj, hlt, ha⟩
          rw [vjoint_update] at hj
          exact h'.infeasible ⟨a, paths, hj, hcost a paths hj hlt, ha⟩

end RUSure.Lemmas
