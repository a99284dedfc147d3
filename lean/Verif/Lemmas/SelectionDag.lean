import Verif.Lemmas.EditTopo
import Verif.Spec.Selection

/-!
# The edges of the selection DAG
-/

namespace RUSure.Lemmas
open RUSure RUSure.Spec
variable {M : Type} [DecidableEq M]

/-! ### Without the exception -/

/-- The cells of a row. -/
def rowEdges (f : SelUtility M) (p : Nat) (x : SelItem M) (b : Bool) :
    Nat → List (Option (SelItem M)) → List SelEdge
  | _, [] => []
  | u, y :: ys => selCell f p u x y b ++ rowEdges f p x b (u + 1) ys

/-- All rows. -/
def rowsEdges (f : SelUtility M) (ys : List (Option (SelItem M))) :
    Nat → List (SelItem M) → Option Bool → List SelEdge
  | _, [], _ => []
  | p, x :: xs, flag =>
    rowEdges f p x ((advanceFlag flag x).getD false) 0 ys
      ++ rowsEdges f ys (p + 1) xs (advanceFlag flag x)

omit [DecidableEq M] in
theorem advanceFlag_some {flag : Option Bool} {x : SelItem M} {b : Bool}
    (h : advanceFlag flag x = some b) : advanceFlag (some b) x = some b := by
  cases x <;> simp_all [advanceFlag]

theorem selRow_ok (f : SelUtility M) (p : Nat) (x : SelItem M) (b : Bool) :
    ∀ (ys : List (Option (SelItem M))) (u : Nat) (flag : Option Bool), ys ≠ [] →
      advanceFlag flag x = some b → selRow f p x u ys flag = .ok (rowEdges f p x b u ys, some b)
  | [], _, _, h, _ => absurd rfl h
  | [y], u, flag, _, h => by simp [selRow, rowEdges, h]
  | y :: y' :: ys, u, flag, _, h => by
    rw [selRow, h]
    simp only
    rw [selRow_ok f p x b (y' :: ys) (u + 1) (some b) (by simp) (advanceFlag_some h)]
    simp [rowEdges]

theorem selRows_ok (f : SelUtility M) (ys : List (Option (SelItem M))) (hy : ys ≠ []) :
    ∀ (xs : List (SelItem M)) (p : Nat) (flag : Option Bool),
      (flag = none → ∀ i, xs.head? ≠ some (.stop i)) →
      selRows f ys p xs flag = .ok (rowsEdges f ys p xs flag)
  | [], _, _, _ => rfl
  | x :: xs, p, flag, h => by
    obtain ⟨b, hb⟩ : ∃ b, advanceFlag flag x = some b := by
      cases x with
      | stop i =>
        cases flag with
        | none => exact absurd rfl (h rfl i)
        | some b => exact ⟨b, rfl⟩
      | _ => exact ⟨_, rfl⟩
    rw [selRows, selRow_ok f p x b ys 0 flag hy hb]
    simp only
    rw [selRows_ok f ys hy xs (p + 1) (some b) (by simp)]
    simp [rowsEdges, hb]

theorem selRows_unbound (f : SelUtility M) (ys : List (Option (SelItem M))) (hy : ys ≠ [])
    (i p : Nat) (xs : List (SelItem M)) :
    selRows f ys p (.stop i :: xs) none = .error .unbound := by
  cases ys with
  | nil => exact absurd rfl hy
  | cons y ys => simp [selRows, selRow, advanceFlag]

/-- The edges of the selection DAG, when there is no exception. -/
def goodEdges (f : SelUtility M) (xs ys : List (SelItem M)) : List SelEdge :=
  rowsEdges f (ys.map some ++ [none]) 0 xs none ++ selFinals xs.length (ys.length + 1)

theorem selEdges_ok (f : SelUtility M) (xs ys : List (SelItem M))
    (h : ∀ i, xs.head? ≠ some (.stop i)) : selEdges f xs ys = .ok (goodEdges f xs ys) := by
  rw [selEdges, selRows_ok f _ (by simp) xs 0 none (fun _ => h)]
  rfl

theorem selEdges_unbound (f : SelUtility M) (i : Nat) (xs ys : List (SelItem M)) :
    selEdges f (.stop i :: xs) ys = .error .unbound := by
  rw [selEdges, selRows_unbound f _ (by simp)]

/-! ### Cells -/

/-- The flag of a row. -/
def flagAt (xs : List (SelItem M)) (p : Nat) : Bool :=
  ((xs.take (p + 1)).foldl advanceFlag none).getD false

theorem mem_rowEdges {f : SelUtility M} {p : Nat} {x : SelItem M} {b : Bool} {e : SelEdge} :
    ∀ {ys : List (Option (SelItem M))} {u : Nat}, e ∈ rowEdges f p x b u ys ↔
      ∃ k y, ys[k]? = some y ∧ e ∈ selCell f p (u + k) x y b
  | [], u => by simp [rowEdges]
  | y :: ys, u => by
    rw [rowEdges, List.mem_append, mem_rowEdges]
    constructor
    · rintro (h | ⟨k, y', hk, h⟩)
      · exact ⟨0, y, rfl, h⟩
      · exact ⟨k + 1, y', by simpa using hk, by rwa [← Nat.add_assoc, Nat.add_right_comm]⟩
    · rintro ⟨k, y', hk, h⟩
      cases k with
      | zero =>
        simp only [List.getElem?_cons_zero, Option.some.injEq] at hk
        subst hk
        exact .inl h
      | succ k => exact .inr ⟨k, y', by simpa using hk, by rwa [Nat.add_right_comm, Nat.add_assoc]⟩

theorem mem_rowsEdges {f : SelUtility M} {ys : List (Option (SelItem M))} {e : SelEdge} :
    ∀ {xs : List (SelItem M)} {p : Nat} {flag : Option Bool}, e ∈ rowsEdges f ys p xs flag ↔
      ∃ k x u y, xs[k]? = some x ∧ ys[u]? = some y ∧
        e ∈ selCell f (p + k) u x y (((xs.take (k + 1)).foldl advanceFlag flag).getD false)
  | [], p, flag => by simp [rowsEdges]
  | x :: xs, p, flag => by
    rw [rowsEdges, List.mem_append, mem_rowsEdges, mem_rowEdges]
    constructor
    · rintro (⟨u, y, hu, h⟩ | ⟨k, x', u, y, hk, hu, h⟩)
      · exact ⟨0, x, u, y, rfl, hu, by simpa using h⟩
      · refine ⟨k + 1, x', u, y, by simpa using hk, hu, ?_⟩
        rw [← Nat.add_assoc, Nat.add_right_comm]
        simpa using h
    · rintro ⟨k, x', u, y, hk, hu, h⟩
      cases k with
      | zero =>
        simp only [List.getElem?_cons_zero, Option.some.injEq] at hk
        subst hk
        exact .inl ⟨u, y, hu, by simpa using h⟩
      | succ k =>
        refine .inr ⟨k, x', u, y, by simpa using hk, hu, ?_⟩
        rw [← Nat.add_assoc, Nat.add_right_comm] at h
        simpa using h

theorem mem_goodEdges {f : SelUtility M} {xs ys : List (SelItem M)} {e : SelEdge} :
    e ∈ goodEdges f xs ys ↔
      (∃ p x u, xs[p]? = some x ∧ u ≤ ys.length ∧ e ∈ selCell f p u x ys[u]? (flagAt xs p))
      ∨ ∃ u, u ≤ ys.length ∧ e = ⟨.at .skipProto xs.length u, .final, 0, none, none⟩ := by
  rw [goodEdges, List.mem_append, mem_rowsEdges]
  refine or_congr ?_ ?_
  · have hget : ∀ (u : Nat) (y : Option (SelItem M)), (ys.map some ++ [none])[u]? = some y ↔
        u ≤ ys.length ∧ y = ys[u]? := by
      intro u y
      rcases Nat.lt_trichotomy u ys.length with h | h | h
      · rw [List.getElem?_append_left (by simpa using h)]
        simp [h, h.le, eq_comm]
      · subst h
        simp [eq_comm]
      · rw [List.getElem?_eq_none (by simp; omega)]
        simp; omega
    constructor
    · rintro ⟨k, x, u, y, hk, hu, h⟩
      obtain ⟨h1, rfl⟩ := (hget u y).mp hu
      rw [Nat.zero_add] at h
      exact ⟨k, x, u, hk, h1, h⟩
    · rintro ⟨k, x, u, hk, h1, h⟩
      refine ⟨k, x, u, _, hk, (hget u _).mpr ⟨h1, rfl⟩, ?_⟩
      rw [Nat.zero_add]
      exact h
  · simp only [selFinals, List.mem_map, List.mem_range]
    constructor
    · rintro ⟨u, hu, rfl⟩; exact ⟨u, by omega, rfl⟩
    · rintro ⟨u, hu, rfl⟩; exact ⟨u, by omega, rfl⟩

/-! ### Order -/

/-- Number of a category. -/
def selCatNo : SelCat → Nat
  | .skipProto => 0
  | .skipTarget => 1
  | .matched => 2
  | .unmatched => 3

/-- The place of a state in the order. -/
def selKey : SelState → List Nat
  | .at c p u => [p, u, selCatNo c]
  | .final => []

abbrev SOrd (lo hi : List Nat) (es : List SelEdge) : Prop :=
  Ord Edge.source Edge.dest .final selKey lo hi es

macro "sorder" : tactic => `(tactic| (
  refine Ord.cross ?_ ?_ <;> simp [selKey, selCatNo, kcons_lt, kcons_le, knil_lt, knil_le]))

omit [DecidableEq M] in
theorem selSkip_ord (p u : Nat) (x : SelItem M) : SOrd [p, u, 1] [p, u, 1] (selSkip p u x) := by
  cases x <;> simp only [selSkip] <;> first | exact Ord.nil _ _ | sorder

omit [DecidableEq M] in
theorem selStart_ord (p u : Nat) (x : SelItem M) : SOrd [p, u, 1] [p, u, 1] (selStart p u x) := by
  cases x <;> simp only [selStart] <;> first | exact Ord.nil _ _ | sorder

omit [DecidableEq M] in
theorem selTarget_ord (p u : Nat) (y : Option (SelItem M)) :
    SOrd [p, u, 2] [p, u, 2] (selTarget p u y) := by
  unfold selTarget
  split <;> first | exact Ord.nil _ _ | sorder

theorem selMatch_ord (f : SelUtility M) (p u : Nat) (x : SelItem M) (y : Option (SelItem M)) :
    SOrd [p, u, 3] [p, u, 3] (selMatch f p u x y) := by
  unfold selMatch
  split <;> try split
  all_goals first | exact Ord.nil _ _ | sorder

omit [DecidableEq M] in
theorem selEndMatch_ord (p u : Nat) (x : SelItem M) :
    SOrd [p, u, 3] [p, u, 3] (selEndMatch p u x) := by
  cases x <;> simp only [selEndMatch] <;> first | exact Ord.nil _ _ | sorder

omit [DecidableEq M] in
theorem selPass_ord (f : SelUtility M) (p u : Nat) (x : SelItem M) (b : Bool) :
    SOrd [p, u, 4] [p, u, 4] (if b then [selPass f p u x] else []) := by
  split
  · cases x <;> simp only [selPass] <;> sorder
  · exact Ord.nil _ _

omit [DecidableEq M] in
theorem selEndPass_ord (p u : Nat) (x : SelItem M) :
    SOrd [p, u, 4] [p, u, 4] (selEndPass p u x) := by
  cases x <;> simp only [selEndPass] <;> first | exact Ord.nil _ _ | sorder

macro "klist" : tactic => `(tactic| (simp [kcons_lt, kcons_le, knil_lt, knil_le]; try omega))

theorem selCell_ord (f : SelUtility M) (p u : Nat) (x : SelItem M) (y : Option (SelItem M))
    (b : Bool) : SOrd [p, u] [p, u, 4] (selCell f p u x y b) := by
  unfold selCell
  refine Ord.mono (lo := [p, u, 1]) ?_ (by klist) (le_refl _)
  refine Ord.append (mid := [p, u, 4]) (mid' := [p, u, 4]) ?_ (selEndPass_ord p u x) (by klist)
    (by klist) (by klist)
  refine Ord.append (mid := [p, u, 3]) (mid' := [p, u, 4]) ?_ (selPass_ord f p u x b) (by klist)
    (by klist) (by klist)
  refine Ord.append (mid := [p, u, 3]) (mid' := [p, u, 3]) ?_ (selEndMatch_ord p u x) (by klist)
    (by klist) (by klist)
  refine Ord.append (mid := [p, u, 2]) (mid' := [p, u, 3]) ?_ (selMatch_ord f p u x y) (by klist)
    (by klist) (by klist)
  refine Ord.append (mid := [p, u, 1]) (mid' := [p, u, 2]) ?_ (selTarget_ord p u y) (by klist)
    (by klist) (by klist)
  exact Ord.append (mid := [p, u, 1]) (mid' := [p, u, 1]) (selSkip_ord p u x) (selStart_ord p u x)
    (by klist) (by klist) (by klist)

theorem rowEdges_ord (f : SelUtility M) (p : Nat) (x : SelItem M) (b : Bool) :
    ∀ (ys : List (Option (SelItem M))) (u : Nat),
      SOrd [p, u] [p, u + ys.length] (rowEdges f p x b u ys)
  | [], u => Ord.nil _ _
  | y :: ys, u => by
    rw [rowEdges]
    refine Ord.append (mid := [p, u, 4]) (mid' := [p, u + 1]) (selCell_ord f p u x y b) ?_
      (by klist) (by klist) (by simp [kcons_le])
    exact (rowEdges_ord f p x b ys (u + 1)).mono (by klist) (by rw [List.length_cons]; klist)

theorem rowsEdges_ord (f : SelUtility M) (ys : List (Option (SelItem M))) :
    ∀ (xs : List (SelItem M)) (p : Nat) (flag : Option Bool),
      SOrd [p] [p + xs.length] (rowsEdges f ys p xs flag)
  | [], p, flag => Ord.nil _ _
  | x :: xs, p, flag => by
    rw [rowsEdges]
    refine Ord.append (mid := [p, 0 + ys.length]) (mid' := [p + 1]) ?_ ?_
      (by klist) (by klist) (by simp [kcons_le])
    · exact (rowEdges_ord f p x _ ys 0).mono (by klist) (le_refl _)
    · exact (rowsEdges_ord f ys xs (p + 1) _).mono (by klist) (by rw [List.length_cons]; klist)

theorem selFinals_ord (p n : Nat) : SOrd [p] [p + 1] (selFinals p n) where
  src_lt e he := by
    simp only [selFinals, List.mem_map] at he
    obtain ⟨u, -, rfl⟩ := he
    simp [selKey, kcons_lt]
  le_dst e he := by
    simp only [selFinals, List.mem_map] at he
    obtain ⟨u, -, rfl⟩ := he
    exact .inl rfl
  inc e he := by
    simp only [selFinals, List.mem_map] at he
    obtain ⟨u, -, rfl⟩ := he
    exact .inl rfl
  pw := List.pairwise_of_forall_mem_list fun x hx y hy => by
    simp only [selFinals, List.mem_map] at hy
    obtain ⟨u, -, rfl⟩ := hy
    exact .inl rfl

theorem goodEdges_ord (f : SelUtility M) (xs ys : List (SelItem M)) :
    SOrd [0] [xs.length + 1] (goodEdges f xs ys) := by
  refine Ord.append (mid := [0 + xs.length]) (mid' := [xs.length]) (rowsEdges_ord f _ xs 0 none)
    (selFinals_ord _ _) ?_ ?_ ?_ <;> klist

/-- No edge leaves the final state. -/
theorem goodEdges_source {f : SelUtility M} {xs ys : List (SelItem M)} {e : SelEdge}
    (he : e ∈ goodEdges f xs ys) : e.source ≠ .final := by
  rcases mem_goodEdges.mp he with ⟨p, x, u, -, -, h⟩ | ⟨u, -, rfl⟩
  · simp only [selCell, List.mem_append] at h
    rcases h with (((((h | h) | h) | h) | h) | h) | h
    · cases x <;> simp [selSkip] at h <;> subst h <;> simp
    · cases x <;> simp [selStart] at h <;> rcases h with rfl | rfl <;> simp
    · unfold selTarget at h
      split at h <;> simp at h
      rcases h with rfl | rfl <;> simp
    · unfold selMatch at h
      split at h <;> try split at h
      all_goals simp at h
      all_goals subst h; simp
    · cases x <;> simp [selEndMatch] at h <;> rcases h with rfl | rfl <;> simp
    · split at h <;> simp at h
      subst h
      cases x <;> simp [selPass]
    · cases x <;> simp [selEndPass] at h <;> subst h <;> simp
  · simp

theorem goodEdges_topo (f : SelUtility M) (xs ys : List (SelItem M)) :
    Topo Edge.source Edge.dest (goodEdges f xs ys) := by
  have h := goodEdges_ord f xs ys
  constructor
  · refine List.Pairwise.imp_of_mem ?_ h.pw
    rintro x y hx - (hy | hy) heq
    · exact goodEdges_source hx (heq ▸ hy)
    · rw [heq] at hy
      exact lt_irrefl _ hy
  · intro e he heq
    rcases h.inc e he with hy | hy
    · exact goodEdges_source he (heq ▸ hy)
    · rw [heq] at hy
      exact lt_irrefl _ hy

theorem constructSelectionDag_unbound (f : SelUtility M) (P T : Storage M)
    (xs ys : List (SelItem M)) (hx : selItems P = some xs) (hy : selItems T = some ys) {i : Nat}
    (h : xs.head? = some (.stop i)) : constructSelectionDag f P T = .error .unbound := by
  unfold constructSelectionDag
  rw [hx, hy]
  cases xs with
  | nil => cases h
  | cons x xs =>
    obtain rfl := Option.some.inj h
    simp only [selEdges_unbound]

theorem constructSelectionDag_ok (f : SelUtility M) (P T : Storage M)
    (xs ys : List (SelItem M)) (hx : selItems P = some xs) (hy : selItems T = some ys)
    (h : ∀ i, xs.head? ≠ some (.stop i)) :
    constructSelectionDag f P T = .ok ⟨selInitial, goodEdges f xs ys, .final⟩ := by
  unfold constructSelectionDag
  rw [hx, hy]
  obtain ⟨d, h1, h2, h3⟩ := addAll_start _ selInitial (goodEdges_topo f xs ys).1
  simp only [selEdges_ok f xs ys h, h1]
  simp [PartialDag.finish, h2, h3]

end RUSure.Lemmas
