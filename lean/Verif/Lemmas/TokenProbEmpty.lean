import Verif.Lemmas.TokenProbAlign
import Mathlib.Data.List.Induction

/-!
# Alignment with nodes that have no text
-/

namespace RUSure.Lemmas
open RUSure RUSure.Spec
variable {M R : Type}

/-- A state that changes at tokens and decorations. -/
def stepNode {σ : Type} (next : σ → Text → σ) (s : σ) : Node M → σ
  | .tok t _ => next s t
  | .deco t => next s t
  | _ => s

/-- Values that depend only on a state and the text of a token. -/
theorem alignNodes_state [Add R] [Zero R] {σ : Type} (next : σ → Text → σ) (Inv : σ → List (Text × R) → Prop)
    (g : σ → Text → R)
    (hstep : ∀ s st t lp st1, Inv s st → advanceFor st t = some (lp, st1) → lp = g s t ∧ Inv (next s t) st1)
    (ns : List (Node M)) : ∀ (k : Nat) (s : σ) (st st' : List (Text × R)) (res res' : List (Int × R)), Inv s st →
    (∀ x ∈ res, x.1 < (k : Int)) → alignNodes k ns st res = some (st', res') →
    (∀ j, j < (k : Int) → res'.lookup j = res.lookup j)
    ∧ (∀ j : Nat, k + ns.length ≤ j → res'.lookup (j : Int) = none)
    ∧ ∀ i n, ns[i]? = some n →
      res'.lookup ((k + i : Nat) : Int) = match n with
        | .tok t _ => some (g ((ns.take i).foldl (stepNode next) s) t)
        | _ => none := by
  have lookup_none : ∀ (l : List (Int × R)) (j : Int), (∀ x ∈ l, x.1 < j) → l.lookup j = none := by
    intro l j hl
    rw [List.lookup_eq_none_iff]
    intro p hp
    have := hl p hp
    simp; omega
  induction ns with
  | nil =>
    intro k s st st' res res' hI hres h
    simp only [alignNodes, Option.some.injEq, Prod.mk.injEq] at h
    obtain ⟨rfl, rfl⟩ := h
    refine ⟨fun _ _ => rfl, fun j hj => lookup_none _ _ fun x hx => ?_, by simp⟩
    have := hres x hx
    simp at hj; omega
  | cons n ns ih =>
    intro k s st st' res res' hI hres h
    have finish : ∀ (st1 : List (Text × R)), (∀ t mt, n ≠ .tok t mt) → Inv (stepNode next s n) st1 →
        alignNodes (k + 1) ns st1 res = some (st', res') →
        (∀ j, j < (k : Int) → res'.lookup j = res.lookup j)
        ∧ (∀ j : Nat, k + (n :: ns).length ≤ j → res'.lookup (j : Int) = none)
        ∧ ∀ i n', (n :: ns)[i]? = some n' →
          res'.lookup ((k + i : Nat) : Int) = match n' with
            | .tok t _ => some (g (((n :: ns).take i).foldl (stepNode next) s) t)
            | _ => none := by
      intro st1 hnt hI1 ha
      obtain ⟨h1, h2, h3⟩ := ih (k + 1) _ st1 st' res res' hI1 (fun x hx => by have := hres x hx; omega) ha
      refine ⟨fun j hj => h1 j (by omega), fun j hj => h2 j (by simp at hj; omega), ?_⟩
      intro i n' hi
      cases i with
      | zero =>
        simp only [List.getElem?_cons_zero, Option.some.injEq] at hi
        subst hi
        rw [show k + 0 = k from rfl, h1 k (by omega), lookup_none _ _ hres]
        cases n <;> first | rfl | exact absurd rfl (hnt _ _)
      | succ i =>
        have := h3 i n' (by simpa using hi)
        rw [show k + (i + 1) = k + 1 + i by omega, this]
        cases n' with
        | tok t mt => simp only [List.take_succ_cons, List.foldl_cons]
        | _ => rfl
    cases n with
    | tok t mt =>
      simp only [alignNodes] at h
      split at h
      · simp at h
      · rename_i lp st1 ha
        obtain ⟨hlp, hI1⟩ := hstep s st t lp st1 hI ha
        obtain ⟨h1, h2, h3⟩ := ih (k + 1) (next s t) st1 st' _ res' hI1
          (fun x hx => by
            simp only [List.mem_append, List.mem_singleton] at hx
            rcases hx with hx | rfl
            · have := hres x hx; omega
            · simp; omega) h
        refine ⟨fun j hj => ?_, fun j hj => h2 j (by simp at hj; omega), ?_⟩
        · rw [h1 j (by omega)]
          simp only [List.lookup_append]
          have hne : (j == (k : Int)) = false := by simp; omega
          simp [List.lookup, hne]
        · intro i n' hi
          cases i with
          | zero =>
            simp only [List.getElem?_cons_zero, Option.some.injEq] at hi
            subst hi
            rw [show k + 0 = k from rfl, h1 k (by omega)]
            simp only [List.lookup_append, lookup_none _ _ hres]
            simp [List.lookup, hlp]
          | succ i =>
            have := h3 i n' (by simpa using hi)
            rw [show k + (i + 1) = k + 1 + i by omega, this]
            cases n' with
            | tok t' mt => simp only [List.take_succ_cons, List.foldl_cons, stepNode]
            | _ => rfl
    | deco t =>
      simp only [alignNodes] at h
      split at h
      · simp at h
      · rename_i lp st1 ha
        exact finish st1 (by simp) (hstep s st t lp st1 hI ha).2 h
    | rstart => exact finish st (by simp) (by simpa [stepNode] using hI) (by simpa [alignNodes] using h)
    | rend => exact finish st (by simp) (by simpa [stepNode] using hI) (by simpa [alignNodes] using h)
    | exit => exact finish st (by simp) (by simpa [stepNode] using hI) (by simpa [alignNodes] using h)
    | group cs mt => exact finish st (by simp) (by simpa [stepNode] using hI) (by simpa [alignNodes] using h)

theorem foldl_offset (ns : List (Node M)) (s : Nat) :
    ns.foldl (stepNode fun s t => s + t.length) s = s + (ns.flatMap leafText).length := by
  induction ns generalizing s with
  | nil => simp
  | cons n ns ih =>
    rw [List.foldl_cons, ih, List.flatMap_cons, List.length_append, ← Nat.add_assoc]
    cases n <;> rfl

/-- Values that depend only on the offset and the text of a token. -/
theorem alignNodes_inv [Add R] [Zero R] (Inv : Nat → List (Text × R) → Prop) (g : Nat → Text → R)
    (hstep : ∀ s st t lp st1, Inv s st → advanceFor st t = some (lp, st1) → lp = g s t ∧ Inv (s + t.length) st1)
    (ns : List (Node M)) (k s : Nat) (st st' : List (Text × R)) (res res' : List (Int × R)) (hI : Inv s st)
    (hr : ∀ x ∈ res, x.1 < (k : Int)) (h : alignNodes k ns st res = some (st', res')) :
    (∀ j, j < (k : Int) → res'.lookup j = res.lookup j)
    ∧ (∀ j : Nat, k + ns.length ≤ j → res'.lookup (j : Int) = none)
    ∧ ∀ i n, ns[i]? = some n →
      res'.lookup ((k + i : Nat) : Int) = match n with
        | .tok t _ => some (g (s + ((ns.take i).flatMap leafText).length) t)
        | _ => none := by
  obtain ⟨h1, h2, h3⟩ := alignNodes_state (fun s t => s + t.length) Inv g hstep ns k s st st' res res' hI hr h
  refine ⟨h1, h2, fun i n hi => ?_⟩
  rw [h3 i n hi, foldl_offset]

/-- No token is empty. -/
def NoEmpty (st : List (Text × R)) : Prop := ∀ x ∈ st, x.1 ≠ []

theorem restAfter_noEmpty : ∀ (st : List (Text × R)) (n : Nat), NoEmpty st → NoEmpty (restAfter st n)
  | [], _, h => h
  | (t, lp) :: st, n, h => by
    unfold restAfter
    split
    · exact h
    · split
      · exact restAfter_noEmpty st _ fun x hx => h x (by simp [hx])
      · rename_i hlt
        intro x hx
        rcases List.mem_cons.1 hx with rfl | hx
        · intro he
          have := congrArg List.length he
          simp at this
          omega
        · exact h x (by simp [hx])

theorem restAfter_add : ∀ (st : List (Text × R)) (m n : Nat),
    restAfter (restAfter st m) n = restAfter st (m + n)
  | [], _, _ => by simp [restAfter]
  | (t, lp) :: st, m, n => by
    by_cases hm : m = 0
    · subst hm
      rw [restAfter_zero, Nat.zero_add]
    · by_cases hle : t.length ≤ m
      · have e1 : restAfter ((t, lp) :: st) m = restAfter st (m - t.length) := by
          rw [restAfter, if_neg hm, if_pos hle]
        have e2 : restAfter ((t, lp) :: st) (m + n) = restAfter st (m + n - t.length) := by
          rw [restAfter, if_neg (by omega), if_pos (by omega)]
        rw [e1, e2, restAfter_add st _ n]
        congr 1
        omega
      · have e1 : restAfter ((t, lp) :: st) m = (t.drop m, lp) :: st := by
          rw [restAfter, if_neg hm, if_neg hle]
        rw [e1]
        by_cases hn : n = 0
        · subst hn
          rw [restAfter_zero, Nat.add_zero, e1]
        · rw [restAfter, if_neg hn]
          simp only [List.length_drop, List.drop_drop]
          by_cases hl : t.length ≤ m + n
          · have e2 : restAfter ((t, lp) :: st) (m + n) = restAfter st (m + n - t.length) := by
              rw [restAfter, if_neg (by omega), if_pos hl]
            rw [if_pos (by omega), e2]
            congr 1
            omega
          · have e2 : restAfter ((t, lp) :: st) (m + n) = (t.drop (m + n), lp) :: st := by
              rw [restAfter, if_neg (by omega), if_neg hl]
            rw [if_neg (by omega), e2]

theorem restAfter_head : ∀ (st : List (Text × R)) (o n : Nat), NoEmpty st →
    (restAfter st n).head?.map Prod.snd
      = ((spansFrom o st).find? fun x => decide (o + n < x.2.1)).map fun x => x.2.2
  | [], _, _, _ => by simp [restAfter, spansFrom]
  | (t, lp) :: st, o, n, h => by
    have ht : 0 < t.length := List.length_pos_iff.2 (h (t, lp) (by simp))
    have hst : NoEmpty st := fun x hx => h x (by simp [hx])
    rw [spansFrom, List.find?_cons]
    by_cases hlt : n < t.length
    · rw [show decide (o + n < (o, o + t.length, lp).2.1) = true by simp; omega]
      unfold restAfter
      split
      · rfl
      · rw [if_neg (by omega)]
        rfl
    · rw [show decide (o + n < (o, o + t.length, lp).2.1) = false by simp; omega]
      rw [restAfter, if_neg (by omega), if_pos (by omega), restAfter_head st (o + t.length) _ hst]
      simp only []
      rw [show o + t.length + (n - t.length) = o + n by omega]

theorem advance_nonempty [Add R] [Zero R] (T : List (Text × R)) (hT : NoEmpty T) (s : Nat) (t : Text) (lp : R)
    (st1 : List (Text × R)) (h : advanceFor (restAfter T s) t = some (lp, st1)) :
    lp = nodeLogProb T s t ∧ st1 = restAfter T (s + t.length) := by
  unfold nodeLogProb
  by_cases ht : t = []
  · subst ht
    rw [if_pos rfl]
    have hh := restAfter_head T 0 s hT
    rw [Nat.zero_add] at hh
    have hne := restAfter_noEmpty T s hT
    rw [List.length_nil, Nat.add_zero]
    unfold advanceFor advanceByLength at h
    unfold nextLogProb
    cases hr : restAfter T s with
    | nil =>
      rw [hr] at h hh
      simp only [advanceLoop, List.length_nil] at h
      rw [if_pos trivial] at h
      simp only [Option.some.injEq, Prod.mk.injEq] at h
      simp only [List.head?_nil, Option.map_none] at hh
      rw [Option.map_eq_none_iff.1 hh.symm]
      exact ⟨h.1.symm, h.2.symm⟩
    | cons x r =>
      obtain ⟨u, q⟩ := x
      rw [hr] at h hh hne
      have hu : u ≠ [] := hne (u, q) (by simp)
      have hul : ¬ u.length ≤ 0 := by
        have := List.length_pos_iff.2 hu
        omega
      simp only [advanceLoop, List.length_nil, if_neg hul, List.take_zero, List.append_nil, List.drop_zero] at h
      rw [if_pos trivial] at h
      simp only [Option.some.injEq, Prod.mk.injEq] at h
      simp only [List.head?_cons, Option.map_some] at hh
      obtain ⟨y, hy, hq⟩ := Option.map_eq_some_iff.1 hh.symm
      rw [hy]
      simp only [hq]
      exact ⟨h.1.symm, h.2.symm⟩
  · rw [if_neg ht]
    have hn : 0 < t.length := List.length_pos_iff.2 ht
    obtain ⟨h1, h2⟩ := advanceFor_value _ _ t lp ht h
    refine ⟨?_, by rw [h2, restAfter_add T s _]⟩
    rw [h1, spanLogProb, filter_contributes_rest T 0 s s (s + t.length) (by omega) (by omega), Nat.zero_add,
      filter_contributes_touched s t.length _ hn]

/-! ## Nodes and model tokens without text -/

/-- Without the first `j` of the empty tokens at the start. -/
def dropEmpty : Nat → List (Text × R) → List (Text × R)
  | 0, st => st
  | _ + 1, [] => []
  | j + 1, (t, lp) :: st => if t = [] then dropEmpty j st else (t, lp) :: st

theorem dropEmpty_nil (j : Nat) : dropEmpty j ([] : List (Text × R)) = [] := by
  cases j <;> rfl

theorem dropEmpty_text (j : Nat) (t : Text) (lp : R) (st : List (Text × R)) (ht : t ≠ []) :
    dropEmpty j ((t, lp) :: st) = (t, lp) :: st := by
  cases j with
  | zero => rfl
  | succ j => exact if_neg ht

theorem dropEmpty_succ : ∀ (j : Nat) (st : List (Text × R)), dropEmpty (j + 1) st = dropEmpty 1 (dropEmpty j st)
  | 0, _ => rfl
  | j + 1, [] => rfl
  | j + 1, (t, lp) :: st => by
    by_cases ht : t = []
    · subst ht
      exact dropEmpty_succ j st
    · rw [dropEmpty_text _ t lp st ht, dropEmpty_text _ t lp st ht, dropEmpty_text _ t lp st ht]

theorem restAfter_dropEmpty : ∀ (j : Nat) (st : List (Text × R)) (n : Nat), 0 < n →
    restAfter (dropEmpty j st) n = restAfter st n
  | 0, _, _, _ => rfl
  | j + 1, [], _, _ => rfl
  | j + 1, (t, lp) :: st, n, hn => by
    by_cases ht : t = []
    · subst ht
      have : restAfter (([], lp) :: st) n = restAfter st n := by
        rw [restAfter, if_neg (by omega), if_pos (by simp)]
        rfl
      rw [this]
      exact restAfter_dropEmpty j st n hn
    · rw [dropEmpty_text _ t lp st ht]

theorem spansFrom_start {o : Nat} {st : List (Text × R)} {x : Nat × Nat × R} (h : x ∈ spansFrom o st) :
    o ≤ x.1 ∧ x.1 ≤ x.2.1 := by
  induction st generalizing o with
  | nil => simp [spansFrom] at h
  | cons p st ih =>
    obtain ⟨t, lp⟩ := p
    rw [spansFrom, List.mem_cons] at h
    rcases h with rfl | h
    · exact ⟨Nat.le_refl _, Nat.le_add_right _ _⟩
    · have := ih h
      exact ⟨by omega, this.2⟩

/-- Is the span left at the offset `s`? -/
def leftAt (s : Nat) (x : Nat × Nat × R) : Bool :=
  decide (s < x.2.1) || (decide (x.1 = s) && decide (x.2.1 = s))

theorem spans_restAfter : ∀ (st : List (Text × R)) (o n : Nat),
    spansFrom (o + n) (restAfter st n)
      = ((spansFrom o st).filter (leftAt (o + n))).map fun x => (max x.1 (o + n), x.2)
  | [], _, _ => rfl
  | (t, lp) :: st, o, n => by
    have keepAll : ∀ (s o' : Nat) (st : List (Text × R)), s ≤ o' →
        ((spansFrom o' st).filter (leftAt s)).map (fun x => (max x.1 s, x.2)) = spansFrom o' st := by
      intro s o' st hs
      rw [List.filter_eq_self.2 fun x hx => ?_]
      · refine (List.map_congr_left (g := id) fun x hx => ?_).trans (List.map_id _)
        have := (spansFrom_start hx).1
        rw [Nat.max_eq_left (by omega)]
        rfl
      · have := spansFrom_start hx
        simp only [leftAt, Bool.or_eq_true, Bool.and_eq_true, decide_eq_true_eq]
        omega
    by_cases hn : n = 0
    · subst hn
      rw [restAfter_zero, Nat.add_zero, keepAll _ _ _ (Nat.le_refl _)]
    · by_cases hl : t.length ≤ n
      · have hk : leftAt (o + n) (o, o + t.length, lp) = false := by
          simp only [leftAt, Bool.or_eq_false_iff, Bool.and_eq_false_iff, decide_eq_false_iff_not]
          omega
        rw [restAfter, if_neg hn, if_pos hl, spansFrom, List.filter_cons, hk]
        have ih := spans_restAfter st (o + t.length) (n - t.length)
        rw [show o + t.length + (n - t.length) = o + n by omega] at ih
        simpa using ih
      · have hk : leftAt (o + n) (o, o + t.length, lp) = true := by
          simp only [leftAt, Bool.or_eq_true, Bool.and_eq_true, decide_eq_true_eq]
          omega
        rw [restAfter, if_neg hn, if_neg hl, spansFrom, spansFrom, List.filter_cons, hk, if_pos rfl, List.map_cons,
          keepAll _ _ _ (by omega), List.length_drop, show o + n + (t.length - n) = o + t.length by omega]
        simp only [List.cons.injEq, and_true, Prod.mk.injEq]
        omega

theorem spans_dropEmpty : ∀ (j : Nat) (s : Nat) (st : List (Text × R)),
    spansFrom s (dropEmpty j st)
      = ((spansFrom s st).filter fun x => decide (x.1 = s) && decide (x.2.1 = s)).drop j
        ++ (spansFrom s st).filter fun x => decide (s < x.2.1)
  | j, s, [] => by simp [dropEmpty_nil, spansFrom]
  | j, s, (t, lp) :: st => by
    by_cases ht : t = []
    · subst ht
      have e : spansFrom s (([], lp) :: st) = (s, s, lp) :: spansFrom s st := rfl
      rw [e, List.filter_cons, List.filter_cons]
      simp only [decide_true, Bool.and_self, if_true, Nat.lt_irrefl, decide_false, Bool.false_eq_true, if_false]
      cases j with
      | zero =>
        have := spans_dropEmpty 0 s st
        simp only [List.drop_zero, List.cons_append] at this ⊢
        rw [← this]
        rfl
      | succ j => exact spans_dropEmpty j s st
    · have hl : 0 < t.length := List.length_pos_iff.2 ht
      rw [dropEmpty_text j t lp st ht, List.filter_eq_nil_iff.2 fun x hx => ?_, List.filter_eq_self.2 fun x hx => ?_]
      · simp
      · rw [spansFrom, List.mem_cons] at hx
        rcases hx with rfl | hx
        · simpa using hl
        · have := spansFrom_start hx
          simp only [decide_eq_true_eq]
          omega
      · rw [spansFrom, List.mem_cons] at hx
        rcases hx with rfl | hx
        · simpa using ht
        · have := spansFrom_start hx
          simp only [Bool.and_eq_true, decide_eq_true_eq]
          omega

theorem spans_pending (T : List (Text × R)) (s j : Nat) :
    spansFrom s (dropEmpty j (restAfter T s)) = (pendingSpans T s j).map fun x => (max x.1 s, x.2) := by
  have h := spans_restAfter T 0 s
  rw [Nat.zero_add] at h
  rw [spans_dropEmpty, h, pendingSpans, List.map_append, List.filter_map, List.filter_map, List.filter_filter,
    List.filter_filter, List.map_drop]
  refine congrArg₂ (fun a b => List.drop j (List.map _ a) ++ List.map _ b) ?_ ?_
  · refine List.filter_congr fun x hx => ?_
    have := (spansFrom_start hx).2
    simp only [Function.comp, leftAt]
    rw [Bool.eq_iff_iff]
    simp only [Bool.or_eq_true, Bool.and_eq_true, decide_eq_true_eq]
    omega
  · refine List.filter_congr fun x hx => ?_
    simp only [Function.comp, leftAt]
    rw [Bool.eq_iff_iff]
    simp only [Bool.or_eq_true, Bool.and_eq_true, decide_eq_true_eq]
    omega

theorem touched_spans : ∀ (st : List (Text × R)) (s n : Nat), 0 < n →
    touched st n = ((spansFrom s st).filter fun x => decide (x.1 < s + n)).map fun x => x.2.2
  | [], _, _, _ => rfl
  | (t, lp) :: st, s, n, hn => by
    have hd : decide ((s, s + t.length, lp).1 < s + n) = true := by simpa using hn
    rw [touched, spansFrom, List.filter_cons, hd, if_pos rfl, List.map_cons]
    congr 1
    by_cases hl : t.length < n
    · rw [if_pos hl, touched_spans st (s + t.length) (n - t.length) (by omega),
        show s + t.length + (n - t.length) = s + n by omega]
    · rw [if_neg hl, List.filter_eq_nil_iff.2 fun x hx => ?_]
      · rfl
      · have := spansFrom_start hx
        simp only [decide_eq_true_eq]
        omega

theorem spansFrom_logProbs (s : Nat) (st : List (Text × R)) : (spansFrom s st).map (fun x => x.2.2) = st.map Prod.snd := by
  induction st generalizing s with
  | nil => rfl
  | cons p st ih => rw [spansFrom, List.map_cons, ih, List.map_cons]

theorem pending_touched (T : List (Text × R)) (s j n : Nat) (hn : 0 < n) :
    touched (dropEmpty j (restAfter T s)) n
      = ((pendingSpans T s j).filter fun x => decide (x.1 < s + n)).map fun x => x.2.2 := by
  rw [touched_spans _ s n hn, spans_pending, List.filter_map, List.map_map]
  refine congrArg (List.map _) (List.filter_congr fun x _ => ?_)
  simp only [Function.comp]
  rw [decide_eq_decide]
  omega

/-- The position after a node: its offset, and how many nodes without text were met at it. -/
def nextPlace (p : Nat × Nat) (t : Text) : Nat × Nat := if t = [] then (p.1, p.2 + 1) else (p.1 + t.length, 0)

theorem advance_pending [Add R] [Zero R] (T : List (Text × R)) (p : Nat × Nat) (t : Text) (lp : R)
    (st1 : List (Text × R)) (h : advanceFor (dropEmpty p.2 (restAfter T p.1)) t = some (lp, st1)) :
    lp = nodeLogProbAt T p.1 p.2 t ∧ st1 = dropEmpty (nextPlace p t).2 (restAfter T (nextPlace p t).1) := by
  obtain ⟨s, j⟩ := p
  unfold nodeLogProbAt nextPlace
  by_cases ht : t = []
  · subst ht
    rw [if_pos rfl, if_pos rfl]
    have hs : (pendingSpans T s j).map (fun x => x.2.2) = (dropEmpty j (restAfter T s)).map Prod.snd := by
      rw [← spansFrom_logProbs s, spans_pending, List.map_map]
      rfl
    rw [List.map_take, hs]
    simp only [dropEmpty_succ j]
    simp only at h
    generalize dropEmpty j (restAfter T s) = st at h
    unfold advanceFor advanceByLength at h
    cases st with
    | nil =>
      simp only [advanceLoop, List.length_nil] at h
      rw [if_pos trivial] at h
      simp only [Option.some.injEq, Prod.mk.injEq] at h
      exact ⟨h.1.symm, h.2.symm⟩
    | cons x st =>
      obtain ⟨u, q⟩ := x
      by_cases hu : u = []
      · subst hu
        simp only [advanceLoop, List.length_nil, Nat.le_refl, if_true, Nat.sub_self, List.append_nil] at h
        rw [Option.some.injEq, Prod.mk.injEq] at h
        exact ⟨h.1.symm, h.2.symm⟩
      · have hul : ¬ u.length ≤ 0 := by
          have := List.length_pos_iff.2 hu
          omega
        simp only [advanceLoop, List.length_nil, if_neg hul, List.take_zero, List.append_nil, List.drop_zero] at h
        rw [if_pos trivial] at h
        simp only [Option.some.injEq, Prod.mk.injEq] at h
        refine ⟨h.1.symm, ?_⟩
        rw [dropEmpty_text 1 u q st hu]
        exact h.2.symm
  · have hn : 0 < t.length := List.length_pos_iff.2 ht
    obtain ⟨h1, h2⟩ := advanceFor_value _ _ t lp ht h
    rw [if_neg ht, if_neg ht]
    refine ⟨?_, ?_⟩
    · rw [h1, pending_touched T s j _ hn]
    · rw [h2, restAfter_dropEmpty j _ _ hn, restAfter_add]
      rfl

theorem foldl_place (ns : List (Node M)) :
    ns.foldl (stepNode nextPlace) (0, 0) = ((ns.flatMap leafText).length,
      ((ns.reverse.takeWhile fun n => (leafText n).isEmpty).filter isTextLeaf).length) := by
  induction ns using List.reverseRecOn with
  | nil => rfl
  | append_singleton ns n ih =>
    rw [List.foldl_append, ih, List.foldl_cons, List.foldl_nil, List.flatMap_append, List.reverse_append]
    simp only [List.flatMap_cons, List.flatMap_nil, List.append_nil, List.reverse_cons, List.reverse_nil,
      List.nil_append, List.singleton_append, List.takeWhile_cons, List.length_append]
    generalize (ns.reverse.takeWhile fun n => (leafText n).isEmpty) = L
    generalize (ns.flatMap leafText).length = o
    cases n with
    | tok t mt => cases t <;> rfl
    | deco t => cases t <;> rfl
    | _ => rfl

end RUSure.Lemmas
