import Verif.Lemmas.GatedDag
import Verif.Lemmas.Relax
import Verif.Spec.Convert
import Mathlib.Tactic.Push
import Mathlib.Data.List.Induction

/-! # The tables computed by the conversion -/

set_option linter.unusedSectionVars false

namespace RUSure.Lemmas
open RUSure RUSure.Spec

/-! ## Index dictionaries -/

section
variable {α : Type} [DecidableEq α]

theorem dictIndex_get {l : List α} {a : α} {i : Nat} (h : dictIndex l a = some i) :
    l[i]? = some a := by
  induction l generalizing i with
  | nil => simp [dictIndex] at h
  | cons x xs ih =>
    simp only [dictIndex] at h
    cases hd : dictIndex xs a with
    | some j =>
      rw [hd] at h
      simp only [Option.some.injEq] at h
      subst h
      simpa using ih hd
    | none =>
      rw [hd] at h
      simp only at h
      split at h
      · simp only [Option.some.injEq] at h
        subst h
        simp [*]
      · simp at h

theorem dictIndex_lt {l : List α} {a : α} {i : Nat} (h : dictIndex l a = some i) : i < l.length := by
  have := dictIndex_get h
  by_contra hc
  rw [List.getElem?_eq_none (by omega)] at this
  simp at this

theorem dictIndex_mem {l : List α} {a : α} {i : Nat} (h : dictIndex l a = some i) : a ∈ l :=
  List.mem_of_getElem? (dictIndex_get h)

theorem dictIndex_isSome {l : List α} {a : α} (h : a ∈ l) : ∃ i, dictIndex l a = some i := by
  induction l with
  | nil => simp at h
  | cons x xs ih =>
    simp only [dictIndex]
    cases hd : dictIndex xs a with
    | some j => exact ⟨_, rfl⟩
    | none =>
      rcases List.mem_cons.1 h with rfl | h
      · simp
      · obtain ⟨i, hi⟩ := ih h
        rw [hi] at hd
        simp at hd

theorem dictIndex_inj {l : List α} {a b : α} {i : Nat} (h : dictIndex l a = some i)
    (h' : dictIndex l b = some i) : a = b := by
  have := dictIndex_get h
  rw [dictIndex_get h'] at this
  simpa using this.symm

theorem dictIndex_of_get {l : List α} (hn : l.Nodup) {a : α} {i : Nat} (h : l[i]? = some a) :
    dictIndex l a = some i := by
  obtain ⟨j, hj⟩ := dictIndex_isSome (List.mem_of_getElem? h)
  have hg := dictIndex_get hj
  have hi : i < l.length := by
    by_contra hc; rw [List.getElem?_eq_none (by omega)] at h; simp at h
  have := (List.getElem?_inj hi hn).1 (h.trans hg.symm)
  rw [this, hj]

end

/-! ## First occurrences -/

section
variable {σ ε : Type} [DecidableEq σ]

theorem firstSeen_snoc (f : ε → σ) (es : List ε) (e : ε) :
    firstSeen f (es ++ [e])
      = if f e ∈ firstSeen f es then firstSeen f es else firstSeen f es ++ [f e] := by
  unfold firstSeen
  rw [List.foldl_append]
  rfl

theorem mem_firstSeen {f : ε → σ} {es : List ε} {s : σ} :
    s ∈ firstSeen f es ↔ ∃ e ∈ es, f e = s := by
  induction es using List.reverseRecOn with
  | nil => simp [firstSeen]
  | append_singleton es e ih =>
    rw [firstSeen_snoc]
    split
    · rw [ih]
      constructor
      · rintro ⟨e', h, rfl⟩; exact ⟨e', by simp [h], rfl⟩
      · rintro ⟨e', h, rfl⟩
        rcases List.mem_append.1 h with h | h
        · exact ⟨e', h, rfl⟩
        · obtain rfl := List.mem_singleton.1 h
          exact ih.1 (by assumption)
    · rw [List.mem_append, ih]
      constructor
      · rintro (⟨e', h, rfl⟩ | h)
        · exact ⟨e', by simp [h], rfl⟩
        · exact ⟨e, by simp, (List.mem_singleton.1 h).symm⟩
      · rintro ⟨e', h, rfl⟩
        rcases List.mem_append.1 h with h | h
        · exact .inl ⟨e', h, rfl⟩
        · rw [List.mem_singleton.1 h]; exact .inr (by simp)

theorem firstSeen_nodup (f : ε → σ) (es : List ε) : (firstSeen f es).Nodup := by
  induction es using List.reverseRecOn with
  | nil => simp [firstSeen]
  | append_singleton es e ih =>
    rw [firstSeen_snoc]
    split
    · exact ih
    · rw [List.nodup_append]
      refine ⟨ih, by simp, ?_⟩
      intro a ha b hb h
      rw [List.mem_singleton.1 hb] at h
      subst h
      contradiction

theorem firstSeen_sublist (f : ε → σ) (es : List ε) : (firstSeen f es).Sublist (es.map f) := by
  induction es using List.reverseRecOn with
  | nil => simp [firstSeen]
  | append_singleton es e ih =>
    rw [firstSeen_snoc, List.map_append]
    split
    · exact ih.trans (List.sublist_append_left _ _)
    · exact ih.append (List.Sublist.refl _)

theorem firstSeen_head (f : ε → σ) (e : ε) (es : List ε) :
    ∃ r, firstSeen f (e :: es) = f e :: r := by
  induction es using List.reverseRecOn with
  | nil => exact ⟨[], by simp [firstSeen]⟩
  | append_singleton es e' ih =>
    obtain ⟨r, hr⟩ := ih
    rw [← List.cons_append, firstSeen_snoc, hr]
    split
    · exact ⟨r, rfl⟩
    · exact ⟨_, rfl⟩

theorem firstSeen_topo {src dst : ε → σ} {es : List ε} (ht : TopoWeak src dst es) :
    (firstSeen src es).Pairwise (fun x y => ∀ e ∈ es, src e = y → dst e ≠ x) := by
  induction es using List.reverseRecOn with
  | nil => simp [firstSeen]
  | append_singleton es e ih =>
    rw [TopoWeak, List.pairwise_append] at ht
    obtain ⟨h1, -, h2⟩ := ht
    have key : ∀ x ∈ firstSeen src es, dst e ≠ x := by
      intro x hx
      obtain ⟨e0, he0, rfl⟩ := mem_firstSeen.1 hx
      exact h2 e0 he0 e (by simp)
    have ih' := ih h1
    have step : (firstSeen src es).Pairwise
        (fun x y => ∀ e' ∈ es ++ [e], src e' = y → dst e' ≠ x) := by
      refine List.Pairwise.imp_of_mem ?_ ih'
      intro x y hx hy h e' he' hs
      rcases List.mem_append.1 he' with h' | h'
      · exact h e' h' hs
      · rw [List.mem_singleton.1 h']; exact key x hx
    rw [firstSeen_snoc]
    split
    · exact step
    · rename_i hnew
      rw [List.pairwise_append]
      refine ⟨step, by simp, ?_⟩
      intro x hx y hy e' he' hs
      rw [List.mem_singleton.1 hy] at hs
      rcases List.mem_append.1 he' with h' | h'
      · exact absurd (mem_firstSeen.2 ⟨e', h', hs⟩) hnew
      · rw [List.mem_singleton.1 h']; exact key x hx

end

section
variable {S K V I : Type} [DecidableEq S] [LinearOrder K] [LinearOrder V]

theorem sources_eq (d : Dag S K V I) : d.sourcesInOrder = firstSeen Edge.source d.edges := rfl

theorem tableOrder_eq (es : List (TaggedEdge S V)) :
    tableOrder es = firstSeen TaggedEdge.source es := rfl

/-! ## Variable keys -/

theorem mem_orderedKeys {d : Dag S K V I} {k : K} :
    k ∈ d.orderedKeys ↔ ∃ e ∈ d.edges, ∃ x, e.req = some (k, x) := by
  simp [Dag.orderedKeys, List.mem_mergeSort, List.mem_dedup]

theorem orderedKeys_nodup (d : Dag S K V I) : d.orderedKeys.Nodup := by
  unfold Dag.orderedKeys
  exact (List.mergeSort_perm _ _).nodup_iff.2 (List.nodup_dedup _)

theorem orderedKeys_sorted (d : Dag S K V I) : d.orderedKeys.Pairwise (· < ·) := by
  have h1 : d.orderedKeys.Pairwise (fun a b => decide (a ≤ b) = true) := by
    unfold Dag.orderedKeys
    apply List.pairwise_mergeSort
    · intro a b c h1 h2
      simp only [decide_eq_true_eq] at *
      exact le_trans h1 h2
    · intro a b
      simp only [Bool.or_eq_true, decide_eq_true_eq]
      exact le_total a b
  have h2 := orderedKeys_nodup d
  refine List.Pairwise.imp₂ ?_ h1 h2
  intro a b h h'
  exact lt_of_le_of_ne (by simpa using h) h'

theorem sorted_index {l : List K} (h : l.Pairwise (· < ·)) {i j : Nat} {a b : K}
    (hi : l[i]? = some a) (hj : l[j]? = some b) : a < b ↔ i < j := by
  have key : ∀ {i j : Nat} {a b : K}, l[i]? = some a → l[j]? = some b → i < j → a < b := by
    intro i j a b hi hj hij
    rw [List.pairwise_iff_getElem] at h
    obtain ⟨hi', rfl⟩ := List.getElem?_eq_some_iff.1 hi
    obtain ⟨hj', rfl⟩ := List.getElem?_eq_some_iff.1 hj
    exact h i j hi' hj' hij
  constructor
  · intro hab
    rcases Nat.lt_trichotomy i j with h1 | h1 | h1
    · exact h1
    · subst h1
      rw [hi] at hj
      simp only [Option.some.injEq] at hj
      subst hj
      exact absurd hab (lt_irrefl _)
    · exact absurd hab (lt_asymm (key hj hi h1))
  · exact key hi hj

theorem keyIndex_none {keys : List K} {e : Edge S K V I} (hk : ∀ k x, e.req = some (k, x) → k ∈ keys) :
    e.keyIndex keys = none ↔ e.req = none := by
  unfold Edge.keyIndex
  cases hr : e.req with
  | none => simp
  | some kx =>
    obtain ⟨i, hi⟩ := dictIndex_isSome (hk kx.1 kx.2 hr)
    simp [hi]

theorem keyIndex_some {keys : List K} {e : Edge S K V I} {i : Nat} (h : e.keyIndex keys = some i) :
    ∃ k x, e.req = some (k, x) ∧ keys[i]? = some k ∧ i < keys.length := by
  unfold Edge.keyIndex at h
  cases hr : e.req with
  | none => rw [hr] at h; simp at h
  | some kx =>
    rw [hr] at h
    exact ⟨kx.1, kx.2, rfl, dictIndex_get h, dictIndex_lt h⟩

/-! ## `largest_possible_before` -/

theorem tableMax_ge (t : S → Option Nat) (s : S) (u : Nat) (x : S) (c : Nat) (h : t x = some c) :
    ∃ c', tableMax t s u x = some c' ∧ c ≤ c' := by
  unfold tableMax
  split
  · subst x; rw [h]; exact ⟨_, rfl, Nat.le_max_left _ _⟩
  · exact ⟨c, h, le_refl _⟩

theorem tableMax_self (t : S → Option Nat) (s : S) (u : Nat) :
    ∃ c, tableMax t s u s = some c ∧ u ≤ c := by
  unfold tableMax
  rw [if_pos rfl]
  cases t s with
  | none => exact ⟨_, rfl, le_refl _⟩
  | some c => exact ⟨_, rfl, Nat.le_max_right _ _⟩

theorem tableMax_attained (t : S → Option Nat) (s : S) (u : Nat) (x : S) (c : Nat)
    (h : tableMax t s u x = some c) : t x = some c ∨ (x = s ∧ c = u) := by
  unfold tableMax at h
  split at h
  · subst x
    cases ht : t s with
    | none => rw [ht] at h; simp only [Option.some.injEq] at h; exact .inr ⟨rfl, h.symm⟩
    | some c' =>
      rw [ht] at h
      simp only [Option.some.injEq] at h
      rcases Nat.le_total c' u with h' | h'
      · right; refine ⟨rfl, ?_⟩; omega
      · left; congr 1; omega
  · exact .inl h

theorem tableMax_ne (t : S → Option Nat) (s : S) (u : Nat) (x : S) (h : x ≠ s) :
    tableMax t s u x = t x := by simp [tableMax, h]

theorem possibleLoop_frame {keys : List K} {es : List (Edge S K V I)} {t T : S → Option Nat}
    (h : possibleLoop keys es t = some T) (s : S) (hs : ∀ e ∈ es, e.dest ≠ s) : T s = t s := by
  induction es generalizing t with
  | nil => simp only [possibleLoop, Option.some.injEq] at h; rw [h]
  | cons e es ih =>
    simp only [possibleLoop] at h
    cases hp : possibleStep keys t e with
    | none => rw [hp] at h; simp at h
    | some t' =>
      rw [hp] at h
      rw [ih h (fun e' he' => hs e' (by simp [he']))]
      have hd := hs e (by simp)
      unfold possibleStep at hp
      cases hk : e.keyIndex keys with
      | some i =>
        rw [hk] at hp
        simp only [Option.some.injEq] at hp
        rw [← hp, tableMax_ne _ _ _ _ (Ne.symm hd)]
      | none =>
        rw [hk] at hp
        cases hu : t e.source with
        | none => rw [hu] at hp; simp at hp
        | some u =>
          rw [hu] at hp
          simp only [Option.some.injEq] at hp
          rw [← hp, tableMax_ne _ _ _ _ (Ne.symm hd)]

theorem possibleLoop_spec {keys : List K} {es : List (Edge S K V I)} {t T : S → Option Nat}
    (ht : Topo Edge.source Edge.dest es) (h : possibleLoop keys es t = some T) :
    (∀ s c, t s = some c → ∃ c', T s = some c' ∧ c ≤ c')
    ∧ (∀ e ∈ es, (e.keyIndex keys = none → ∃ u, T e.source = some u)
        ∧ ∃ c, T e.dest = some c ∧ e.arrivalTag keys T ≤ c)
    ∧ (∀ s c, T s = some c → t s = some c ∨ ∃ e ∈ es, e.dest = s ∧ e.arrivalTag keys T = c) := by
  induction es generalizing t with
  | nil =>
    simp only [possibleLoop, Option.some.injEq] at h
    subst h
    exact ⟨fun s c h => ⟨c, h, le_refl _⟩, by simp, fun s c h => .inl h⟩
  | cons e es ih =>
    have hframe : ∀ T', possibleLoop keys es T' = some T → T e.source = T' e.source := by
      intro T' h'
      refine possibleLoop_frame h' _ ?_
      intro e' he'
      exact (List.pairwise_cons.1 ht.1).1 e' he'
    have hself := ht.2 e (by simp)
    simp only [possibleLoop] at h
    cases hp : possibleStep keys t e with
    | none => rw [hp] at h; simp at h
    | some t' =>
      rw [hp] at h
      obtain ⟨i1, i2, i3⟩ := ih ⟨(List.pairwise_cons.1 ht.1).2, fun e' he' => ht.2 e' (by simp [he'])⟩ h
      -- the update performed by `e`
      have hupd : t' = tableMax t e.dest (e.arrivalTag keys T)
          ∧ (e.keyIndex keys = none → ∃ u, T e.source = some u) := by
        unfold possibleStep at hp
        unfold Edge.arrivalTag
        cases hk : e.keyIndex keys with
        | some i =>
          rw [hk] at hp
          simp only [Option.some.injEq] at hp
          exact ⟨hp.symm, by simp⟩
        | none =>
          rw [hk] at hp
          cases hu : t e.source with
          | none => rw [hu] at hp; simp at hp
          | some u =>
            rw [hu] at hp
            simp only [Option.some.injEq] at hp
            have : T e.source = some u := by
              rw [hframe t' h, ← hp, tableMax_ne _ _ _ _ (Ne.symm hself), hu]
            rw [this]
            exact ⟨hp.symm, fun _ => ⟨u, rfl⟩⟩
      obtain ⟨rfl, hsrc⟩ := hupd
      refine ⟨?_, ?_, ?_⟩
      · intro s c hs
        obtain ⟨c1, h1, h1'⟩ := tableMax_ge t e.dest (e.arrivalTag keys T) s c hs
        obtain ⟨c2, h2, h2'⟩ := i1 s c1 h1
        exact ⟨c2, h2, h1'.trans h2'⟩
      · intro e' he'
        rcases List.mem_cons.1 he' with rfl | he'
        · refine ⟨hsrc, ?_⟩
          obtain ⟨c1, h1, h1'⟩ := tableMax_self t e'.dest (e'.arrivalTag keys T)
          obtain ⟨c2, h2, h2'⟩ := i1 _ c1 h1
          exact ⟨c2, h2, h1'.trans h2'⟩
        · exact i2 e' he'
      · intro s c hs
        rcases i3 s c hs with h3 | ⟨e', he', h3⟩
        · rcases tableMax_attained _ _ _ _ _ h3 with h4 | ⟨rfl, h4⟩
          · exact .inl h4
          · exact .inr ⟨e, by simp, rfl, h4.symm⟩
        · exact .inr ⟨e', by simp [he'], h3⟩

theorem possibleLoop_le {keys : List K} {es : List (Edge S K V I)} {t T : S → Option Nat} {n : Nat}
    (hn : keys.length ≤ n) (ht : ∀ s c, t s = some c → c ≤ n)
    (h : possibleLoop keys es t = some T) : ∀ s c, T s = some c → c ≤ n := by
  induction es generalizing t with
  | nil => simp only [possibleLoop, Option.some.injEq] at h; subst h; exact ht
  | cons e es ih =>
    simp only [possibleLoop] at h
    cases hp : possibleStep keys t e with
    | none => rw [hp] at h; simp at h
    | some t' =>
      rw [hp] at h
      refine ih ?_ h
      intro s c hs
      unfold possibleStep at hp
      cases hk : e.keyIndex keys with
      | some i =>
        rw [hk] at hp
        simp only [Option.some.injEq] at hp
        rw [← hp] at hs
        rcases tableMax_attained _ _ _ _ _ hs with h1 | ⟨-, rfl⟩
        · exact ht s c h1
        · obtain ⟨-, -, -, -, h2⟩ := keyIndex_some hk
          omega
      | none =>
        rw [hk] at hp
        cases hu : t e.source with
        | none => rw [hu] at hp; simp at hp
        | some u =>
          rw [hu] at hp
          simp only [Option.some.injEq] at hp
          rw [← hp] at hs
          rcases tableMax_attained _ _ _ _ _ hs with h1 | ⟨-, rfl⟩
          · exact ht s c h1
          · exact ht _ _ hu

/-- The loop only fails at an edge whose source no earlier edge (nor the start) leads to. -/
theorem possibleLoop_isSome {keys : List K} {es : List (Edge S K V I)} {t : S → Option Nat}
    (h : ∀ es1 e es2, es = es1 ++ e :: es2 → (t e.source).isSome ∨ ∃ e' ∈ es1, e'.dest = e.source) :
    ∃ T, possibleLoop keys es t = some T := by
  induction es generalizing t with
  | nil => exact ⟨t, rfl⟩
  | cons e es ih =>
    have h0 : (t e.source).isSome := by
      rcases h [] e es rfl with h' | ⟨e', he', -⟩
      · exact h'
      · simp at he'
    obtain ⟨u, hu⟩ := Option.isSome_iff_exists.1 h0
    have hstep : ∃ w, possibleStep keys t e = some (tableMax t e.dest w) := by
      unfold possibleStep
      cases e.keyIndex keys with
      | some i => exact ⟨_, rfl⟩
      | none => rw [hu]; exact ⟨_, rfl⟩
    obtain ⟨w, hw⟩ := hstep
    simp only [possibleLoop, hw]
    apply ih
    intro es1 e1 es2 hes
    rcases h (e :: es1) e1 es2 (by rw [hes]; rfl) with h' | ⟨e', he', hd⟩
    · left
      obtain ⟨c, hc⟩ := Option.isSome_iff_exists.1 h'
      obtain ⟨c', hc', -⟩ := tableMax_ge t e.dest w e1.source c hc
      simp [hc']
    · rcases List.mem_cons.1 he' with rfl | he'
      · left
        obtain ⟨c, hc, -⟩ := tableMax_self t e'.dest w
        rw [← hd, hc]; rfl
      · exact .inr ⟨e', he', hd⟩

/-! ## `largest_guaranteed_before` -/

theorem guaranteedLoop_spec {keys : List K} {lpb : S → Option Nat} (es : List (Edge S K V I))
    (t : S → Option Nat) :
    (∀ s c, t s = some c → ∃ c', guaranteedLoop keys lpb es t s = some c' ∧ c' ≤ c)
    ∧ (∀ e ∈ es, ∃ c, guaranteedLoop keys lpb es t e.dest = some c
        ∧ c ≤ e.arrivalTag keys lpb) := by
  induction es generalizing t with
  | nil => exact ⟨fun s c h => ⟨c, h, le_refl _⟩, by simp⟩
  | cons e es ih =>
    obtain ⟨i1, i2⟩ := ih (tableMin t e.dest (e.arrivalTag keys lpb))
    have hfold : guaranteedLoop keys lpb (e :: es) t
        = guaranteedLoop keys lpb es (tableMin t e.dest (e.arrivalTag keys lpb)) := rfl
    rw [hfold]
    constructor
    · intro s c hs
      have : ∃ c1, tableMin t e.dest (e.arrivalTag keys lpb) s = some c1 ∧ c1 ≤ c := by
        unfold tableMin
        split
        · subst s; rw [hs]; exact ⟨_, rfl, Nat.min_le_left _ _⟩
        · exact ⟨c, hs, le_refl _⟩
      obtain ⟨c1, h1, h1'⟩ := this
      obtain ⟨c2, h2, h2'⟩ := i1 s c1 h1
      exact ⟨c2, h2, h2'.trans h1'⟩
    · intro e' he'
      rcases List.mem_cons.1 he' with rfl | he'
      · have : ∃ c1, tableMin t e'.dest (e'.arrivalTag keys lpb) e'.dest = some c1
            ∧ c1 ≤ e'.arrivalTag keys lpb := by
          unfold tableMin
          rw [if_pos rfl]
          cases t e'.dest with
          | none => exact ⟨_, rfl, le_refl _⟩
          | some c => exact ⟨_, rfl, Nat.min_le_right _ _⟩
        obtain ⟨c1, h1, h1'⟩ := this
        obtain ⟨c2, h2, h2'⟩ := i1 _ c1 h1
        exact ⟨c2, h2, h2'.trans h1'⟩
      · exact i2 e' he'

/-! ## `largest_immediately_after` -/

theorem afterLoop_spec {keys : List K} {lpb : S → Option Nat} {es : List (Edge S K V I)}
    {t T : S → Option Nat} (h : afterLoop keys lpb es t = .ok T) :
    (∀ s c, t s = some c → ∃ c', T s = some c' ∧ c ≤ c')
    ∧ (∀ e ∈ es, ∀ i, e.keyIndex keys = some i →
        (∃ τ, lpb e.source = some τ ∧ τ ≤ i) ∧ ∃ c, T e.source = some c ∧ i ≤ c)
    ∧ (∀ s c, T s = some c → t s = some c ∨ ∃ e ∈ es, e.source = s ∧ e.keyIndex keys = some c) := by
  induction es generalizing t with
  | nil =>
    simp only [afterLoop, Except.ok.injEq] at h
    subst h
    exact ⟨fun s c h => ⟨c, h, le_refl _⟩, by simp, fun s c h => .inl h⟩
  | cons e es ih =>
    simp only [afterLoop] at h
    cases hk : e.keyIndex keys with
    | none =>
      rw [hk] at h
      obtain ⟨i1, i2, i3⟩ := ih h
      refine ⟨i1, ?_, ?_⟩
      · intro e' he' i hi
        rcases List.mem_cons.1 he' with rfl | he'
        · rw [hk] at hi; simp at hi
        · exact i2 e' he' i hi
      · intro s c hs
        rcases i3 s c hs with h' | ⟨e', he', h'⟩
        · exact .inl h'
        · exact .inr ⟨e', by simp [he'], h'⟩
    | some i =>
      rw [hk] at h
      cases hl : lpb e.source with
      | none => rw [hl] at h; simp at h
      | some τ =>
        rw [hl] at h
        simp only at h
        split at h
        · simp at h
        · rename_i hlt
          obtain ⟨i1, i2, i3⟩ := ih h
          refine ⟨?_, ?_, ?_⟩
          · intro s c hs
            obtain ⟨c1, h1, h1'⟩ := tableMax_ge t e.source i s c hs
            obtain ⟨c2, h2, h2'⟩ := i1 s c1 h1
            exact ⟨c2, h2, h1'.trans h2'⟩
          · intro e' he' j hj
            rcases List.mem_cons.1 he' with rfl | he'
            · rw [hk] at hj
              simp only [Option.some.injEq] at hj
              subst hj
              refine ⟨⟨τ, hl, by omega⟩, ?_⟩
              obtain ⟨c1, h1, h1'⟩ := tableMax_self t e'.source i
              obtain ⟨c2, h2, h2'⟩ := i1 _ c1 h1
              exact ⟨c2, h2, h1'.trans h2'⟩
            · exact i2 e' he' j hj
          · intro s c hs
            rcases i3 s c hs with h3 | ⟨e', he', h3⟩
            · rcases tableMax_attained _ _ _ _ _ h3 with h4 | ⟨rfl, rfl⟩
              · exact .inl h4
              · exact .inr ⟨e, by simp, rfl, hk⟩
            · exact .inr ⟨e', by simp [he'], h3⟩

theorem afterLoop_error {keys : List K} {lpb : S → Option Nat} {es : List (Edge S K V I)}
    {t : S → Option Nat} {err : ConvertError} (h : afterLoop keys lpb es t = .error err)
    (hs : ∀ e ∈ es, ∀ i, e.keyIndex keys = some i → (lpb e.source).isSome) :
    err = .ordering ∧ ∃ e ∈ es, ∃ i τ, e.keyIndex keys = some i ∧ lpb e.source = some τ
      ∧ i + 1 ≤ τ := by
  induction es generalizing t with
  | nil => simp [afterLoop] at h
  | cons e es ih =>
    simp only [afterLoop] at h
    cases hk : e.keyIndex keys with
    | none =>
      rw [hk] at h
      obtain ⟨h1, e', he', h2⟩ := ih h (fun e' he' => hs e' (by simp [he']))
      exact ⟨h1, e', by simp [he'], h2⟩
    | some i =>
      rw [hk] at h
      obtain ⟨τ, hl⟩ := Option.isSome_iff_exists.1 (hs e (by simp) i hk)
      rw [hl] at h
      simp only at h
      split at h
      · rename_i hle
        simp only [Except.error.injEq] at h
        exact ⟨h.symm, e, by simp, i, τ, hk, hl, hle⟩
      · obtain ⟨h1, e', he', h2⟩ := ih h (fun e' he' => hs e' (by simp [he']))
        exact ⟨h1, e', by simp [he'], h2⟩

end

end RUSure.Lemmas
