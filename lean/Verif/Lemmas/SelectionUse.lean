import Verif.Lemmas.SelectionReads
import Verif.Lemmas.SelectionItems
import Verif.Lemmas.EditPrice
import Verif.Lemmas.EditAlign

/-!
# What selections show
-/

namespace RUSure.Lemmas
open RUSure RUSure.Spec
variable {M : Type}

/-! ### Edges -/

/-- Costs are finite, and steps that are left out are free. -/
def SFair (e : SelEdge) : Prop := e.cost < ⊤ ∧ (e.req = none → e.info = none → e.cost = 0)

theorem goodEdges_fair [DecidableEq M] {f : SelUtility M} {xs ys : List (SelItem M)} {e : SelEdge}
    (he : e ∈ goodEdges f xs ys) : SFair e := by
  rcases mem_goodEdges.mp he with ⟨p, x, u, -, -, h⟩ | ⟨u, -, rfl⟩
  · simp only [selCell, List.mem_append] at h
    rcases h with (((((h | h) | h) | h) | h) | h) | h
    · cases x <;> simp [selSkip] at h <;> subst h <;> simp [SFair]
    · cases x <;> simp [selStart] at h
      rcases h with rfl | rfl <;> simp [SFair]
    · unfold selTarget at h
      split at h <;> simp at h
      rcases h with rfl | rfl <;> simp [SFair]
    · unfold selMatch at h
      split at h <;> try split at h
      all_goals simp only [List.mem_singleton, List.not_mem_nil] at h
      all_goals subst h; exact ⟨WithTop.coe_lt_top _, by simp⟩
    · cases x <;> simp [selEndMatch] at h
      rcases h with rfl | rfl <;> simp [SFair]
    · split at h <;> simp at h
      subst h
      cases x <;> simp [selPass, SFair, WithTop.coe_lt_top]
    · cases x <;> simp [selEndPass] at h
      subst h; simp [SFair]
  · simp [SFair]

/-- The decisions of steps. -/
def sdecs (ss : List SelStep) : List Decision := ss.filterMap SelStep.decision

/-- The reports of steps. -/
def sinfos (ss : List SelStep) : List SelInfo := ss.filterMap SelStep.info

theorem selDecisions_eq (p : List SelEdge) : selDecisions p = sdecs (selectionOf p) := by
  induction p with
  | nil => rfl
  | cons e p ih =>
    rw [show selectionOf (e :: p) = selLabel e ++ selectionOf p from rfl]
    unfold selDecisions at ih ⊢
    unfold sdecs at ih ⊢
    rw [List.flatMap_cons, ih, List.filterMap_append]
    congr 1
    unfold selLabel
    split
    · next h => simp [h.1]
    · cases h : e.req <;> simp

theorem selInfos_eq (p : List SelEdge) : selInfos p = sinfos (selectionOf p) := by
  induction p with
  | nil => rfl
  | cons e p ih =>
    rw [show selectionOf (e :: p) = selLabel e ++ selectionOf p from rfl]
    unfold selInfos at ih ⊢
    unfold sinfos at ih ⊢
    rw [List.filterMap_append, ← ih]
    unfold selLabel
    split
    · next h => simp [h.2]
    · cases h : e.info <;> simp [h]

theorem selection_cost (p : List SelEdge) (h : ∀ e ∈ p, SFair e) :
    weight Edge.cost p = ((selectionOf p).map SelStep.cost).sum := by
  induction p with
  | nil => rfl
  | cons e p ih =>
    rw [show selectionOf (e :: p) = selLabel e ++ selectionOf p from rfl, List.map_append,
      List.sum_append, ← ih fun e he => h e (by simp [he])]
    unfold weight
    rw [List.map_cons, List.sum_cons]
    congr 1
    unfold selLabel
    split
    · next h' => rw [(h e (by simp)).2 h'.1 h'.2]; simp
    · simp

/-! ### Items of trees -/

/-- What is known about an item of a tree. -/
def ItemOf (toks : List (Nat × Text × M)) (x : SelItem M) : Prop :=
  match x with
  | .tok i t mt => (i, t, mt) ∈ toks
  | x => ∀ y ∈ toks, y.1 ≠ x.index

theorem ItemOf.app {a b : List (Nat × Text × M)} {x : SelItem M} (h : ItemOf a x)
    (hb : ∀ y ∈ b, y.1 ≠ x.index) : ItemOf (a ++ b) x := by
  cases x with
  | tok i t mt => exact List.mem_append_left _ h
  | _ =>
    intro y hy
    rcases List.mem_append.mp hy with hy | hy
    · exact h y hy
    · exact hb y hy

theorem ItemOf.app' {a b : List (Nat × Text × M)} {x : SelItem M} (h : ItemOf b x)
    (hb : ∀ y ∈ a, y.1 ≠ x.index) : ItemOf (a ++ b) x := by
  cases x with
  | tok i t mt => exact List.mem_append_right _ h
  | _ =>
    intro y hy
    rcases List.mem_append.mp hy with hy | hy
    · exact hb y hy
    · exact h y hy

theorem items_of : ∀ (ns : List (Node M)) (i : Nat), ∀ x ∈ items i ns,
    (i ≤ x.index ∧ x.index < i + seqSize ns) ∧ ItemOf (tokens i ns) x
  | [], i => by simp [items]
  | n :: ns, i => by
    intro x hx
    have htk := (tokens_bounds ns (i + 1)).1
    cases n with
    | group cs mt =>
      have h1 := items_of cs (i + 1)
      have h2 := items_of ns (i + 1 + seqSize cs)
      have t1 := (tokens_bounds cs (i + 1)).1
      have t2 := (tokens_bounds ns (i + 1 + seqSize cs)).1
      simp only [items, List.mem_cons, List.mem_append] at hx
      simp only [tokens, seqSize, nodeSize]
      have hi : ∀ y ∈ tokens (i + 1) cs ++ tokens (i + 1 + seqSize cs) ns, y.1 ≠ i := by
        intro y hy
        rcases List.mem_append.mp hy with hy | hy
        · have := t1 y hy; omega
        · have := t2 y hy; omega
      rcases hx with rfl | hx | rfl | hx
      · exact ⟨⟨le_refl _, by simp only [SelItem.index]; omega⟩, hi⟩
      · obtain ⟨a, b⟩ := h1 x hx
        exact ⟨⟨by omega, by omega⟩, b.app fun y hy => by have := t2 y hy; omega⟩
      · exact ⟨⟨le_refl _, by simp only [SelItem.index]; omega⟩, hi⟩
      · obtain ⟨a, b⟩ := h2 x hx
        exact ⟨⟨by omega, by omega⟩, b.app' fun y hy => by have := t1 y hy; omega⟩
    | tok t mt =>
      have h2 := items_of ns (i + 1)
      simp only [items, List.mem_cons] at hx
      simp only [tokens, seqSize, nodeSize]
      rcases hx with rfl | hx
      · exact ⟨⟨le_refl _, by simp only [SelItem.index]; omega⟩, List.mem_cons_self⟩
      · obtain ⟨a, b⟩ := h2 x hx
        exact ⟨⟨by omega, by omega⟩, ItemOf.app' (a := [(i, t, mt)]) b
          fun y hy => by simp at hy; subst hy; simp; omega⟩
    | deco t =>
      simp only [items] at hx
      obtain ⟨a, b⟩ := items_of ns (i + 1) x hx
      simp only [tokens, seqSize, nodeSize]
      exact ⟨⟨by omega, by omega⟩, b⟩
    | _ =>
      have h2 := items_of ns (i + 1)
      simp only [items, List.mem_cons] at hx
      simp only [tokens, seqSize, nodeSize]
      rcases hx with rfl | hx
      · exact ⟨⟨le_refl _, by simp only [SelItem.index]; omega⟩,
          fun y hy => by have := htk y hy; simp only [SelItem.index]; omega⟩
      · obtain ⟨a, b⟩ := h2 x hx
        exact ⟨⟨by omega, by omega⟩, b⟩

theorem lookup_token {l : List (Nat × Text × M)} (hl : l.Pairwise fun x y => x.1 < y.1) :
    ∀ x ∈ l, l.lookup x.1 = some x.2 := by
  intro x hx
  induction l with
  | nil => simp at hx
  | cons y l ih =>
    obtain ⟨h1, h2⟩ := List.pairwise_cons.mp hl
    rcases List.mem_cons.mp hx with rfl | hx
    · simp [List.lookup]
    · have h3 : (x.1 == y.1) = false := by
        have := h1 x hx
        simp only [beq_eq_false_iff_ne, ne_eq]
        omega
      rw [List.lookup, h3]
      exact ih h2 hx

theorem lookup_no_token {l : List (Nat × Text × M)} {i : Nat} (h : ∀ y ∈ l, y.1 ≠ i) :
    l.lookup i = none := by
  induction l with
  | nil => rfl
  | cons y l ih =>
    have h3 : (i == y.1) = false := by
      have := h y (by simp)
      simp only [beq_eq_false_iff_ne, ne_eq]
      omega
    rw [List.lookup, h3]
    exact ih fun z hz => h z (by simp [hz])

/-- A price that agrees with the items. -/
theorem selPrice_item (f : SelUtility M) {proto : List (Node M)} {x : SelItem M}
    (hx : x ∈ items 0 proto) (c : SelCat) (j : Option Nat) :
    selPrice f proto ⟨c, some x.index, j⟩ = match c with
      | .matched => -foundUtility f x
      | .unmatched => lostCost f x
      | _ => 0 := by
  have h := (items_of proto 0 x hx).2
  have hs := (tokens_bounds proto 0).2
  cases x with
  | tok i t mt =>
    have := lookup_token hs _ h
    simp only [selPrice, SelItem.index, Option.bind_some, this]
    cases c <;> simp [foundUtility, lostCost]
  | _ =>
    have := lookup_no_token h
    simp only [selPrice, Option.bind_some, this]
    cases c <;> simp [foundUtility, lostCost]

/-! ### Costs -/

section
variable {f : SelUtility M} {proto : List (Node M)}

/-- The cost of the step is the price of its report. -/
def SPriced (f : SelUtility M) (proto : List (Node M)) (s : SelStep) : Prop :=
  s.cost = (((s.info.toList.map (selPrice f proto)).sum : ℚ) : Cost)

theorem priced_sum {ss : List SelStep} (h : ∀ s ∈ ss, SPriced f proto s) :
    (ss.map SelStep.cost).sum = ((((sinfos ss).map (selPrice f proto)).sum : ℚ) : Cost) := by
  induction ss with
  | nil => rfl
  | cons s ss ih =>
    rw [List.map_cons, List.sum_cons, ih fun x hx => h x (by simp [hx]), h s (by simp)]
    unfold sinfos
    rw [List.filterMap_cons]
    cases hs : s.info with
    | none => simp
    | some i => simp

theorem priced_begin (i : Nat) : SPriced f proto (regionBegins i) := by simp [SPriced, regionBegins]
theorem priced_end (i : Nat) : SPriced f proto (regionEnds i) := by simp [SPriced, regionEnds]
theorem priced_pass (y : SelItem M) : SPriced f proto (passStep y) := by
  simp [SPriced, passStep, selPrice]
theorem priced_outside {x : SelItem M} (hx : x ∈ items 0 proto) :
    SPriced f proto (outsideStep x) := by
  simp [SPriced, outsideStep, selPrice_item f hx]
theorem priced_lost {x : SelItem M} (hx : x ∈ items 0 proto) : SPriced f proto (lostStep f x) := by
  simp [SPriced, lostStep, selPrice_item f hx]
theorem priced_found {x : SelItem M} (hx : x ∈ items 0 proto) (y : SelItem M) :
    SPriced f proto (foundStep f x y) := by
  simp [SPriced, foundStep, selPrice_item f hx]
theorem priced_marker {x : SelItem M} (hx : x ∈ items 0 proto) (hm : IsMarker x) :
    SPriced f proto (markerStep x) := by
  cases hm <;> simp [SPriced, markerStep, selPrice_item f hx, foundUtility]

theorem matches_priced {body found : List (SelItem M)} {ms : List SelStep}
    (h : Matches f body found ms) (hb : ∀ x ∈ body, x ∈ items 0 proto) :
    ∀ s ∈ ms, SPriced f proto s := by
  induction h with
  | nil => simp
  | item _ _ ih =>
    rw [List.forall_mem_cons] at hb ⊢
    exact ⟨priced_found hb.1 _, ih hb.2⟩
  | marker hm _ ih =>
    rw [List.forall_mem_cons] at hb ⊢
    exact ⟨priced_marker hb.1 hm, ih hb.2⟩

theorem selects_priced {X Y : List (SelItem M)} {ss : List SelStep} (h : Selects f X Y ss)
    (hX : ∀ x ∈ X, x ∈ items 0 proto) : ∀ s ∈ ss, SPriced f proto s := by
  induction h with
  | done => simp
  | skip _ _ ih =>
    rw [List.forall_mem_cons] at hX ⊢
    exact ⟨priced_outside hX.1, ih hX.2⟩
  | lost _ _ ih =>
    rw [List.forall_mem_cons, List.forall_mem_append, List.forall_mem_cons] at hX
    rw [List.forall_mem_cons, List.forall_mem_append, List.forall_mem_cons]
    refine ⟨priced_begin _, ?_, priced_end _, ih hX.2.2.2⟩
    intro s hs
    obtain ⟨x, hx, rfl⟩ := List.mem_map.mp hs
    exact priced_lost (hX.2.1 x hx)
  | found _ _ hm _ ih =>
    rw [List.forall_mem_cons, List.forall_mem_append, List.forall_mem_cons] at hX
    rw [List.forall_mem_cons, List.forall_mem_append, List.forall_mem_append,
      List.forall_mem_cons]
    refine ⟨priced_begin _, ?_, matches_priced hm hX.2.1, priced_end _, ih hX.2.2.2⟩
    intro s hs
    obtain ⟨y, hy, rfl⟩ := List.mem_map.mp hs
    exact priced_pass y

/-! ### Matched pairs -/

/-- The pair of a step comes from two items that are the same. -/
def PairOk (X Y : List (SelItem M)) (s : SelStep) : Prop :=
  ∀ ij, s.info.bind SelInfo.foundPair = some ij →
    ∃ x ∈ X, ∃ y ∈ Y, Same x y ∧ (x.index, y.index) = ij

theorem PairOk.mono {X Y X' Y' : List (SelItem M)} {s : SelStep} (h : PairOk X Y s) (h1 : X ⊆ X')
    (h2 : Y ⊆ Y') : PairOk X' Y' s := by
  intro ij hij
  obtain ⟨x, hx, y, hy, h3⟩ := h ij hij
  exact ⟨x, h1 hx, y, h2 hy, h3⟩

theorem matches_pairs {body found : List (SelItem M)} {ms : List SelStep}
    (h : Matches f body found ms) : ∀ s ∈ ms, PairOk body found s := by
  induction h with
  | nil => simp
  | @item x y _ _ _ hs _ ih =>
    rw [List.forall_mem_cons]
    refine ⟨?_, fun s hs => (ih s hs).mono (List.subset_cons_self ..) (List.subset_cons_self ..)⟩
    intro ij hij
    simp only [foundStep, Option.bind_some, SelInfo.foundPair, Option.some.injEq] at hij
    exact ⟨x, by simp, y, by simp, hs, hij⟩
  | marker _ _ ih =>
    rw [List.forall_mem_cons]
    refine ⟨?_, fun s hs => (ih s hs).mono (List.subset_cons_self ..) (List.Subset.refl _)⟩
    intro ij hij
    simp [markerStep, SelInfo.foundPair] at hij

theorem selects_pairs {X Y : List (SelItem M)} {ss : List SelStep} (h : Selects f X Y ss) :
    ∀ s ∈ ss, PairOk X Y s := by
  have triv : ∀ {X Y : List (SelItem M)} {s : SelStep}, s.info.bind SelInfo.foundPair = none →
      PairOk X Y s := by
    intro X Y s h ij hij
    rw [h] at hij; cases hij
  induction h with
  | done => simp
  | skip _ _ ih =>
    rw [List.forall_mem_cons]
    exact ⟨triv rfl, fun s hs => (ih s hs).mono (List.subset_cons_self ..) (List.Subset.refl _)⟩
  | @lost i body k X Y ss _ _ ih =>
    rw [List.forall_mem_cons, List.forall_mem_append, List.forall_mem_cons]
    refine ⟨triv rfl, ?_, triv rfl, fun s hs => (ih s hs).mono (fun x hx => by simp [hx])
      (List.Subset.refl _)⟩
    intro s hs
    obtain ⟨x, hx, rfl⟩ := List.mem_map.mp hs
    exact triv rfl
  | @found i body k X sk fd Y ms ss _ _ hm _ ih =>
    rw [List.forall_mem_cons, List.forall_mem_append, List.forall_mem_append,
      List.forall_mem_cons]
    refine ⟨triv rfl, ?_, fun s hs => (matches_pairs hm s hs).mono (fun x hx => by simp [hx])
      (fun x hx => by simp [hx]), triv rfl, fun s hs => (ih s hs).mono (fun x hx => by simp [hx])
      (fun x hx => by simp [hx])⟩
    intro s hs
    obtain ⟨y, hy, rfl⟩ := List.mem_map.mp hs
    exact triv rfl

/-! ### Decisions -/

/-- The key of an item. -/
def itemKey : SelItem M → Option DecisionKey
  | .tok i _ _ => some ⟨i, .inRegion⟩
  | .opens i _ => some ⟨i, .inRegion⟩
  | .closes _ _ => none
  | .start i => some ⟨i, .start⟩
  | .stop i => some ⟨i, .stop⟩
  | .other i => some ⟨i, .exit⟩

theorem items_keys : ∀ (ns : List (Node M)) (i : Nat),
    (items i ns).filterMap itemKey = seqKeys i ns
  | [], i => by simp [items, seqKeys]
  | n :: ns, i => by
    cases n with
    | group cs mt =>
      have h := items_keys ns (i + 1 + seqSize cs)
      rw [items, List.filterMap_cons, List.filterMap_append, List.filterMap_cons]
      simp only [itemKey, h, items_keys cs, seqKeys, nodeKeys, nodeSize]
      simp [Nat.add_assoc]
    | _ => simp [items, itemKey, seqKeys, nodeKeys, nodeSize, items_keys ns]

/-- The keys of the decisions of steps. -/
def skeys (ss : List SelStep) : List DecisionKey := (sdecs ss).map Prod.fst

theorem skeys_cons (s : SelStep) (ss : List SelStep) :
    skeys (s :: ss) = (s.decision.map Prod.fst).toList ++ skeys ss := by
  unfold skeys sdecs
  rw [List.filterMap_cons]
  cases s.decision <;> rfl

theorem skeys_append (a b : List SelStep) : skeys (a ++ b) = skeys a ++ skeys b := by
  simp [skeys, sdecs]

theorem outside_key {x : SelItem M} (h : IsContent x ∨ IsMarker x) :
    (outsideDecision x).map Prod.fst = itemKey x := by
  rcases h with h | h <;> cases h <;> rfl

theorem inside_key {x : SelItem M} (h : IsContent x ∨ IsMarker x) :
    (insideDecision x).map Prod.fst = itemKey x := by
  rcases h with h | h <;> cases h <;> rfl

theorem keys_cons (x : SelItem M) (xs : List (SelItem M)) :
    (x :: xs).filterMap itemKey = (itemKey x).toList ++ xs.filterMap itemKey := by
  rw [List.filterMap_cons]
  cases itemKey x <;> rfl

theorem lost_keys {body : List (SelItem M)} (h : ∀ x ∈ body, IsContent x ∨ IsMarker x) :
    skeys (body.map (lostStep f)) = body.filterMap itemKey := by
  induction body with
  | nil => rfl
  | cons x body ih =>
    rw [List.forall_mem_cons] at h
    rw [List.map_cons, skeys_cons, keys_cons, ih h.2, show (lostStep f x).decision = insideDecision x
      from rfl, inside_key h.1]

theorem matches_keys {body found : List (SelItem M)} {ms : List SelStep}
    (h : Matches f body found ms) : skeys ms = body.filterMap itemKey := by
  have hp := matches_plain h
  induction h with
  | nil => rfl
  | @item x y _ _ _ _ _ ih =>
    rw [List.forall_mem_cons] at hp
    rw [skeys_cons, keys_cons, ih hp.2, show (foundStep f x y).decision = insideDecision x
      from rfl, inside_key hp.1]
  | @marker x _ _ _ _ _ ih =>
    rw [List.forall_mem_cons] at hp
    rw [skeys_cons, keys_cons, ih hp.2, show (markerStep x).decision = insideDecision x
      from rfl, inside_key hp.1]

theorem pass_keys (sk : List (SelItem M)) : skeys (sk.map passStep) = [] := by
  induction sk with
  | nil => rfl
  | cons y sk ih => rw [List.map_cons, skeys_cons, ih]; rfl

theorem selects_keys {X Y : List (SelItem M)} {ss : List SelStep} (h : Selects f X Y ss) :
    skeys ss = X.filterMap itemKey := by
  induction h with
  | done => rfl
  | @skip x _ _ _ hx _ ih =>
    rw [skeys_cons, keys_cons, ih, show (outsideStep x).decision = outsideDecision x from rfl,
      outside_key hx]
  | lost hb _ ih =>
    rw [skeys_cons, keys_cons, skeys_append, skeys_cons, List.filterMap_append, keys_cons, ih,
      lost_keys hb]
    rfl
  | found _ _ hm _ ih =>
    rw [skeys_cons, keys_cons, skeys_append, skeys_append, skeys_cons, List.filterMap_append,
      keys_cons, ih, matches_keys hm, pass_keys]
    rfl

/-! ### Every choice of regions can be selected -/

theorem sdecs_append (a b : List SelStep) : sdecs (a ++ b) = sdecs a ++ sdecs b := by simp [sdecs]

theorem sdecs_cons (s : SelStep) (ss : List SelStep) :
    sdecs (s :: ss) = s.decision.toList ++ sdecs ss := by
  unfold sdecs
  rw [List.filterMap_cons]
  cases s.decision <;> rfl

theorem items_append : ∀ (ms ns : List (Node M)) (i : Nat),
    items i (ms ++ ns) = items i ms ++ items (i + seqSize ms) ns
  | [], ns, i => by simp [items, seqSize]
  | m :: ms, ns, i => by
    rw [List.cons_append, items_cons, items_append ms ns, items_cons i m ms, seqSize,
      List.append_assoc, Nat.add_assoc]

theorem exits_not_plain {b x : Bool} {i : Nat} {ns : List (Node M)} {ds : List Decision}
    (h : RegionSeq b x i ns ds) : x = true → ¬ ∀ x ∈ items i ns, IsContent x ∨ IsMarker x := by
  induction h with
  | nil => intro h; cases h
  | deco _ ih => intro hx hp; rw [items] at hp; exact ih hx hp
  | tok _ ih => intro hx hp; rw [items, List.forall_mem_cons] at hp; exact ih hx hp.2
  | group _ _ _ ih =>
    intro hx hp
    rw [items, List.forall_mem_cons, List.forall_mem_append, List.forall_mem_cons] at hp
    exact ih hx hp.2.2.2
  | skipStart _ ih => intro hx hp; rw [items, List.forall_mem_cons] at hp; exact ih hx hp.2
  | skipEnd _ ih => intro hx hp; rw [items, List.forall_mem_cons] at hp; exact ih hx hp.2
  | skipExit _ ih => intro hx hp; rw [items, List.forall_mem_cons] at hp; exact ih hx hp.2
  | region _ _ _ ih =>
    intro hx hp
    rw [List.cons_append, items, List.forall_mem_cons, items_append, List.forall_mem_append, items,
      List.forall_mem_cons] at hp
    exact ih hx hp.2.2.2
  | exit =>
    intro hx hp
    rw [items, List.forall_mem_cons] at hp
    rcases hp.1 with h | h <;> cases h
  | exitGroup _ ih =>
    intro hx hp
    rw [items, List.forall_mem_cons, List.forall_mem_append] at hp
    exact ih hx hp.2.1
  | exitRegion _ ih => intro hx hp; rw [items, List.forall_mem_cons] at hp; exact ih hx hp.2

theorem regionSeq_selects {b x : Bool} {i : Nat} {ns : List (Node M)} {ds : List Decision}
    (h : RegionSeq b x i ns ds) (hp : ∀ x ∈ items i ns, IsContent x ∨ IsMarker x) :
    if b then sdecs ((items i ns).map (lostStep f)) = ds
    else ∀ X Y rs, Selects f X Y rs →
      ∃ ss, sdecs ss = ds ∧ Selects f (items i ns ++ X) Y (ss ++ rs) := by
  induction h with
  | nil b i =>
    cases b
    · intro X Y rs h
      exact ⟨[], rfl, by rw [items]; exact h⟩
    · simp [items, sdecs]
  | deco _ ih =>
    rw [items] at hp ⊢
    exact ih hp
  | @tok b x i t mt ns ds _ ih =>
    rw [items] at hp ⊢
    rw [List.forall_mem_cons] at hp
    have ih := ih hp.2
    cases b
    · intro X Y rs h
      obtain ⟨ss, rfl, h1⟩ := ih X Y rs h
      exact ⟨outsideStep (.tok i t mt) :: ss, sdecs_cons .., .skip hp.1 h1⟩
    · simp only [↓reduceIte] at ih ⊢
      rw [List.map_cons, sdecs_cons, ih]
      rfl
  | @group b x i cs mt ns ds ds' _ _ ih ih' =>
    rw [items] at hp ⊢
    rw [List.forall_mem_cons, List.forall_mem_append, List.forall_mem_cons] at hp
    have ih := ih hp.2.1
    have ih' := ih' hp.2.2.2
    cases b
    · intro X Y rs h
      obtain ⟨ss', rfl, h1⟩ := ih' X Y rs h
      obtain ⟨ss, rfl, h2⟩ := ih _ Y _ (.skip hp.2.2.1 h1)
      refine ⟨outsideStep (.opens i mt) :: (ss ++ outsideStep (.closes i mt) :: ss'), ?_, ?_⟩
      · rw [sdecs_cons, sdecs_append, sdecs_cons]; rfl
      · have := Selects.skip hp.1 h2
        simpa using this
    · simp only [↓reduceIte] at ih ih' ⊢
      rw [List.map_cons, sdecs_cons, List.map_append, sdecs_append, List.map_cons, sdecs_cons, ih, ih']
      rfl
  | @skipStart b x i ns ds _ ih =>
    rw [items] at hp ⊢
    rw [List.forall_mem_cons] at hp
    have ih := ih hp.2
    cases b
    · intro X Y rs h
      obtain ⟨ss, rfl, h1⟩ := ih X Y rs h
      exact ⟨outsideStep (.start i : SelItem M) :: ss, sdecs_cons .., .skip hp.1 h1⟩
    · simp only [↓reduceIte] at ih ⊢
      rw [List.map_cons, sdecs_cons, ih]
      rfl
  | @skipEnd b x i ns ds _ ih =>
    rw [items] at hp ⊢
    rw [List.forall_mem_cons] at hp
    have ih := ih hp.2
    cases b
    · intro X Y rs h
      obtain ⟨ss, rfl, h1⟩ := ih X Y rs h
      exact ⟨outsideStep (.stop i : SelItem M) :: ss, sdecs_cons .., .skip hp.1 h1⟩
    · simp only [↓reduceIte] at ih ⊢
      rw [List.map_cons, sdecs_cons, ih]
      rfl
  | skipExit _ ih =>
    rw [items, List.forall_mem_cons] at hp
    rcases hp.1 with h | h <;> cases h
  | @region x i mid ns ds ds' _ _ ih ih' =>
    have he : items i (.rstart :: mid ++ .rend :: ns) = .start i :: (items (i + 1) mid
        ++ .stop (i + 1 + seqSize mid) :: items (i + 1 + seqSize mid + 1) ns) := by
      rw [List.cons_append, items, items_append, items]
    rw [he] at hp ⊢
    rw [List.forall_mem_cons, List.forall_mem_append, List.forall_mem_cons] at hp
    have ih := ih hp.2.1
    have ih' := ih' hp.2.2.2
    intro X Y rs h
    obtain ⟨ss', rfl, h1⟩ := ih' X Y rs h
    simp only [↓reduceIte] at ih
    refine ⟨regionBegins i :: ((items (i + 1) mid).map (lostStep f)
      ++ regionEnds (i + 1 + seqSize mid) :: ss'), ?_, ?_⟩
    · rw [sdecs_cons, sdecs_append, sdecs_cons, ih]; rfl
    · have := Selects.lost (f := f) (i := i) (k := i + 1 + seqSize mid) hp.2.1 h1
      simpa using this
  | exit =>
    rw [items, List.forall_mem_cons] at hp
    rcases hp.1 with h | h <;> cases h
  | exitGroup h' _ =>
    exfalso
    rw [items, List.forall_mem_cons, List.forall_mem_append] at hp
    exact exits_not_plain h' rfl hp.2.1
  | exitRegion h' _ =>
    exfalso
    rw [items, List.forall_mem_cons] at hp
    exact exits_not_plain h' rfl hp.2

end

/-! ### Early exits -/

theorem plain_items : ∀ (ns : List (Node M)) (i : Nat),
    (∀ x ∈ items i ns, IsContent x ∨ IsMarker x) ↔ ¬ Occurs ns .exit
  | [], i => by
    simp only [items, List.not_mem_nil, false_imp_iff, implies_true, true_iff]
    rintro ⟨p, hp⟩
    rcases p with _ | ⟨_ | k, _ | ⟨_, _⟩⟩ <;> cases hp
  | n :: ns, i => by
    rw [occurs_cons]
    have h2 := plain_items ns
    cases n with
    | group cs mt =>
      have h1 := plain_items cs
      rw [items, List.forall_mem_cons, List.forall_mem_append, List.forall_mem_cons, h1, h2]
      constructor
      · rintro ⟨-, a, -, b⟩ (h | ⟨cs', mt', h, h'⟩ | h)
        · cases h
        · cases h; exact a h'
        · exact b h
      · intro h
        exact ⟨.inl (.opens _ _), fun h' => h (.inr (.inl ⟨cs, mt, rfl, h'⟩)), .inl (.closes _ _),
          fun h' => h (.inr (.inr h'))⟩
    | tok t mt =>
      rw [items, List.forall_mem_cons, h2]
      simp [IsContent.tok]
    | deco t => rw [items, h2]; simp
    | rstart =>
      rw [items, List.forall_mem_cons, h2]
      simp [IsMarker.start]
    | rend =>
      rw [items, List.forall_mem_cons, h2]
      simp [IsMarker.stop]
    | exit =>
      rw [items, List.forall_mem_cons, h2]
      constructor
      · rintro ⟨h | h, -⟩ <;> cases h
      · simp

end RUSure.Lemmas
