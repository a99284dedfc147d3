import Verif.Lemmas.EditSequence
import Verif.Lemmas.SelectionUse
import Verif.Lemmas.Solution
import Verif.Spec.MatchGroups
import Verif.Props.Selection

/-!
# Counting and showing a lookup of calls
-/

namespace RUSure.Lemmas
open RUSure RUSure.Spec
variable {M : Type}

/-! ## Tokens of items -/

/-- The token of an item. -/
def itemTok : SelItem M → Option (Text × M)
  | .tok _ t mt => some (t, mt)
  | _ => none

theorem items_toks : ∀ (ns : List (Node M)) (i : Nat),
    (items i ns).filterMap itemTok = (tokens i ns).map Prod.snd
  | [], i => by simp [items, tokens]
  | n :: ns, i => by
    cases n with
    | group cs mt =>
      have h := items_toks ns (i + 1 + seqSize cs)
      rw [items, List.filterMap_cons, List.filterMap_append, List.filterMap_cons]
      simp only [itemTok, h, items_toks cs, tokens, List.map_append]
    | _ => simp [items, itemTok, tokens, items_toks ns, List.filterMap_cons]

/-- The node at the index of an item. -/
def ItemAt (seq : List (Node M)) (x : SelItem M) : Prop :=
  match x with
  | .tok i t mt => (docNodes seq)[i]? = some (.tok t mt)
  | x => ∃ n, (docNodes seq)[x.index]? = some n ∧ ∀ t mt, n ≠ .tok t mt

theorem items_at {seq : List (Node M)} : ∀ (ns : List (Node M)) (i : Nat), PlacedAt seq i ns →
    ∀ x ∈ items i ns, ItemAt seq x
  | [], i, _ => by simp [items]
  | n :: ns, i, h => by
    intro x hx
    cases n with
    | group cs mt =>
      have hh : ∃ n, (docNodes seq)[i]? = some n ∧ ∀ t mt, n ≠ .tok t mt := ⟨_, h.head, by simp⟩
      simp only [items, List.mem_cons, List.mem_append] at hx
      rcases hx with rfl | hx | rfl | hx
      · exact hh
      · exact items_at cs _ h.children x hx
      · exact hh
      · exact items_at ns _ h.rest x hx
    | tok t mt =>
      simp only [items, List.mem_cons] at hx
      rcases hx with rfl | hx
      · exact h.head
      · exact items_at ns _ (h.leaf rfl) x hx
    | deco t =>
      simp only [items] at hx
      exact items_at ns _ (h.leaf rfl) x hx
    | rstart =>
      simp only [items, List.mem_cons] at hx
      rcases hx with rfl | hx
      · exact ⟨_, h.head, by simp⟩
      · exact items_at ns _ (h.leaf rfl) x hx
    | rend =>
      simp only [items, List.mem_cons] at hx
      rcases hx with rfl | hx
      · exact ⟨_, h.head, by simp⟩
      · exact items_at ns _ (h.leaf rfl) x hx
    | exit =>
      simp only [items, List.mem_cons] at hx
      rcases hx with rfl | hx
      · exact ⟨_, h.head, by simp⟩
      · exact items_at ns _ (h.leaf rfl) x hx

theorem item_lookup {seq : List (Node M)} {x : SelItem M} (hx : x ∈ items 0 seq) :
    (tokens 0 seq).lookup x.index = itemTok x := by
  have h := (items_of seq 0 x hx).2
  have hs := (tokens_bounds seq 0).2
  cases x with
  | tok i t mt => exact lookup_token hs _ h
  | _ => exact lookup_no_token h

theorem item_token {seq : List (Node M)} {x : SelItem M} (hx : x ∈ items 0 seq) :
    tokenFor (pack seq) x.index = some ((tokens 0 seq).lookup x.index) := by
  rw [item_lookup hx]
  obtain ⟨hl, hr⟩ := docNodes_ids seq
  have key : ∀ {i : Nat} {n : Node M}, (docNodes seq)[i]? = some n →
      tokenFor (pack seq) i = some (match n with | .tok t mt => some (t, mt) | _ => none) := by
    intro i n h
    have hi : i < (pack seq).preorder.length := by
      rw [hl]
      by_contra hc
      rw [List.getElem?_eq_none (by omega)] at h
      cases h
    obtain ⟨-, h2⟩ := hr i _ n (List.getElem?_eq_getElem hi) h
    rw [tokenFor, List.getElem?_eq_getElem hi]
    cases n with
    | tok t mt =>
      obtain ⟨h3, h4⟩ := h2
      simp [h3, h4]
    | group cs mt =>
      obtain ⟨h3, -⟩ := h2
      simp [h3]
    | deco t =>
      obtain ⟨h3, -⟩ := h2
      simp [h3]
    | rstart => rw [Represents] at h2; simp [h2]
    | rend => rw [Represents] at h2; simp [h2]
    | exit => rw [Represents] at h2; simp [h2]
  have h := items_at seq 0 (placedAt_all seq) x hx
  cases x with
  | tok i t mt => exact key h
  | _ =>
    obtain ⟨n, h1, h2⟩ := h
    rw [key h1]
    cases n <;> first | exact absurd rfl (h2 _ _) | rfl

/-! ## Reports -/

/-- The token that is shown for a report. -/
def shownTok (proto target : List (Node M)) (x : SelInfo) : Option (Text × M) :=
  match x.cat with
  | .skipTarget => x.target.bind fun j => (tokens 0 target).lookup j
  | _ => x.proto.bind fun i => (tokens 0 proto).lookup i

/-- The report is about items of the two sequences. -/
def GoodInfo (proto target : List (Node M)) (x : SelInfo) : Prop :=
  (∀ i, x.proto = some i → ∃ y ∈ items 0 proto, y.index = i)
  ∧ (∀ j, x.target = some j → ∃ y ∈ items 0 target, y.index = j)
  ∧ (x.cat = .skipTarget → x.proto = none)

/-- The tokens of reports in some categories. -/
def shownIn (cats : List SelCat) (proto target : List (Node M)) (xs : List SelInfo) : List (Text × M) :=
  xs.filterMap fun x => if x.cat ∈ cats then shownTok proto target x else none

section
variable {f : SelUtility M} {proto target : List (Node M)} {cats : List SelCat}

theorem shownIn_append (a b : List SelInfo) :
    shownIn cats proto target (a ++ b) = shownIn cats proto target a ++ shownIn cats proto target b := by
  simp [shownIn]

theorem shownIn_cons (x : SelInfo) (b : List SelInfo) :
    shownIn cats proto target (x :: b)
      = (if x.cat ∈ cats then shownTok proto target x else none).toList ++ shownIn cats proto target b := by
  unfold shownIn
  rw [List.filterMap_cons]
  cases (if x.cat ∈ cats then shownTok proto target x else none) <;> rfl

theorem sinfos_append (a b : List SelStep) : sinfos (a ++ b) = sinfos a ++ sinfos b := by
  simp [sinfos]

theorem sinfos_cons (s : SelStep) (b : List SelStep) : sinfos (s :: b) = s.info.toList ++ sinfos b := by
  unfold sinfos
  rw [List.filterMap_cons]
  cases s.info <;> rfl

theorem reported_eq (hc : SelCat.skipTarget ∉ cats) (ss : List SelStep) :
    reported cats proto ss = shownIn cats proto target (sinfos ss) := by
  unfold reported shownIn
  refine congrArg (fun g => List.filterMap g (sinfos ss)) (funext fun x => ?_)
  split
  · next h =>
    unfold shownTok
    cases hx : x.cat with
    | skipTarget => rw [hx] at h; exact absurd h hc
    | _ => rfl
  · rfl

/-- The reports of steps are about items. -/
theorem matches_good {body found : List (SelItem M)} {ms : List SelStep} (h : Matches f body found ms)
    (hb : ∀ x ∈ body, x ∈ items 0 proto) (hf : ∀ y ∈ found, y ∈ items 0 target) :
    ∀ x ∈ sinfos ms, GoodInfo proto target x := by
  induction h with
  | nil => simp [sinfos]
  | item _ _ ih =>
    rw [List.forall_mem_cons] at hb hf
    rw [sinfos_cons, List.forall_mem_append]
    refine ⟨?_, ih hb.2 hf.2⟩
    simp only [foundStep, Option.toList_some, List.mem_singleton, forall_eq]
    exact ⟨by rintro _ ⟨⟩; exact ⟨_, hb.1, rfl⟩, by rintro _ ⟨⟩; exact ⟨_, hf.1, rfl⟩, by simp⟩
  | marker _ _ ih =>
    rw [List.forall_mem_cons] at hb
    rw [sinfos_cons, List.forall_mem_append]
    refine ⟨?_, ih hb.2 hf⟩
    simp only [markerStep, Option.toList_some, List.mem_singleton, forall_eq]
    exact ⟨by rintro _ ⟨⟩; exact ⟨_, hb.1, rfl⟩, by simp, by simp⟩

theorem selects_good {X Y : List (SelItem M)} {ss : List SelStep} (h : Selects f X Y ss)
    (hX : ∀ x ∈ X, x ∈ items 0 proto) (hY : ∀ y ∈ Y, y ∈ items 0 target) :
    ∀ x ∈ sinfos ss, GoodInfo proto target x := by
  induction h with
  | done => simp [sinfos]
  | skip _ _ ih =>
    rw [List.forall_mem_cons] at hX
    rw [sinfos_cons, List.forall_mem_append]
    refine ⟨?_, ih hX.2 hY⟩
    simp only [outsideStep, Option.toList_some, List.mem_singleton, forall_eq]
    exact ⟨by rintro _ ⟨⟩; exact ⟨_, hX.1, rfl⟩, by simp, by simp⟩
  | @lost i body k X Y ss _ _ ih =>
    rw [List.forall_mem_cons, List.forall_mem_append, List.forall_mem_cons] at hX
    rw [sinfos_cons, sinfos_append, sinfos_cons]
    simp only [regionBegins, regionEnds, Option.toList_none, List.nil_append, List.forall_mem_append]
    refine ⟨?_, ih hX.2.2.2 hY⟩
    intro x hx
    obtain ⟨s, hs, hsx⟩ := List.mem_filterMap.1 hx
    obtain ⟨y, hy, rfl⟩ := List.mem_map.1 hs
    simp only [lostStep, Option.some.injEq] at hsx
    subst hsx
    exact ⟨by rintro _ ⟨⟩; exact ⟨_, hX.2.1 y hy, rfl⟩, by simp, by simp⟩
  | @found i body k X sk fd Y ms ss _ _ hm _ ih =>
    rw [List.forall_mem_cons, List.forall_mem_append, List.forall_mem_cons] at hX
    rw [List.forall_mem_append, List.forall_mem_append] at hY
    rw [sinfos_cons, sinfos_append, sinfos_append, sinfos_cons]
    simp only [regionBegins, regionEnds, Option.toList_none, List.nil_append, List.forall_mem_append]
    refine ⟨?_, matches_good hm hX.2.1 hY.2.1, ih hX.2.2.2 hY.2.2⟩
    intro x hx
    obtain ⟨s, hs, hsx⟩ := List.mem_filterMap.1 hx
    obtain ⟨y, hy, rfl⟩ := List.mem_map.1 hs
    simp only [Spec.passStep, Option.some.injEq] at hsx
    subst hsx
    exact ⟨by simp, by rintro _ ⟨⟩; exact ⟨_, hY.1 y hy, rfl⟩, by simp⟩

theorem shown_map {xs : List (SelItem M)} {g : SelItem M → SelStep}
    (h : ∀ x ∈ xs, ∃ y, (g x).info = some y ∧ y.cat ∈ cats ∧ shownTok proto target y = itemTok x) :
    shownIn cats proto target (sinfos (xs.map g)) = xs.filterMap itemTok := by
  induction xs with
  | nil => rfl
  | cons x xs ih =>
    rw [List.forall_mem_cons] at h
    obtain ⟨y, h1, h2, h3⟩ := h.1
    rw [List.map_cons, sinfos_cons, h1, shownIn_append, ih h.2, Option.toList_some, shownIn_cons, if_pos h2, h3,
      List.filterMap_cons]
    cases itemTok x <;> simp [shownIn]

theorem shown_skip {ss : List SelStep} (h : ∀ s ∈ ss, ∀ y, s.info = some y → y.cat ∉ cats) :
    shownIn cats proto target (sinfos ss) = [] := by
  unfold shownIn
  rw [List.filterMap_eq_nil_iff]
  intro x hx
  obtain ⟨s, hs, hsx⟩ := List.mem_filterMap.1 hx
  rw [if_neg (h s hs x hsx)]

theorem matches_shown {body found : List (SelItem M)} {ms : List SelStep} (h : Matches f body found ms)
    (hb : ∀ x ∈ body, x ∈ items 0 proto) :
    (∀ s ∈ ms, ∃ y, s.info = some y ∧ y.cat = .matched)
    ∧ (SelCat.matched ∈ cats → shownIn cats proto target (sinfos ms) = body.filterMap itemTok)
    ∧ body.filterMap itemTok = found.filterMap itemTok := by
  induction h with
  | nil => exact ⟨by simp, fun _ => rfl, rfl⟩
  | @item x y _ _ _ hs _ ih =>
    rw [List.forall_mem_cons] at hb
    obtain ⟨h1, h2, h3⟩ := ih hb.2
    refine ⟨List.forall_mem_cons.2 ⟨⟨_, rfl, rfl⟩, h1⟩, fun hc => ?_, ?_⟩
    · rw [sinfos_cons, shownIn_append, h2 hc]
      simp only [foundStep, Option.toList_some, shownIn_cons, hc, if_true, shownTok, Option.bind_some,
        item_lookup hb.1]
      rw [List.filterMap_cons]
      cases itemTok x <;> simp [shownIn]
    · rw [List.filterMap_cons, List.filterMap_cons, h3]
      cases hs <;> rfl
  | @marker x _ _ _ hm _ ih =>
    rw [List.forall_mem_cons] at hb
    obtain ⟨h1, h2, h3⟩ := ih hb.2
    refine ⟨List.forall_mem_cons.2 ⟨⟨_, rfl, rfl⟩, h1⟩, fun hc => ?_, ?_⟩
    · rw [sinfos_cons, shownIn_append, h2 hc]
      simp only [markerStep, Option.toList_some, shownIn_cons, hc, if_true, shownTok, Option.bind_some,
        item_lookup hb.1]
      rw [List.filterMap_cons]
      cases itemTok x <;> simp [shownIn]
    · rw [List.filterMap_cons, ← h3]
      cases hm <;> rfl

/-- All tokens of the prototype are reported, in order. -/
theorem selects_proto {X Y : List (SelItem M)} {ss : List SelStep} (h : Selects f X Y ss)
    (hX : ∀ x ∈ X, x ∈ items 0 proto) :
    shownIn [.matched, .unmatched, .skipProto] proto target (sinfos ss) = X.filterMap itemTok := by
  induction h with
  | done => rfl
  | @skip x X Y ss _ _ ih =>
    rw [List.forall_mem_cons] at hX
    have := shown_map (cats := [.matched, .unmatched, .skipProto]) (proto := proto) (target := target)
      (xs := [x]) (g := outsideStep) (by
        simp only [List.mem_singleton, forall_eq]
        exact ⟨_, rfl, by simp, by simp [shownTok, item_lookup hX.1]⟩)
    rw [show outsideStep x :: ss = [outsideStep x] ++ ss from rfl, sinfos_append, shownIn_append, ih hX.2, show [outsideStep x] = [x].map outsideStep
      from rfl, this, ← List.filterMap_append]
    rfl
  | @lost i body k X Y ss _ _ ih =>
    rw [List.forall_mem_cons, List.forall_mem_append, List.forall_mem_cons] at hX
    have := shown_map (cats := [.matched, .unmatched, .skipProto]) (proto := proto) (target := target)
      (xs := body) (g := lostStep f) (fun x hx => ⟨_, rfl, by simp, by simp [shownTok, item_lookup (hX.2.1 x hx)]⟩)
    rw [sinfos_cons, sinfos_append, sinfos_cons, shownIn_append, shownIn_append, shownIn_append, this,
      ih hX.2.2.2]
    simp [regionBegins, regionEnds, shownIn, itemTok, List.filterMap_cons]
  | @found i body k X sk fd Y ms ss _ _ hm _ ih =>
    rw [List.forall_mem_cons, List.forall_mem_append, List.forall_mem_cons] at hX
    have h1 : shownIn [.matched, .unmatched, .skipProto] proto target (sinfos (sk.map Spec.passStep)) = [] :=
      shown_skip (by
        intro s hs y hy
        obtain ⟨z, -, rfl⟩ := List.mem_map.1 hs
        simp only [Spec.passStep, Option.some.injEq] at hy
        subst hy
        simp)
    rw [sinfos_cons, sinfos_append, sinfos_append, sinfos_cons, shownIn_append, shownIn_append, shownIn_append,
      shownIn_append, h1, (matches_shown hm hX.2.1).2.1 (by simp), ih hX.2.2.2]
    simp [regionBegins, regionEnds, shownIn, itemTok, List.filterMap_cons]

/-- The tokens of the target that are skipped or found are a prefix of the target. -/
theorem selects_target {X Y : List (SelItem M)} {ss : List SelStep} (h : Selects f X Y ss)
    (hX : ∀ x ∈ X, x ∈ items 0 proto) (hY : ∀ y ∈ Y, y ∈ items 0 target) :
    shownIn [.matched, .skipTarget] proto target (sinfos ss) <+: Y.filterMap itemTok := by
  induction h with
  | done => exact List.nil_prefix
  | @skip x X Y ss _ _ ih =>
    rw [List.forall_mem_cons] at hX
    have h1 : shownIn [.matched, .skipTarget] proto target (sinfos [outsideStep x]) = [] := shown_skip (by
        simp only [List.mem_singleton, forall_eq]
        intro y hy
        simp only [outsideStep, Option.some.injEq] at hy
        subst hy
        simp)
    rw [show outsideStep x :: ss = [outsideStep x] ++ ss from rfl, sinfos_append, shownIn_append, h1, List.nil_append]
    exact ih hX.2 hY
  | @lost i body k X Y ss _ _ ih =>
    rw [List.forall_mem_cons, List.forall_mem_append, List.forall_mem_cons] at hX
    have h1 : shownIn [.matched, .skipTarget] proto target (sinfos (body.map (lostStep f))) = [] :=
      shown_skip (by
        intro s hs y hy
        obtain ⟨z, -, rfl⟩ := List.mem_map.1 hs
        simp only [lostStep, Option.some.injEq] at hy
        subst hy
        simp)
    rw [sinfos_cons, sinfos_append, sinfos_cons, shownIn_append, shownIn_append, shownIn_append, h1]
    simpa [regionBegins, regionEnds, shownIn] using ih hX.2.2.2 hY
  | @found i body k X sk fd Y ms ss _ _ hm _ ih =>
    rw [List.forall_mem_cons, List.forall_mem_append, List.forall_mem_cons] at hX
    rw [List.forall_mem_append, List.forall_mem_append] at hY
    have h1 := shown_map (cats := [.matched, .skipTarget]) (proto := proto) (target := target)
      (xs := sk) (g := Spec.passStep) (fun x hx => ⟨_, rfl, by simp, by simp [shownTok, item_lookup (hY.1 x hx)]⟩)
    obtain ⟨-, h2, h3⟩ := matches_shown (target := target) (cats := [.matched, .skipTarget]) hm hX.2.1
    rw [sinfos_cons, sinfos_append, sinfos_append, sinfos_cons, shownIn_append, shownIn_append, shownIn_append,
      shownIn_append, h1, h2 (by simp), h3, List.filterMap_append, List.filterMap_append]
    simp only [regionBegins, regionEnds, Option.toList_none]
    show shownIn _ _ _ [] ++ _ <+: _
    rw [show shownIn [.matched, .skipTarget] proto target [] = [] from rfl, List.nil_append, List.nil_append]
    exact (List.prefix_append_right_inj _).2 ((List.prefix_append_right_inj _).2 (ih hX.2.2.2 hY.2.2))

/-- The token of an item that is in a region. -/
def itemTokIf (α : DecisionKey → DecisionValue) : SelItem M → Option (Text × M)
  | .tok i t mt => if α ⟨i, .inRegion⟩ = .yes then some (t, mt) else none
  | _ => none

theorem items_toks_if (α : DecisionKey → DecisionValue) : ∀ (ns : List (Node M)) (i : Nat),
    (items i ns).filterMap (itemTokIf α)
      = ((tokens i ns).filter fun x => decide (α ⟨x.1, .inRegion⟩ = .yes)).map Prod.snd
  | [], i => by simp [items, tokens]
  | n :: ns, i => by
    cases n with
    | group cs mt =>
      have h := items_toks_if α ns (i + 1 + seqSize cs)
      rw [items, List.filterMap_cons, List.filterMap_append, List.filterMap_cons]
      simp only [itemTokIf, h, items_toks_if α cs, tokens, List.map_append, List.filter_append]
    | tok t mt =>
      rw [items, List.filterMap_cons, tokens, List.filter_cons]
      simp only [itemTokIf]
      by_cases h : α ⟨i, .inRegion⟩ = .yes
      · simp [h, items_toks_if α ns]
      · simp [h, items_toks_if α ns]
    | _ => simp [items, itemTokIf, tokens, items_toks_if α ns, List.filterMap_cons]

theorem stepDecs_cons (s : SelStep) (l : List SelStep) : sdecs (s :: l) = s.decision.toList ++ sdecs l := by
  unfold sdecs
  rw [List.filterMap_cons]
  cases s.decision <;> rfl

theorem matches_inside {body found : List (SelItem M)} {ms : List SelStep} (h : Matches f body found ms)
    {α : DecisionKey → DecisionValue} (hα : ∀ kv ∈ sdecs ms, α kv.1 = kv.2) :
    ∀ x ∈ body, ∀ kv, insideDecision x = some kv → α kv.1 = kv.2 := by
  induction h with
  | nil => simp
  | item _ _ ih =>
    rw [stepDecs_cons, List.forall_mem_append] at hα
    rw [List.forall_mem_cons]
    exact ⟨fun kv hkv => hα.1 kv (by simp [foundStep, hkv]), ih hα.2⟩
  | marker _ _ ih =>
    rw [stepDecs_cons, List.forall_mem_append] at hα
    rw [List.forall_mem_cons]
    exact ⟨fun kv hkv => hα.1 kv (by simp [markerStep, hkv]), ih hα.2⟩

/-- The selected tokens are those that are found or lost. -/
theorem selects_selected {X Y : List (SelItem M)} {ss : List SelStep} (h : Selects f X Y ss)
    (hX : ∀ x ∈ X, x ∈ items 0 proto) {α : DecisionKey → DecisionValue}
    (hα : ∀ kv ∈ sdecs ss, α kv.1 = kv.2) :
    shownIn [.matched, .unmatched] proto target (sinfos ss) = X.filterMap (itemTokIf α) := by
  have hin : ∀ (body : List (SelItem M)), (∀ x ∈ body, ∀ kv, insideDecision x = some kv → α kv.1 = kv.2) →
      body.filterMap (itemTokIf α) = body.filterMap itemTok := by
    intro body hb
    refine List.filterMap_congr fun x hx => ?_
    have := hb x hx
    cases x with
    | tok i t mt =>
      have := this _ rfl
      simp only [itemTokIf, itemTok]
      rw [if_pos this]
    | _ => rfl
  have hdec := stepDecs_cons
  have happ : ∀ a b : List SelStep, sdecs (a ++ b) = sdecs a ++ sdecs b := by intro a b; simp [sdecs]
  induction h with
  | done => rfl
  | @skip x X Y ss _ _ ih =>
    rw [List.forall_mem_cons] at hX
    rw [hdec, List.forall_mem_append] at hα
    have h1 : shownIn [.matched, .unmatched] proto target (sinfos [outsideStep x]) = [] := shown_skip (by
        simp only [List.mem_singleton, forall_eq]
        intro y hy
        simp only [outsideStep, Option.some.injEq] at hy
        subst hy
        simp)
    rw [show outsideStep x :: ss = [outsideStep x] ++ ss from rfl, sinfos_append, shownIn_append, h1, List.nil_append, ih hX.2 hα.2,
      List.filterMap_cons]
    have : itemTokIf α x = none := by
      cases x with
      | tok i t mt =>
        have := hα.1 (⟨i, .inRegion⟩, .no) (by simp [outsideStep, outsideDecision])
        simp [itemTokIf, this]
      | _ => rfl
    rw [this]
  | @lost i body k X Y ss _ _ ih =>
    rw [List.forall_mem_cons, List.forall_mem_append, List.forall_mem_cons] at hX
    rw [hdec, happ, hdec, List.forall_mem_append, List.forall_mem_append, List.forall_mem_append] at hα
    have h1 := shown_map (cats := [.matched, .unmatched]) (proto := proto) (target := target)
      (xs := body) (g := lostStep f) (fun x hx => ⟨_, rfl, by simp, by simp [shownTok, item_lookup (hX.2.1 x hx)]⟩)
    rw [sinfos_cons, sinfos_append, sinfos_cons, shownIn_append, shownIn_append, shownIn_append, h1,
      ih hX.2.2.2 hα.2.2.2, List.filterMap_cons, List.filterMap_append, List.filterMap_cons, hin body]
    · simp [regionBegins, regionEnds, shownIn, itemTokIf]
    · intro x hx kv hkv
      exact hα.2.1 kv (List.mem_filterMap.2 ⟨lostStep f x, List.mem_map.2 ⟨x, hx, rfl⟩, hkv⟩)
  | @found i body k X sk fd Y ms ss _ _ hm _ ih =>
    rw [List.forall_mem_cons, List.forall_mem_append, List.forall_mem_cons] at hX
    rw [hdec, happ, happ, hdec, List.forall_mem_append, List.forall_mem_append, List.forall_mem_append,
      List.forall_mem_append] at hα
    have h1 : shownIn [.matched, .unmatched] proto target (sinfos (sk.map Spec.passStep)) = [] :=
      shown_skip (by
        intro s hs y hy
        obtain ⟨z, -, rfl⟩ := List.mem_map.1 hs
        simp only [Spec.passStep, Option.some.injEq] at hy
        subst hy
        simp)
    rw [sinfos_cons, sinfos_append, sinfos_append, sinfos_cons, shownIn_append, shownIn_append, shownIn_append,
      shownIn_append, h1, (matches_shown hm hX.2.1).2.1 (by simp), ih hX.2.2.2 hα.2.2.2.2,
      List.filterMap_cons, List.filterMap_append, List.filterMap_cons, hin body]
    · simp [regionBegins, regionEnds, shownIn, itemTokIf]
    · exact matches_inside hm hα.2.2.1

/-! ## Paths -/

theorem step_mem {p : List SelEdge} {e : SelEdge} (he : e ∈ p) {x : SelInfo} (hx : e.info = some x) :
    x ∈ sinfos (selectionOf p) := by
  rw [← selInfos_eq]
  exact List.mem_filterMap.2 ⟨e, he, hx⟩

theorem shownIn_path (p : List SelEdge) : shownIn cats proto target (selInfos p)
    = p.flatMap fun e => (e.info.bind fun x => if x.cat ∈ cats then shownTok proto target x else none).toList := by
  induction p with
  | nil => rfl
  | cons e p ih =>
    rw [List.flatMap_cons, ← ih]
    unfold selInfos
    rw [List.filterMap_cons]
    cases e.info with
    | none => rfl
    | some x => exact shownIn_cons x _

/-- The path can be shown. -/
def SelShowable (proto target : List (Node M)) (p : List SelEdge) : Prop :=
  ∀ e ∈ p, ∀ x, e.info = some x → GoodInfo proto target x

theorem SelShowable.tokens {e : SelEdge} {x : SelInfo} (hx : e.info = some x) (h : GoodInfo proto target x) :
    edgeTokens (pack proto) (pack target) (some x.cat) e
      = some ((shownTok proto target x).map Prod.fst).toList := by
  obtain ⟨h1, h2, -⟩ := h
  have hp : (match e.info.bind SelInfo.proto with
      | none => some []
      | some i => (tokenFor (pack proto) i).map fun x => (x.map Prod.fst).toList)
      = some (((x.proto.bind fun i => (Spec.tokens 0 proto).lookup i)).map Prod.fst).toList := by
    rw [hx, Option.bind_some]
    cases hi : x.proto with
    | none => rfl
    | some i =>
      obtain ⟨y, hy, rfl⟩ := h1 i hi
      simp [item_token hy]
  have ht : (match e.info.bind SelInfo.target with
      | none => some []
      | some i => (tokenFor (pack target) i).map fun x => (x.map Prod.fst).toList)
      = some (((x.target.bind fun i => (Spec.tokens 0 target).lookup i)).map Prod.fst).toList := by
    rw [hx, Option.bind_some]
    cases hi : x.target with
    | none => rfl
    | some i =>
      obtain ⟨y, hy, rfl⟩ := h2 i hi
      simp [item_token hy]
  unfold edgeTokens shownTok
  cases x.cat with
  | skipTarget => exact ht
  | _ => exact hp

/-! ### Runs -/

theorem groupRuns_flat {A K : Type} [DecidableEq K] (key : A → K) (l : List A) :
    (groupRuns key l).flatMap Prod.snd = l ∧ ∀ r ∈ groupRuns key l, ∀ x ∈ r.2, key x = r.1 := by
  induction l with
  | nil => exact ⟨rfl, by simp [groupRuns]⟩
  | cons x l ih =>
    obtain ⟨h1, h2⟩ := ih
    rw [groupRuns]
    cases hg : groupRuns key l with
    | nil =>
      rw [hg] at h1
      simp only [List.flatMap_nil] at h1
      subst h1
      exact ⟨rfl, by simp⟩
    | cons kr r =>
      obtain ⟨k, run⟩ := kr
      rw [hg] at h1 h2
      rw [List.forall_mem_cons] at h2
      dsimp only
      split
      · next hk =>
        refine ⟨by simpa using h1, ?_⟩
        rw [List.forall_mem_cons]
        refine ⟨?_, h2.2⟩
        simp only [List.mem_cons]
        rintro y (rfl | hy)
        · exact hk
        · exact h2.1 y hy
      · refine ⟨by simpa using h1, ?_⟩
        rw [List.forall_mem_cons]
        exact ⟨by simp, List.forall_mem_cons.2 h2⟩

/-- The texts that an edge contributes to the groups of some categories. -/
def edgeShown (cats : List SelCat) (proto target : List (Node M)) (e : SelEdge) : List Text :=
  (e.info.bind fun x => if x.cat ∈ cats then (shownTok proto target x).map Prod.fst else none).toList

/-- What the groups of runs contain. -/
theorem matchGroupsLoop_ok (proto target : List (Node M)) : ∀ (rs : List (Option SelCat × List SelEdge)),
    (∀ r ∈ rs, ∀ e ∈ r.2, e.info.map SelInfo.cat = r.1 ∧ ∀ x, e.info = some x → GoodInfo proto target x) →
    ∃ gs, matchGroupsLoop (pack proto) (pack target) rs = some gs
      ∧ (∀ cats, contentOf cats gs = (rs.flatMap Prod.snd).flatMap (edgeShown cats proto target))
      ∧ (gs.map MatchGroup.cost).sum = ((rs.flatMap Prod.snd).map Edge.cost).sum
      ∧ (∀ g ∈ gs, g.content ≠ [] ∨ g.cost ≠ 0) := by
  intro rs
  induction rs with
  | nil => intro _; exact ⟨[], rfl, fun _ => rfl, rfl, by simp⟩
  | cons r rs ih =>
    intro h
    obtain ⟨cat, run⟩ := r
    rw [List.forall_mem_cons] at h
    obtain ⟨gs, g1, g2, g3, g4⟩ := ih h.2
    have hcost : (run.map Edge.cost).foldl (· + ·) 0 = (run.map Edge.cost).sum := List.sum_eq_foldl.symm
    have htext : ∃ texts, mapAll (edgeTokens (pack proto) (pack target) cat) run = some texts
        ∧ ∀ cats : List SelCat, run.flatMap (edgeShown cats proto target)
          = if ∃ c ∈ cats, cat = some c then texts.flatten else [] := by
      have hrun := h.1
      clear h g1 g2 g3 g4 ih hcost
      induction run with
      | nil => exact ⟨[], rfl, fun _ => by simp⟩
      | cons e run ih =>
        rw [List.forall_mem_cons] at hrun
        obtain ⟨texts, t1, t2⟩ := ih hrun.2
        obtain ⟨hc, hg⟩ := hrun.1
        have he : edgeTokens (pack proto) (pack target) cat e
            = some ((e.info.bind (shownTok proto target)).map Prod.fst).toList := by
          cases hi : e.info with
          | none =>
            rw [hi] at hc
            subst hc
            rfl
          | some x =>
            rw [hi] at hc
            dsimp only [Option.map_some] at hc
            subst hc
            rw [SelShowable.tokens hi (hg x hi), Option.bind_some]
        refine ⟨_ :: texts, by rw [mapAll, he, t1], fun cats => ?_⟩
        rw [List.flatMap_cons, t2]
        cases hi : e.info with
        | none =>
          rw [hi] at hc
          subst hc
          simp [edgeShown, hi]
        | some x =>
          rw [hi] at hc
          dsimp only [Option.map_some] at hc
          subst hc
          simp only [edgeShown, hi, Option.bind_some, Option.some.injEq, exists_eq_right']
          split
          · simp
          · rfl
    obtain ⟨texts, t1, t2⟩ := htext
    simp only [matchGroupsLoop, t1, g1, hcost]
    refine ⟨_, rfl, fun cats => ?_, ?_, ?_⟩
    · rw [List.flatMap_cons, List.flatMap_append, t2, ← g2]
      split
      · unfold contentOf
        rw [List.filter_cons]
        by_cases hc : ∃ c ∈ cats, cat = some c
        · simp [hc]
        · simp [hc]
      · next hn =>
        push Not at hn
        simp [hn.2]
    · rw [List.flatMap_cons, List.map_append, List.sum_append, ← g3]
      split
      · simp
      · next hn =>
        push Not at hn
        simp [hn.1]
    · split
      · next hn =>
        rw [List.forall_mem_cons]
        exact ⟨hn.symm, g4⟩
      · exact g4

theorem matchGroups_ok {p : List SelEdge} (h : SelShowable proto target p) :
    ∃ gs, matchGroups (pack proto) (pack target) p = some gs
      ∧ (∀ cats, contentOf cats gs = (shownIn cats proto target (selInfos p)).map Prod.fst)
      ∧ (gs.map MatchGroup.cost).sum = (p.map Edge.cost).sum
      ∧ (∀ g ∈ gs, g.content ≠ [] ∨ g.cost ≠ 0) := by
  obtain ⟨h1, h2⟩ := groupRuns_flat (fun e : SelEdge => e.info.map SelInfo.cat) p
  obtain ⟨gs, g1, g2, g3, g4⟩ := matchGroupsLoop_ok proto target _ (fun r hr e he =>
    ⟨h2 r hr e he, fun x hx => h e (by rw [← h1]; exact List.mem_flatMap.2 ⟨r, hr, he⟩) x hx⟩)
  rw [h1] at g2 g3
  refine ⟨gs, g1, fun cats => ?_, g3, g4⟩
  rw [g2, shownIn_path, List.map_flatMap]
  refine List.flatMap_congr fun e _ => ?_
  unfold edgeShown
  cases e.info with
  | none => rfl
  | some x =>
    simp only [Option.bind_some]
    split
    · cases shownTok proto target x <;> rfl
    · rfl

end

/-! ## Counts -/

section
variable {proto target : List (Node CallType)}

/-- The category and the type of the prototype token of a report. -/
def countedAs (proto : List (Node CallType)) (x : SelInfo) : Option (SelCat × CallType) :=
  (x.proto.bind fun i => (tokens 0 proto).lookup i).map fun t => (x.cat, t.2)

theorem countLoop_ok : ∀ {p : List SelEdge} {c : CallCounts}, SelShowable proto target p →
    countLoop (pack proto) p c
      = some (((selInfos p).filterMap (countedAs proto)).foldl (fun c x => c.add x.1 x.2) c) := by
  intro p
  induction p with
  | nil => intro c _; rfl
  | cons e p ih =>
    intro c h
    have h' : SelShowable proto target p := fun e he => h e (List.mem_cons_of_mem _ he)
    have he := h e List.mem_cons_self
    have hcons : selInfos (e :: p) = e.info.toList ++ selInfos p := by
      unfold selInfos
      rw [List.filterMap_cons]
      cases e.info <;> rfl
    rw [countLoop, hcons]
    cases hi : e.info with
    | none => exact ih h'
    | some x =>
      rw [Option.bind_some, Option.toList_some, List.singleton_append, List.filterMap_cons]
      cases hp : x.proto with
      | none =>
        simp only [countedAs, hp]
        exact ih h'
      | some i =>
        obtain ⟨y, hy, rfl⟩ := (he x hi).1 i hp
        simp only [Option.map_some, item_token hy, countedAs, hp, Option.bind_some]
        cases (tokens 0 proto).lookup y.index with
        | none => exact ih h'
        | some t => exact ih h'

theorem counts_fold (l : List (SelCat × CallType)) : ∀ c : CallCounts,
    let r := l.foldl (fun c x => c.add x.1 x.2) c
    r.correctNovel = c.correctNovel + l.count (.matched, .novel)
      ∧ r.correctNotNovel = c.correctNotNovel + l.count (.matched, .expected)
      ∧ r.correctArgs = c.correctArgs + l.count (.matched, .args)
      ∧ r.deletedNovel = c.deletedNovel + l.count (.unmatched, .novel)
      ∧ r.deletedNotNovel = c.deletedNotNovel + l.count (.unmatched, .expected)
      ∧ r.deletedArgs = c.deletedArgs + l.count (.unmatched, .args) := by
  induction l with
  | nil => intro c; simp
  | cons x l ih =>
    intro c
    obtain ⟨cat, mt⟩ := x
    obtain ⟨h1, h2, h3, h4, h5, h6⟩ := ih (c.add cat mt)
    dsimp only at h1 h2 h3 h4 h5 h6 ⊢
    rw [List.foldl_cons, h1, h2, h3, h4, h5, h6]
    cases cat <;> cases mt <;> simp [CallCounts.add, List.count_cons] <;> omega

theorem counted_type (cat : SelCat) (mt : CallType) (ss : List SelStep) :
    ((sinfos ss).filterMap (countedAs proto)).count (cat, mt) = ofType mt (reported [cat] proto ss) := by
  unfold reported ofType
  show _ = ((List.filterMap _ (sinfos ss)).map Prod.snd).count mt
  induction sinfos ss with
  | nil => rfl
  | cons x l ih =>
    rw [List.filterMap_cons, List.filterMap_cons]
    unfold countedAs at ih ⊢
    cases hx : x.proto.bind fun i => (tokens 0 proto).lookup i with
    | none =>
      simp only [Option.map_none, ih, ite_self]
    | some t =>
      simp only [Option.map_some, List.count_cons, ih]
      by_cases hcat : x.cat = cat
      · simp [hcat, List.count_cons]
      · simp [hcat]

/-! ## Costs -/

/-- What some tokens are worth. -/
def totalWorth (l : List (Text × CallType)) : ℚ := (l.map fun t => callWorth t.2).sum

theorem totalWorth_types (l : List (Text × CallType)) :
    totalWorth l = ofType .args l + ofType .emptyArgs l + ofType .expected l + 10 * ofType .novel l := by
  induction l with
  | nil => simp [totalWorth, ofType]
  | cons t l ih =>
    have h1 : totalWorth (t :: l) = callWorth t.2 + totalWorth l := by simp [totalWorth]
    rw [h1, ih]
    obtain ⟨t, mt⟩ := t
    cases mt <;> simp [ofType, callWorth, List.count_cons] <;> ring

theorem price_worth (precision : ℚ) (ss : List SelStep) :
    lookupPrice (callUtility precision) proto ss
      = precision * totalWorth (lostTokens proto ss) - (1 - precision) * totalWorth (foundTokens proto ss) := by
  unfold lookupPrice lostTokens foundTokens reported totalWorth
  induction ss.filterMap SelStep.info with
  | nil => simp
  | cons x l ih =>
    rw [List.map_cons, List.sum_cons, ih, List.filterMap_cons, List.filterMap_cons]
    unfold selPrice
    cases hx : x.proto.bind fun i => (tokens 0 proto).lookup i with
    | none => simp
    | some t =>
      obtain ⟨t, mt⟩ := t
      cases hc : x.cat <;> simp [callUtility] <;> ring

end

end RUSure.Lemmas
