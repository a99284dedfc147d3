import Verif.Lemmas.SelectionDag

/-!
# The complete paths of the selection DAG
-/

namespace RUSure.Lemmas
open RUSure RUSure.Spec
variable {M : Type} [DecidableEq M] {f : SelUtility M} {xs ys : List (SelItem M)}

omit [DecidableEq M] in
theorem drop_of_get {l : List (SelItem M)} {p : Nat} {x : SelItem M} (h : l[p]? = some x) :
    l.drop p = x :: l.drop (p + 1) := by
  obtain ⟨h1, rfl⟩ := List.getElem?_eq_some_iff.mp h
  exact List.drop_eq_getElem_cons h1

omit [DecidableEq M] in
theorem get_of_drop {l : List (SelItem M)} {p : Nat} {x : SelItem M} {r : List (SelItem M)}
    (h : l.drop p = x :: r) : l[p]? = some x ∧ l.drop (p + 1) = r := by
  have h1 : l[p]? = some x := by
    have := List.getElem?_drop (xs := l) (i := p) (j := 0)
    rw [h] at this
    simpa using this.symm
  rw [drop_of_get h1] at h
  exact ⟨h1, by simpa using h⟩

omit [DecidableEq M] in
theorem drop_app {l : List (SelItem M)} {p : Nat} {a r : List (SelItem M)}
    (h : l.drop p = a ++ r) : l.drop (p + a.length) = r := by
  rw [← List.drop_drop, h]
  simp

theorem goodEdges_out {e : SelEdge} {c : SelCat} {p u : Nat} (he : e ∈ goodEdges f xs ys)
    (hs : e.source = .at c p u) :
    (∃ x, xs[p]? = some x ∧ u ≤ ys.length ∧ e ∈ selCell f p u x ys[u]? (flagAt xs p))
    ∨ (c = .skipProto ∧ p = xs.length ∧ u ≤ ys.length
      ∧ e = ⟨.at .skipProto p u, .final, 0, none, none⟩) := by
  rcases mem_goodEdges.mp he with ⟨p', x, u', h1, h2, h⟩ | ⟨u', h1, rfl⟩
  · left
    have : ∃ c', e.source = .at c' p' u' := by
      simp only [selCell, List.mem_append] at h
      rcases h with (((((h | h) | h) | h) | h) | h) | h
      · cases x <;> simp [selSkip] at h <;> subst h <;> exact ⟨_, rfl⟩
      · cases x <;> simp [selStart] at h <;> rcases h with rfl | rfl <;> exact ⟨_, rfl⟩
      · unfold selTarget at h
        split at h <;> simp at h
        rcases h with rfl | rfl <;> exact ⟨_, rfl⟩
      · unfold selMatch at h
        split at h <;> try split at h
        all_goals simp at h
        all_goals subst h; exact ⟨_, rfl⟩
      · cases x <;> simp [selEndMatch] at h <;> rcases h with rfl | rfl <;> exact ⟨_, rfl⟩
      · split at h <;> simp at h
        subst h
        cases x <;> exact ⟨_, rfl⟩
      · cases x <;> simp [selEndPass] at h <;> subst h <;> exact ⟨_, rfl⟩
    obtain ⟨c', hc⟩ := this
    rw [hc, SelState.at.injEq] at hs
    obtain ⟨rfl, rfl, rfl⟩ := hs
    exact ⟨x, h1, h2, h⟩
  · right
    simp only [SelState.at.injEq] at hs
    obtain ⟨rfl, rfl, rfl⟩ := hs
    exact ⟨rfl, rfl, h1, rfl⟩

/-- What is read from the states. -/
def SForm (f : SelUtility M) : SelCat → List (SelItem M) → List (SelItem M) → List SelStep → Prop
  | .skipProto, X, Y, ss => Selects f X Y ss
  | .unmatched, X, Y, ss => ∃ body k X' ss', X = body ++ .stop k :: X'
      ∧ (∀ x ∈ body, IsContent x ∨ IsMarker x) ∧ Selects f X' Y ss'
      ∧ ss = body.map (lostStep f) ++ regionEnds k :: ss'
  | .matched, X, Y, ss => ∃ body k X' found Y' ms ss', X = body ++ .stop k :: X' ∧ Y = found ++ Y'
      ∧ Matches f body found ms ∧ Selects f X' Y' ss' ∧ ss = ms ++ regionEnds k :: ss'
  | .skipTarget, X, Y, ss => ∃ skipped Z ss1, Y = skipped ++ Z ∧ (∀ y ∈ skipped, IsContent y)
      ∧ (∃ y ∈ Z.head?, IsContent y)
      ∧ (∃ body k X' found Y' ms ss', X = body ++ .stop k :: X' ∧ Z = found ++ Y'
        ∧ Matches f body found ms ∧ Selects f X' Y' ss' ∧ ss1 = ms ++ regionEnds k :: ss')
      ∧ ss = skipped.map passStep ++ ss1

omit [DecidableEq M] in
theorem content_spec {y : SelItem M} {j : Nat} (h : y.content? = some j) :
    IsContent y ∧ y.index = j := by
  cases y <;> simp [SelItem.content?] at h <;> subst h <;>
    first | exact ⟨.tok .., rfl⟩ | exact ⟨.opens .., rfl⟩ | exact ⟨.closes .., rfl⟩

omit [DecidableEq M] in
theorem content_of {y : SelItem M} (h : IsContent y) : y.content? = some y.index := by
  cases h <;> rfl

omit [DecidableEq M] in
theorem form_begin {i : Nat} {X Y : List (SelItem M)} {ss : List SelStep}
    (h : SForm f .skipTarget X Y ss ∨ SForm f .unmatched X Y ss) :
    SForm f .skipProto (.start i :: X) Y (regionBegins i :: ss) := by
  rcases h with ⟨sk, Z, ss1, rfl, h1, h2, ⟨body, k, X', fd, Y', ms, ss', rfl, rfl, h3, h4, rfl⟩, rfl⟩
    | ⟨body, k, X', ss', rfl, h1, h2, rfl⟩
  · exact .found h1 h2 h3 h4
  · exact .lost h1 h2

omit [DecidableEq M] in
theorem form_lost {x : SelItem M} {X Y : List (SelItem M)} {ss : List SelStep}
    (hx : IsContent x ∨ IsMarker x) (h : SForm f .unmatched X Y ss) :
    SForm f .unmatched (x :: X) Y (lostStep f x :: ss) := by
  obtain ⟨body, k, X', ss', rfl, h1, h2, rfl⟩ := h
  exact ⟨x :: body, k, X', ss', rfl, List.forall_mem_cons.mpr ⟨hx, h1⟩, h2, rfl⟩

omit [DecidableEq M] in
theorem form_marker {x : SelItem M} {X Y : List (SelItem M)} {ss : List SelStep}
    (hx : IsMarker x) (h : SForm f .matched X Y ss) :
    SForm f .matched (x :: X) Y (markerStep x :: ss) := by
  obtain ⟨body, k, X', fd, Y', ms, ss', rfl, rfl, h1, h2, rfl⟩ := h
  exact ⟨x :: body, k, X', fd, Y', _, ss', rfl, rfl, .marker hx h1, h2, rfl⟩

omit [DecidableEq M] in
theorem form_found {x y : SelItem M} {X Y : List (SelItem M)} {ss : List SelStep}
    (hx : Same x y) (h : SForm f .matched X Y ss) :
    SForm f .matched (x :: X) (y :: Y) (foundStep f x y :: ss) := by
  obtain ⟨body, k, X', fd, Y', ms, ss', rfl, rfl, h1, h2, rfl⟩ := h
  exact ⟨x :: body, k, X', y :: fd, Y', _, ss', rfl, rfl, .item hx h1, h2, rfl⟩

omit [DecidableEq M] in
theorem form_endMatched {k : Nat} {X Y : List (SelItem M)} {ss : List SelStep}
    (h : SForm f .skipProto X Y ss) : SForm f .matched (.stop k :: X) Y (regionEnds k :: ss) :=
  ⟨[], k, X, [], Y, [], ss, rfl, rfl, .nil, h, rfl⟩

omit [DecidableEq M] in
theorem form_endLost {k : Nat} {X Y : List (SelItem M)} {ss : List SelStep}
    (h : SForm f .skipProto X Y ss) : SForm f .unmatched (.stop k :: X) Y (regionEnds k :: ss) :=
  ⟨[], k, X, ss, rfl, by simp, h, rfl⟩

omit [DecidableEq M] in
theorem form_pass {y : SelItem M} {X Y : List (SelItem M)} {ss : List SelStep}
    (hy : IsContent y) (h : SForm f .skipTarget X Y ss) :
    SForm f .skipTarget X (y :: Y) (passStep y :: ss) := by
  obtain ⟨sk, Z, ss1, rfl, h1, h2, h3, rfl⟩ := h
  exact ⟨y :: sk, Z, ss1, rfl, List.forall_mem_cons.mpr ⟨hy, h1⟩, h2, h3, rfl⟩

omit [DecidableEq M] in
theorem form_match {y : SelItem M} {X Y : List (SelItem M)} {ss : List SelStep}
    (hy : IsContent y) (h : SForm f .matched X (y :: Y) ss) : SForm f .skipTarget X (y :: Y) ss :=
  ⟨[], y :: Y, ss, rfl, by simp, ⟨y, rfl, hy⟩, h, rfl⟩

omit [DecidableEq M] in
theorem flagAt_other {p i : Nat} (h : xs[p]? = some (.other i)) : flagAt xs p = false := by
  rw [flagAt, List.take_add_one, h]
  simp [advanceFlag]

/-- Reading the steps of a path from a state. -/
theorem reads_form : ∀ (w : List SelEdge) (c : SelCat) (p u : Nat),
    Walk Edge.source Edge.dest (goodEdges f xs ys) (.at c p u) .final w →
    SForm f c (xs.drop p) (ys.drop u) (selectionOf w)
  | [], c, p, u, h => by cases Walk.nil_iff.mp h
  | e :: w, c, p, u, h => by
    obtain ⟨he, hs, hw⟩ := Walk.cons_iff.mp h
    replace hs := hs.symm
    have hsel : selectionOf (e :: w) = selLabel e ++ selectionOf w := rfl
    rcases goodEdges_out he hs with ⟨x, hx, hu, hc⟩ | ⟨rfl, rfl, hu, rfl⟩
    · simp only [selCell, List.mem_append] at hc
      rcases hc with (((((hc | hc) | hc) | hc) | hc) | hc) | hc
      · -- an item is not selected
        rw [drop_of_get hx]
        cases x with
        | other i => simp [selSkip] at hc
        | _ =>
          simp only [selSkip, List.mem_singleton] at hc
          subst hc
          simp only [SelState.at.injEq] at hs
          obtain ⟨rfl, -, -⟩ := hs
          refine Selects.skip (by first | exact .inl (by constructor) | exact .inr (by constructor))
            (reads_form w .skipProto _ _ hw)
      · -- a selected part begins
        rw [drop_of_get hx]
        cases x with
        | start i =>
          simp only [selStart, List.mem_cons, List.not_mem_nil, or_false] at hc
          rcases hc with rfl | rfl <;> simp only [SelState.at.injEq] at hs <;>
            obtain ⟨rfl, -, -⟩ := hs
          · exact form_begin (.inl (reads_form w .skipTarget _ _ hw))
          · exact form_begin (.inr (reads_form w .unmatched _ _ hw))
        | _ => simp [selStart] at hc
      · -- the target is skipped, or matching begins
        unfold selTarget at hc
        split at hc
        · next j hj =>
          obtain ⟨y, hy, hj⟩ := Option.bind_eq_some_iff.mp hj
          obtain ⟨hcy, rfl⟩ := content_spec hj
          rw [drop_of_get hy]
          simp only [List.mem_cons, List.not_mem_nil, or_false] at hc
          rcases hc with rfl | rfl <;> simp only [SelState.at.injEq] at hs <;>
            obtain ⟨rfl, -, -⟩ := hs
          · exact form_pass hcy (reads_form w .skipTarget _ _ hw)
          · have := reads_form w .matched _ _ hw
            rw [drop_of_get hy] at this
            exact form_match hcy this
        · simp at hc
      · -- an item is matched
        rw [drop_of_get hx]
        unfold selMatch at hc
        split at hc
        · next j t' mt' hy =>
          split at hc
          · next heq =>
            obtain ⟨rfl, rfl⟩ := heq
            rw [drop_of_get hy]
            simp only [List.mem_singleton] at hc
            subst hc
            simp only [SelState.at.injEq] at hs
            obtain ⟨rfl, -, -⟩ := hs
            exact form_found (.tok ..) (reads_form w .matched _ _ hw)
          · simp at hc
        · next i mt j mt' hy =>
          split at hc
          · next heq =>
            obtain rfl := heq
            rw [drop_of_get hy]
            simp only [List.mem_singleton] at hc
            subst hc
            simp only [SelState.at.injEq] at hs
            obtain ⟨rfl, -, -⟩ := hs
            rw [hsel]
            have hfd := form_found (.opens i j mt) (reads_form w .matched _ _ hw)
            simp only [foundStep, foundUtility, insideDecision, SelItem.index, neg_zero] at hfd
            exact hfd
          · simp at hc
        · next i mt j mt' hy =>
          split at hc
          · next heq =>
            obtain rfl := heq
            rw [drop_of_get hy]
            simp only [List.mem_singleton] at hc
            subst hc
            simp only [SelState.at.injEq] at hs
            obtain ⟨rfl, -, -⟩ := hs
            rw [hsel]
            have hfd := form_found (.closes i j mt) (reads_form w .matched _ _ hw)
            simp only [foundStep, foundUtility, insideDecision, SelItem.index, neg_zero] at hfd
            exact hfd
          · simp at hc
        · simp only [List.mem_singleton] at hc
          subst hc
          simp only [SelState.at.injEq] at hs
          obtain ⟨rfl, -, -⟩ := hs
          exact form_marker (.start _) (reads_form w .matched _ _ hw)
        · simp at hc
      · -- a region end in a matched part
        rw [drop_of_get hx]
        cases x with
        | stop i =>
          simp only [selEndMatch, List.mem_cons, List.not_mem_nil, or_false] at hc
          rcases hc with rfl | rfl <;> simp only [SelState.at.injEq] at hs <;>
            obtain ⟨rfl, -, -⟩ := hs
          · exact form_endMatched (reads_form w .skipProto _ _ hw)
          · exact form_marker (.stop _) (reads_form w .matched _ _ hw)
        | _ => simp [selEndMatch] at hc
      · -- an item is lost
        split at hc
        · next hfl =>
          rw [drop_of_get hx]
          simp only [List.mem_singleton] at hc
          subst hc
          cases x with
          | other i => rw [flagAt_other hx] at hfl; cases hfl
          | _ =>
            simp only [selPass, SelState.at.injEq] at hs
            obtain ⟨rfl, -, -⟩ := hs
            exact form_lost (by first | exact .inl (by constructor) | exact .inr (by constructor))
              (reads_form w .unmatched _ _ hw)
        · simp at hc
      · -- a lost part ends
        rw [drop_of_get hx]
        cases x with
        | stop i =>
          simp only [selEndPass, List.mem_singleton] at hc
          subst hc
          simp only [SelState.at.injEq] at hs
          obtain ⟨rfl, -, -⟩ := hs
          exact form_endLost (reads_form w .skipProto _ _ hw)
        | _ => simp [selEndPass] at hc
    · rw [List.drop_length]
      have : w = [] := by
        cases w with
        | nil => rfl
        | cons e' w' =>
          obtain ⟨h1, h2, -⟩ := Walk.cons_iff.mp hw
          exact absurd h2.symm (goodEdges_source h1)
      subst this
      exact Selects.done _

/-! ### And back -/

/-- The steps `ss` are read on some path. -/
def SelReads (f : SelUtility M) (xs ys : List (SelItem M)) (s : SelState) (ss : List SelStep) :
    Prop :=
  ∃ w, Walk Edge.source Edge.dest (goodEdges f xs ys) s .final w ∧ selectionOf w = ss

theorem selReads_cons {e : SelEdge} {ss : List SelStep} (he : e ∈ goodEdges f xs ys)
    (h : SelReads f xs ys e.dest ss) : SelReads f xs ys e.source (selLabel e ++ ss) := by
  obtain ⟨w, hw, rfl⟩ := h
  exact ⟨e :: w, .cons he hw, rfl⟩

theorem mem_cell {e : SelEdge} {p u : Nat} {x : SelItem M} (hx : xs[p]? = some x)
    (hu : u ≤ ys.length) (h : e ∈ selCell f p u x ys[u]? (flagAt xs p)) : e ∈ goodEdges f xs ys :=
  mem_goodEdges.mpr (.inl ⟨p, x, u, hx, hu, h⟩)

/-- Only items the construction knows, the first of which is not a region end. -/
def Plain (xs : List (SelItem M)) : Prop :=
  (∀ x ∈ xs, IsContent x ∨ IsMarker x) ∧ ∀ i, xs.head? ≠ some (.stop i)

omit [DecidableEq M] in
theorem flagAt_plain (hp : Plain xs) {p : Nat} {x : SelItem M} (h : xs[p]? = some x) :
    flagAt xs p = true := by
  have aux : ∀ (l : List (SelItem M)), (∀ x ∈ l, IsContent x ∨ IsMarker x) →
      l.foldl advanceFlag (some true) = some true := by
    intro l
    induction l with
    | nil => intro _; rfl
    | cons y l ih =>
      intro hl
      have h1 : advanceFlag (some true) y = some true := by
        rcases hl y (by simp) with h | h <;> cases h <;> rfl
      rw [List.foldl_cons, h1]
      exact ih fun z hz => hl z (by simp [hz])
  obtain ⟨h1, h2⟩ := hp
  cases xs with
  | nil => cases h
  | cons y l =>
    have h3 : advanceFlag none y = some true := by
      rcases h1 y (by simp) with hy | hy <;> cases hy
      · rfl
      · rfl
      · rfl
      · rfl
      · exact absurd rfl (h2 _)
    rw [flagAt, List.take_succ_cons, List.foldl_cons, h3,
      aux _ fun z hz => h1 z (List.mem_cons_of_mem _ (List.mem_of_mem_take hz))]
    rfl

theorem lost_reads (hp : Plain xs) {u : Nat} (hu : u ≤ ys.length) {k : Nat} {X : List (SelItem M)}
    {ss : List SelStep} : ∀ (body : List (SelItem M)) (p : Nat),
    xs.drop p = body ++ .stop k :: X → SelReads f xs ys (.at .skipProto (p + body.length + 1) u) ss →
    SelReads f xs ys (.at .unmatched p u) (body.map (lostStep f) ++ regionEnds k :: ss)
  | [], p, h, hr => by
    obtain ⟨hx, -⟩ := get_of_drop h
    exact selReads_cons (e := ⟨.at .unmatched p u, .at .skipProto (p + 1) u, 0,
      some (⟨k, .stop⟩, .yes), none⟩) (mem_cell hx hu (by simp [selCell, selEndPass])) hr
  | x :: body, p, h, hr => by
    obtain ⟨hx, hd⟩ := get_of_drop h
    have ih := lost_reads hp hu (ss := ss) body (p + 1) hd (by
      rw [List.length_cons] at hr; rwa [Nat.add_right_comm p 1]; )
    have he : selPass f p u x ∈ goodEdges f xs ys :=
      mem_cell hx hu (by simp [selCell, flagAt_plain hp hx])
    have h1 : IsContent x ∨ IsMarker x := hp.1 x (List.mem_of_getElem? hx)
    have h2 : selLabel (selPass f p u x) = [lostStep f x] := by
      rcases h1 with h1 | h1 <;> cases h1 <;> rfl
    have h3 : (selPass f p u x).source = .at .unmatched p u := by cases x <;> rfl
    have h4 : (selPass f p u x).dest = .at .unmatched (p + 1) u := by cases x <;> rfl
    have := selReads_cons he (by rw [h4]; exact ih)
    rw [h2, h3] at this
    exact this

theorem matched_reads {k : Nat} {X Y : List (SelItem M)} {ss : List SelStep}
    {body found : List (SelItem M)} {ms : List SelStep} (hm : Matches f body found ms) :
    ∀ (p u : Nat), u ≤ ys.length → xs.drop p = body ++ .stop k :: X → ys.drop u = found ++ Y →
    SelReads f xs ys (.at .skipProto (p + body.length + 1) (u + found.length)) ss →
    SelReads f xs ys (.at .matched p u) (ms ++ regionEnds k :: ss) := by
  induction hm with
  | nil =>
    intro p u hu h h' hr
    obtain ⟨hx, -⟩ := get_of_drop h
    exact selReads_cons (e := ⟨.at .matched p u, .at .skipProto (p + 1) u, 0,
      some (⟨k, .stop⟩, .yes), none⟩) (mem_cell hx hu (by simp [selCell, selEndMatch])) hr
  | @item x y body found ms hxy _ ih =>
    intro p u hu h h' hr
    obtain ⟨hx, hd⟩ := get_of_drop h
    obtain ⟨hy, hd'⟩ := get_of_drop h'
    have hu' : u + 1 ≤ ys.length := (List.getElem?_eq_some_iff.mp hy).1
    have ih := ih (p + 1) (u + 1) hu' hd hd' (by
      simp only [List.length_cons] at hr
      rwa [Nat.add_right_comm p 1, Nat.add_assoc u 1, Nat.add_comm 1])
    have : ∃ e ∈ goodEdges f xs ys, e.source = .at .matched p u
        ∧ e.dest = .at .matched (p + 1) (u + 1) ∧ selLabel e = [foundStep f x y] := by
      cases hxy with
      | tok i j t mt =>
        exact ⟨_, mem_cell (e := ⟨.at .matched p u, .at .matched (p + 1) (u + 1),
          ((-f.matchUtility t mt : ℚ) : Cost), some (⟨i, .inRegion⟩, .yes),
          some ⟨.matched, some i, some j⟩⟩) hx hu (by simp [selCell, hy, selMatch]), rfl, rfl, rfl⟩
      | opens i j mt =>
        refine ⟨_, mem_cell (e := ⟨.at .matched p u, .at .matched (p + 1) (u + 1), 0,
          some (⟨i, .inRegion⟩, .yes), some ⟨.matched, some i, some j⟩⟩) hx hu
          (by simp [selCell, hy, selMatch]), rfl, rfl, ?_⟩
        simp [selLabel, foundStep, foundUtility, insideDecision, SelItem.index]
      | closes i j mt =>
        refine ⟨_, mem_cell (e := ⟨.at .matched p u, .at .matched (p + 1) (u + 1), 0, none,
          some ⟨.matched, some i, some j⟩⟩) hx hu (by simp [selCell, hy, selMatch]), rfl, rfl, ?_⟩
        simp [selLabel, foundStep, foundUtility, insideDecision, SelItem.index]
    obtain ⟨e, he, h1, h2, h3⟩ := this
    have := selReads_cons he (by rw [h2]; exact ih)
    rw [h1, h3] at this
    exact this
  | @marker x body found ms hxm _ ih =>
    intro p u hu h h' hr
    obtain ⟨hx, hd⟩ := get_of_drop h
    have ih := ih (p + 1) u hu hd h' (by
      simp only [List.length_cons] at hr
      rwa [Nat.add_right_comm p 1])
    have : ∃ e ∈ goodEdges f xs ys, e.source = .at .matched p u
        ∧ e.dest = .at .matched (p + 1) u ∧ selLabel e = [markerStep x] := by
      cases hxm with
      | start i =>
        exact ⟨_, mem_cell (e := ⟨.at .matched p u, .at .matched (p + 1) u, 0,
          some (⟨i, .start⟩, .na), some ⟨.matched, some i, none⟩⟩) hx hu
          (by simp [selCell, selMatch]), rfl, rfl, rfl⟩
      | stop i =>
        exact ⟨_, mem_cell (e := ⟨.at .matched p u, .at .matched (p + 1) u, 0,
          some (⟨i, .stop⟩, .no), some ⟨.matched, some i, none⟩⟩) hx hu
          (by simp [selCell, selEndMatch]), rfl, rfl, rfl⟩
    obtain ⟨e, he, h1, h2, h3⟩ := this
    have := selReads_cons he (by rw [h2]; exact ih)
    rw [h1, h3] at this
    exact this

/-- Skipping in the target, before the prototype item at `p` (there is one). -/
theorem pass_reads {p : Nat} {x : SelItem M} (hx : xs[p]? = some x) {Z : List (SelItem M)}
    {y0 : SelItem M} (hz : Z.head? = some y0) (hy0 : IsContent y0) {ss : List SelStep} :
    ∀ (sk : List (SelItem M)) (u : Nat), (∀ y ∈ sk, IsContent y) → ys.drop u = sk ++ Z →
    SelReads f xs ys (.at .matched p (u + sk.length)) ss →
    SelReads f xs ys (.at .skipTarget p u) (sk.map passStep ++ ss)
  | [], u, _, h, hr => by
    obtain ⟨Z', rfl⟩ : ∃ Z', Z = y0 :: Z' := by
      cases Z with
      | nil => cases hz
      | cons a Z' => exact ⟨Z', by rw [Option.some.inj hz]⟩
    obtain ⟨hy, -⟩ := get_of_drop h
    have hu : u ≤ ys.length := (List.getElem?_eq_some_iff.mp hy).1.le
    exact selReads_cons (e := ⟨.at .skipTarget p u, .at .matched p u, 0, none, none⟩)
      (mem_cell hx hu (by simp [selCell, selTarget, hy, content_of hy0])) hr
  | y :: sk, u, hs, h, hr => by
    obtain ⟨hy, hd⟩ := get_of_drop h
    have hu : u ≤ ys.length := (List.getElem?_eq_some_iff.mp hy).1.le
    have ih := pass_reads hx hz hy0 sk (u + 1) (fun z hz => hs z (by simp [hz])) hd (by
      rw [List.length_cons] at hr
      rwa [Nat.add_assoc u 1, Nat.add_comm 1])
    exact selReads_cons (e := ⟨.at .skipTarget p u, .at .skipTarget p (u + 1), 0, none,
      some ⟨.skipTarget, none, some y.index⟩⟩)
      (mem_cell hx hu (by simp [selCell, selTarget, hy, content_of (hs y (by simp))])) ih

theorem selects_reads (hp : Plain xs) {X Y : List (SelItem M)} {ss : List SelStep}
    (h : Selects f X Y ss) : ∀ (p u : Nat), p ≤ xs.length → u ≤ ys.length → xs.drop p = X →
    ys.drop u = Y → SelReads f xs ys (.at .skipProto p u) ss := by
  induction h with
  | done Y =>
    intro p u hpl hu h1 h2
    have : p = xs.length := by
      have := congrArg List.length h1
      simp at this
      omega
    subst this
    exact ⟨[⟨.at .skipProto xs.length u, .final, 0, none, none⟩],
      .cons (mem_goodEdges.mpr (.inr ⟨u, hu, rfl⟩)) (.nil _), rfl⟩
  | @skip x X Y ss hx _ ih =>
    intro p u hpl hu h1 h2
    obtain ⟨hg, hd⟩ := get_of_drop h1
    have ih := ih (p + 1) u (List.getElem?_eq_some_iff.mp hg).1 hu hd h2
    have : ∃ e ∈ goodEdges f xs ys, e.source = .at .skipProto p u
        ∧ e.dest = .at .skipProto (p + 1) u ∧ selLabel e = [outsideStep x] := by
      rcases hx with hx | hx <;> cases hx <;>
        exact ⟨_, mem_cell hg hu (by simp only [selCell, selSkip, List.mem_append]; simp only [List.mem_singleton]; exact .inl (.inl (.inl (.inl (.inl (.inl rfl)))))),
          rfl, rfl, rfl⟩
    obtain ⟨e, he, h1, h2, h3⟩ := this
    have := selReads_cons he (by rw [h2]; exact ih)
    rw [h1, h3] at this
    exact this
  | @lost i body k X Y ss hb _ ih =>
    intro p u hpl hu h1 h2
    obtain ⟨hg, hd⟩ := get_of_drop h1
    have hd' := drop_app (p := p + 1) hd
    obtain ⟨hk, hd''⟩ := get_of_drop hd'
    have ih := ih (p + 1 + body.length + 1) u (List.getElem?_eq_some_iff.mp hk).1 hu hd'' h2
    exact selReads_cons (e := ⟨.at .skipProto p u, .at .unmatched (p + 1) u, 0,
      some (⟨i, .start⟩, .yes), none⟩) (mem_cell hg hu (by simp [selCell, selStart]))
      (lost_reads hp hu body (p + 1) hd ih)
  | @found i body k X sk fd Y ms ss hs hz hm _ ih =>
    intro p u hpl hu h1 h2
    obtain ⟨hg, hd⟩ := get_of_drop h1
    have hd' := drop_app (p := p + 1) hd
    obtain ⟨hk, hd''⟩ := get_of_drop hd'
    obtain ⟨y0, hz, hy0⟩ := hz
    have e1 := drop_app h2
    have e2 := drop_app e1
    have hl : ys.length - u = sk.length + (fd ++ Y).length := by
      have := congrArg List.length h2
      simpa [Nat.add_assoc] using this
    have hl' : u + sk.length + fd.length ≤ ys.length := by
      rw [List.length_append] at hl
      omega
    have ih := ih (p + 1 + body.length + 1) (u + sk.length + fd.length)
      (List.getElem?_eq_some_iff.mp hk).1 hl' hd'' e2
    have hm' := matched_reads hm (p + 1) (u + sk.length) (by omega) hd e1 ih
    obtain ⟨x1, hx1⟩ : ∃ x, xs[p + 1]? = some x := by
      cases body with
      | nil => exact ⟨_, (get_of_drop hd).1⟩
      | cons b body => exact ⟨_, (get_of_drop hd).1⟩
    exact selReads_cons (e := ⟨.at .skipProto p u, .at .skipTarget (p + 1) u, 0,
      some (⟨i, .start⟩, .yes), none⟩) (mem_cell hg hu (by simp [selCell, selStart]))
      (pass_reads hx1 (Option.mem_def.mp hz) hy0 sk u hs h2 hm')

omit [DecidableEq M] in
theorem matches_plain {body found : List (SelItem M)} {ms : List SelStep}
    (h : Matches f body found ms) : ∀ x ∈ body, IsContent x ∨ IsMarker x := by
  induction h with
  | nil => simp
  | item h _ ih =>
    refine List.forall_mem_cons.mpr ⟨?_, ih⟩
    cases h
    · exact .inl (.tok ..)
    · exact .inl (.opens ..)
    · exact .inl (.closes ..)
  | marker h _ ih => exact List.forall_mem_cons.mpr ⟨.inr h, ih⟩

omit [DecidableEq M] in
theorem selects_plain {X Y : List (SelItem M)} {ss : List SelStep} (h : Selects f X Y ss) :
    ∀ x ∈ X, IsContent x ∨ IsMarker x := by
  induction h with
  | done => simp
  | skip h _ ih => exact List.forall_mem_cons.mpr ⟨h, ih⟩
  | lost hb _ ih =>
    refine List.forall_mem_cons.mpr ⟨.inr (.start _), fun x hx => ?_⟩
    rcases List.mem_append.mp hx with hx | hx
    · exact hb x hx
    · rcases List.mem_cons.mp hx with rfl | hx
      · exact .inr (.stop _)
      · exact ih x hx
  | found _ _ hm _ ih =>
    refine List.forall_mem_cons.mpr ⟨.inr (.start _), fun x hx => ?_⟩
    rcases List.mem_append.mp hx with hx | hx
    · exact matches_plain hm x hx
    · rcases List.mem_cons.mp hx with rfl | hx
      · exact .inr (.stop _)
      · exact ih x hx

/-- The complete paths of the selection DAG. -/
theorem goodEdges_reads (hn : ∀ i, xs.head? ≠ some (.stop i)) (ss : List SelStep) :
    SelReads f xs ys selInitial ss ↔ Selects f xs ys ss := by
  constructor
  · rintro ⟨w, hw, rfl⟩
    exact reads_form w .skipProto 0 0 hw
  · intro h
    exact selects_reads ⟨selects_plain h, hn⟩ h 0 0 (Nat.zero_le _) (Nat.zero_le _) (by simp)
      (by simp)

end RUSure.Lemmas
