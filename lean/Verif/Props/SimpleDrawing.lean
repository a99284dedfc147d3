import Verif.Model.SimpleDrawing
import Verif.Lemmas.LayoutNotes
import Verif.Props.Drawing

/-!
# C81: drawings with the simple annotator
-/

namespace RUSure.Props
open RUSure.Draw RUSure.Spec RUSure.Lemmas

section
variable {S K V I : Type}

/-- C81: the sequence of `to_bounded_irrational` is in the unit interval, and any 161803 indices in a row get different
numbers. -/
theorem C81_spread (i j : Int) :
    0 ≤ toBoundedIrrational i ∧ toBoundedIrrational i < 1
    ∧ (toBoundedIrrational i = toBoundedIrrational j ↔ (161803 : Int) ∣ i - j) := by
  refine ⟨by simp only [toBoundedIrrational]; linarith [Int.floor_le ((i : ℚ) / (161803 / 100000) + 1 / 2)],
    by simp only [toBoundedIrrational]; linarith [Int.lt_floor_add_one ((i : ℚ) / (161803 / 100000) + 1 / 2)], ?_⟩
  have hf : ∀ x y : ℚ, x - ⌊x⌋ = y - ⌊y⌋ ↔ ∃ z : Int, x - y = z := by
    intro x y
    constructor
    · intro h
      exact ⟨⌊x⌋ - ⌊y⌋, by push_cast; linarith⟩
    · rintro ⟨z, hz⟩
      have : x = y + z := by linarith
      rw [this, Int.floor_add_intCast]
      push_cast
      ring
  unfold toBoundedIrrational
  simp only []
  rw [hf]
  constructor
  · rintro ⟨z, hz⟩
    have h1 : (100000 * (i - j) : ℚ) = 161803 * z := by
      field_simp at hz
      linarith
    have h2 : 100000 * (i - j) = 161803 * z := by exact_mod_cast h1
    exact Int.dvd_of_dvd_mul_right_of_gcd_one ⟨z, h2⟩ (by decide +kernel)
  · rintro ⟨z, hz⟩
    have h1 : (i : ℚ) = j + 161803 * z := by
      have : i = j + 161803 * z := by omega
      rw [this]
      push_cast
      ring
    refine ⟨100000 * z, ?_⟩
    rw [h1]
    push_cast
    ring

theorem jitter_range (p : Simple S K V I) (e : Edge S K V I) : -1 ≤ p.jitter e ∧ p.jitter e < 1 := by
  unfold Simple.jitter
  cases e.req with
  | none => norm_num
  | some r =>
    obtain ⟨h1, h2, -⟩ := C81_spread (p.hash r.2 % 100) 0
    simp only []
    constructor <;> linarith

theorem relative_range {p : Simple S K V I} (hσ : ∀ x, 0 ≤ p.sigmoid x ∧ p.sigmoid x ≤ 1) (e : Edge S K V I)
    (factor : ℚ) : -1 ≤ p.relative e factor ∧ p.relative e factor ≤ 1 := by
  unfold Simple.relative
  simp only []
  generalize hx : (_ / _ : ℚ) = x
  have := hσ x
  constructor <;> linarith

theorem elbow_range {m j : ℚ} (h1 : -1 ≤ m) (h2 : m ≤ 1) (h3 : -1 ≤ j) (h4 : j < 1) :
    0 ≤ elbowAlign m j ∧ elbowAlign m j ≤ 1 := by
  unfold elbowAlign
  split_ifs with ha hb
  · norm_num
  · have : 1 / 100 ≤ m := by
      rw [not_lt, abs_of_pos hb] at ha
      exact ha
    constructor <;> linarith
  · have : m ≤ -(1 / 100) := by
      rw [not_lt, abs_of_nonpos (not_lt.1 hb)] at ha
      linarith
    constructor <;> linarith

theorem textAlign_range {m j : ℚ} (h1 : -1 ≤ m) (h2 : m ≤ 1) (h3 : -1 ≤ j) (h4 : j < 1) :
    0 ≤ textAlign m j ∧ textAlign m j ≤ 1 := by
  obtain ⟨h, h'⟩ := elbow_range h1 h2 h3 h4
  unfold textAlign
  split_ifs
  · norm_num
  · constructor <;> linarith
  · exact ⟨h, h'⟩

theorem simple_edge {p : Simple S K V I} {e : Edge S K V I} {n : EdgeNote} (h : p.edge e = some n) :
    n = p.note e ((p.color e.info).toList.map fun c => "color_".toList ++ c) := by
  unfold Simple.edge at h
  cases hc : p.color e.info with
  | none =>
    rw [hc] at h
    exact (Option.some.inj h).symm
  | some c =>
    rw [hc] at h
    simp only [] at h
    split at h
    · exact (Option.some.inj h).symm
    · cases h

theorem forward_iff (p : Simple S K V I) (e : Edge S K V I) :
    p.forward e = true ↔ RightOf (p.box e.source) (p.box e.dest) := by
  unfold Simple.forward RightOf
  rw [decide_eq_true_iff]
  simp only [Box.right, ge_iff_le, sub_nonneg]

/-- The points of a line. -/
theorem simple_route {p : Simple S K V I} (hσ : ∀ x, 0 ≤ p.sigmoid x ∧ p.sigmoid x ≤ 1) (e : Edge S K V I)
    (tags : List Text)
    (hb : 0 ≤ (p.box e.source).width ∧ 0 ≤ (p.box e.source).height)
    (hc : 0 ≤ (p.box e.dest).width ∧ 0 ≤ (p.box e.dest).height) :
    ∃ p0 p1 p2 p3, (edgePoints (p.note e tags) (p.box e.source) (p.box e.dest)).1 = [p0, p1, p2, p3]
      ∧ Route (p.box e.source) (p.box e.dest) p0 p1 p2 p3
      ∧ Between p1 (edgePoints (p.note e tags) (p.box e.source) (p.box e.dest)).2.1 p2 := by
  obtain ⟨j1, j2⟩ := jitter_range p e
  obtain ⟨r1, r2⟩ := relative_range hσ e (1 / 2)
  obtain ⟨r3, r4⟩ := relative_range hσ e (3 / 2)
  obtain ⟨b1, b2⟩ := elbow_range r3 r4 j1 j2
  obtain ⟨a1, a2⟩ := textAlign_range r3 r4 j1 j2
  have hstart : 1 / 10 ≤ (p.note e tags).start ∧ (p.note e tags).start ≤ 9 / 10 := by
    simp only [Simple.note]
    constructor <;> linarith
  have hstop : 1 / 10 ≤ (p.note e tags).stop ∧ (p.note e tags).stop ≤ 9 / 10 := by
    simp only [Simple.note]
    constructor <;> linarith
  have helbow : 0 ≤ (p.note e tags).elbow ∧ (p.note e tags).elbow ≤ 1 := ⟨b1, b2⟩
  have halign : 0 ≤ (p.note e tags).align ∧ (p.note e tags).align ≤ 1 := ⟨a1, a2⟩
  have haxis : (p.note e tags).axis = if p.forward e then .horizontal else .vertical := rfl
  have hadj : (p.note e tags).elbowAdjust = 0 := rfl
  have hf := forward_iff p e
  have inner : ∀ {u w a : ℚ}, 0 ≤ w → 1 / 10 ≤ a ∧ a ≤ 9 / 10 → Inner u w (u + a * w) := by
    intro u w a hw ha
    have h1 := mul_le_mul_of_nonneg_right ha.1 hw
    have h2 := mul_le_mul_of_nonneg_right ha.2 hw
    constructor <;> linarith
  generalize p.note e tags = n at *
  generalize p.box e.source = b at *
  generalize p.box e.dest = c at *
  by_cases hr : RightOf b c
  · rw [hf.2 hr, if_pos rfl] at haxis
    unfold edgePoints
    simp only [haxis]
    refine ⟨_, _, _, _, rfl, ⟨fun _ => ⟨?_, ?_, ?_, ?_, ?_, ?_, ?_, ?_, ?_⟩, fun h => absurd hr h⟩, ?_⟩
    · simp [interpolate, Box.pointWithin]
    · have := inner (u := b.top) hb.2 hstart
      simpa [interpolate, Box.pointWithin] using this
    · simp [interpolate, Box.pointWithin]
    · have := inner (u := c.top) hc.2 hstop
      simpa [interpolate, Box.pointWithin] using this
    · simp [interpolate, Point.shift]
    · simp [interpolate, Point.shift]
    · simp [interpolate, Point.shift]
    · have := mul_nonneg helbow.1 (sub_nonneg.2 (show b.left + b.width ≤ c.left from hr))
      simpa [interpolate, Point.shift, Box.pointWithin, hadj] using this
    · have := scale_le (sub_nonneg.2 (show b.left + b.width ≤ c.left from hr)) helbow.1 helbow.2
      simp [interpolate, Point.shift, Box.pointWithin, hadj]
      linarith
    · refine Or.inl ?_
      split_ifs
      · refine ⟨by simp [interpolate, Point.shift], by simp [interpolate, Point.shift], ?_⟩
        have := between_scale (u := (b.pointWithin 1 n.start).y) (v := (c.pointWithin 0 n.stop).y) halign.1 halign.2
        simpa [interpolate, Point.shift] using this
      · refine ⟨rfl, by simp [interpolate, Point.shift], ?_⟩
        exact ⟨min_le_left _ _, le_max_left _ _⟩
  · rw [if_neg (fun h => hr (hf.1 h))] at haxis
    unfold edgePoints
    simp only [haxis]
    refine ⟨_, _, _, _, rfl, ⟨fun h => absurd h hr, fun _ => ⟨?_, ?_, ?_, ?_, ?_, ?_, ?_, ?_⟩⟩, ?_⟩
    · simp [interpolate, Box.pointWithin]
    · have := inner (u := b.left) hb.1 hstart
      simpa [interpolate, Box.pointWithin] using this
    · simp [interpolate, Box.pointWithin]
    · have := inner (u := c.left) hc.1 hstop
      simpa [interpolate, Box.pointWithin] using this
    · simp [interpolate, Point.shift]
    · simp [interpolate, Point.shift]
    · simp [interpolate, Point.shift]
    · have := between_scale (u := (b.pointWithin n.start 1).y) (v := (c.pointWithin n.stop 0).y) helbow.1 helbow.2
      simpa [interpolate, Point.shift, hadj] using this
    · refine Or.inr ⟨by simp [interpolate, Point.shift], by simp [interpolate, Point.shift], ?_⟩
      have := between_scale (u := (b.pointWithin n.start 1).x) (v := (c.pointWithin n.stop 0).x) halign.1 halign.2
      simpa [interpolate, Point.shift] using this

end

section
variable {S K V I : Type} [DecidableEq S] [DecidableEq K] [DecidableEq V]

/-- C81: whatever the boxes are, there is a drawing, unless an edge has a color that is not known. -/
theorem C81_total (p : Simple S K V I) (css : Text) (d : Dag S K V I) (emphasized : List (Edge S K V I)) :
    (∃ calls, renderDag css d p.annotator emphasized = some calls)
      ↔ ∀ e ∈ d.edges, ∀ c, p.color e.info = some c →
        c ∈ ["red".toList, "darkred".toList, "limegreen".toList, "darkgreen".toList, "lightblue".toList,
          "blue".toList, "orange".toList, "magenta".toList, "cyan".toList] := by
  constructor
  · rintro ⟨calls, h⟩ e he c hc
    obtain ⟨_, _, edges, -, -, h3, -⟩ := render_parts h
    obtain ⟨cs, -, h4⟩ := forall2_left h3 he
    have h5 : p.edge e ≠ none := by
      intro h6
      have h7 : p.annotator.edge e = none := h6
      simp only [edgeCalls, h7] at h4
      cases h4
    have h6 : c ∈ knownColors := by
      by_contra hk
      refine h5 ?_
      simp only [Simple.edge, hc, if_neg hk]
    exact h6
  · intro h
    refine C73_total css d p.annotator nofun (fun s _ => nofun) (fun e he => ?_) emphasized
    show p.edge e ≠ none
    unfold Simple.edge
    cases hc : p.color e.info with
    | none => exact nofun
    | some c =>
      have : c ∈ knownColors := h e he c hc
      simp only [if_pos this]
      exact nofun

theorem simple_calls {p : Simple S K V I} {reachable : S → Bool} {emphasized : List (Edge S K V I)} {e : Edge S K V I}
    {cs : List Draw.Call} (h : edgeCalls p.annotator reachable emphasized e = some cs) :
    ∃ n more, n = p.note e ((p.color e.info).toList.map fun c => "color_".toList ++ c)
      ∧ cs = [.openGroup n.hover (n.tags ++ more),
        .line (edgePoints n (p.box e.source) (p.box e.dest)).1, .dot (edgePoints n (p.box e.source) (p.box e.dest)).2.1,
        .pointLabel (edgePoints n (p.box e.source) (p.box e.dest)).2.2.1 n.text n.size
          (edgePoints n (p.box e.source) (p.box e.dest)).2.2.2, .closeGroup] := by
  unfold edgeCalls at h
  split at h
  · rename_i n s t hn hs ht
    have h1 : s.bounds = p.box e.source := by
      cases hs
      rfl
    have h2 : t.bounds = p.box e.dest := by
      cases ht
      rfl
    cases h
    refine ⟨n, ["edge-annotation".toList] ++ (emphasisTags emphasized e
      ++ ([if reachable e.source && reachable e.dest then "reachable-edge".toList else "unreachable-edge".toList]
      ++ ["hover_to_top".toList])), simple_edge hn, ?_⟩
    rw [h1, h2, List.append_assoc, List.append_assoc, List.append_assoc]
  · cases h

theorem infix_join {t : Text} {ts : List Text} (h : t ∈ ts) : t <:+: joinNewline ts := by
  induction ts with
  | nil => cases h
  | cons u us ih =>
    cases us with
    | nil =>
      rw [List.mem_singleton] at h
      subst h
      exact List.infix_rfl
    | cons v vs =>
      rcases List.mem_cons.1 h with rfl | h
      · exact (List.prefix_append _ _).isInfix
      · exact (ih h).trans ⟨u ++ ['\n'], [], by simp [joinNewline]⟩

/-- C81: every edge is drawn once, as a group with a line that leaves the box of its source on the inner part of a side
and arrives on the inner part of the opposite side of the box of its destination, with a dot between the bends, and
with its cost and its assignment. An edge with a color has a tag, for which there is a rule in the style sheet. -/
theorem C81_drawn (p : Simple S K V I) (hσ : ∀ x, 0 ≤ p.sigmoid x ∧ p.sigmoid x ≤ 1)
    (hbox : ∀ s, 0 ≤ (p.box s).width ∧ 0 ≤ (p.box s).height) (css : Text) (d : Dag S K V I)
    (emphasized : List (Edge S K V I)) (calls : List Draw.Call)
    (h : renderDag css d p.annotator emphasized = some calls) :
    ∃ setup states edges, calls = setup ++ states ++ edges.flatten
      ∧ states.length = d.stateList.length
      ∧ List.Forall₂ (fun e cs => ∃ tags p0 p1 p2 p3 dot point label dir,
          cs = [.openGroup (some (p.edgeRepr e)) tags, .line [p0, p1, p2, p3], .dot dot,
            .pointLabel point label p.font dir, .closeGroup]
          ∧ Route (p.box e.source) (p.box e.dest) p0 p1 p2 p3 ∧ Between p1 dot p2
          ∧ (e.req = none → label = p.costText e.cost)
          ∧ (∀ k v, e.req = some (k, v) →
            label = p.costText e.cost ++ " if ".toList ++ p.keyText k ++ " = ".toList ++ p.valueText v)
          ∧ ∀ c, p.color e.info = some c → "color_".toList ++ c ∈ tags
            ∧ ∃ style, Draw.Call.style style ∈ setup
              ∧ ".edge-annotation.color_".toList ++ c ++ " path {\n    stroke: ".toList ++ c ++ ";\n}\n".toList
                <:+: style) d.edges edges := by
  have known : ∀ e ∈ d.edges, ∀ c, p.color e.info = some c → c ∈ knownColors :=
    (C81_total p css d emphasized).1 ⟨calls, h⟩
  obtain ⟨extras, states, edges, h1, h2, h3, h4⟩ := render_parts h
  cases h1
  refine ⟨_, states, edges, h4.trans (by rw [List.map_nil, List.append_nil]), h2.length_eq.symm, ?_⟩
  refine Forall₂.of_mem h3 fun e he cs hcs => ?_
  obtain ⟨n, more, hn, rfl⟩ := simple_calls hcs
  obtain ⟨p0, p1, p2, p3, hp, hr, hd⟩ := simple_route hσ e
    ((p.color e.info).toList.map fun c => "color_".toList ++ c) (hbox e.source) (hbox e.dest)
  rw [← hn] at hp hd
  refine ⟨n.tags ++ more, p0, p1, p2, p3, _, (edgePoints n (p.box e.source) (p.box e.dest)).2.2.1, n.text,
    (edgePoints n (p.box e.source) (p.box e.dest)).2.2.2, ?_, hr, hd, ?_, ?_, ?_⟩
  · rw [hp, hn]
    rfl
  · intro hq
    rw [hn]
    show p.summary e = _
    simp only [Simple.summary, hq, List.append_nil]
  · intro k v hq
    rw [hn]
    show p.summary e = _
    simp only [Simple.summary, hq, List.append_assoc]
  · intro c hc
    refine ⟨?_, joinNewline (knownColors.map colorStyle), ?_, ?_⟩
    · refine List.mem_append_left _ ?_
      rw [hn]
      show _ ∈ (p.color e.info).toList.map _
      rw [hc]
      exact List.mem_singleton.2 rfl
    · exact List.mem_append_left _ (List.mem_singleton.2 rfl)
    · refine List.IsInfix.trans ?_ (infix_join (List.mem_map_of_mem (known e he c hc)))
      exact (List.prefix_append _ _).isInfix

/-- C81: edges between the same states that require values whose hashes differ modulo 100 do not start at the same
point. -/
theorem C81_apart (p : Simple S K V I) (reachable : S → Bool) (emphasized : List (Edge S K V I))
    (e f : Edge S K V I) (hs : f.source = e.source) (hd : f.dest = e.dest)
    (hw : 0 < (p.box e.source).width) (hh : 0 < (p.box e.source).height) (k l : K) (v w : V)
    (he : e.req = some (k, v)) (hf : f.req = some (l, w)) (hne : p.hash v % 100 ≠ p.hash w % 100)
    (cs ds : List Draw.Call) (hcs : edgeCalls p.annotator reachable emphasized e = some cs)
    (hds : edgeCalls p.annotator reachable emphasized f = some ds) (a b : Point) (as bs : List Point)
    (ha : Draw.Call.line (a :: as) ∈ cs) (hb : Draw.Call.line (b :: bs) ∈ ds) : a ≠ b := by
  obtain ⟨n, _, hn, rfl⟩ := simple_calls hcs
  obtain ⟨m, _, hm, rfl⟩ := simple_calls hds
  have hj : p.jitter e ≠ p.jitter f := by
    unfold Simple.jitter
    rw [he, hf]
    simp only []
    intro hj
    have hj' : toBoundedIrrational (p.hash v % 100) = toBoundedIrrational (p.hash w % 100) := by linarith
    have := (C81_spread _ _).2.2.1 hj'
    omega
  have hfw : p.forward f = p.forward e := by
    unfold Simple.forward
    rw [hs, hd]
  have hrel : p.relative f (1 / 2) = p.relative e (1 / 2) := by
    unfold Simple.relative
    rw [hfw, hs, hd]
  have hst : n.start ≠ m.start := by
    rw [hn, hm]
    simp only [Simple.note, hrel]
    intro h
    exact hj (by linarith)
  have hax : m.axis = n.axis := by
    rw [hn, hm]
    simp only [Simple.note, hfw]
  rw [hs, hd] at hb
  generalize p.box e.source = s at *
  generalize p.box e.dest = t at *
  have la : a :: as = (edgePoints n s t).1 := by simpa using ha
  have lb : b :: bs = (edgePoints m s t).1 := by simpa using hb
  unfold edgePoints at la lb
  rintro rfl
  cases hx : n.axis with
  | horizontal =>
    rw [hax] at lb
    simp only [hx] at la lb
    have e1 := (List.cons.inj la).1
    have e2 := (List.cons.inj lb).1
    have := congrArg Point.y (e1.symm.trans e2)
    simp only [interpolate, Box.pointWithin, zero_mul, add_zero] at this
    refine hst (mul_right_cancel₀ (ne_of_gt hh) ?_)
    linarith
  | vertical =>
    rw [hax] at lb
    simp only [hx] at la lb
    have e1 := (List.cons.inj la).1
    have e2 := (List.cons.inj lb).1
    have := congrArg Point.x (e1.symm.trans e2)
    simp only [interpolate, Box.pointWithin, zero_mul, add_zero] at this
    refine hst (mul_right_cancel₀ (ne_of_gt hw) ?_)
    linarith

/-- C81: between boxes of the same height in a row, a line is straight, in the middle up to the jitter. -/
theorem C81_straight (p : Simple S K V I) (hσ : p.sigmoid 0 = 1 / 2) (reachable : S → Bool)
    (emphasized : List (Edge S K V I)) (e : Edge S K V I)
    (hr : RightOf (p.box e.source) (p.box e.dest)) (ht : (p.box e.dest).top = (p.box e.source).top)
    (hh : (p.box e.dest).height = (p.box e.source).height) (cs : List Draw.Call)
    (hcs : edgeCalls p.annotator reachable emphasized e = some cs) (points : List Point)
    (hp : Draw.Call.line points ∈ cs) :
    ∃ y, (∀ a ∈ points, a.y = y)
      ∧ (e.req = none → y = (p.box e.source).top + 1 / 2 * (p.box e.source).height) := by
  obtain ⟨n, _, hn, rfl⟩ := simple_calls hcs
  have hf := (forward_iff p e).2 hr
  have hrel : p.relative e (1 / 2) = 0 := by
    unfold Simple.relative
    simp only [hf, if_true, Box.center, ht, hh, sub_self, zero_div, hσ]
    norm_num
  have h1 : n.axis = .horizontal := by
    rw [hn]
    simp only [Simple.note, hf, if_true]
  have h2 : n.start = 1 / 2 + 1 / 10 * p.jitter e := by
    rw [hn]
    simp only [Simple.note, hrel]
    ring
  have h3 : n.stop = 1 / 2 + 1 / 10 * p.jitter e := by
    rw [hn]
    simp only [Simple.note, hrel]
    ring
  have hl : points = (edgePoints n (p.box e.source) (p.box e.dest)).1 := by simpa using hp
  unfold edgePoints at hl
  simp only [h1] at hl
  subst hl
  refine ⟨(p.box e.source).top + (1 / 2 + 1 / 10 * p.jitter e) * (p.box e.source).height, ?_, ?_⟩
  · intro a ha
    simp only [List.mem_cons, List.not_mem_nil, or_false] at ha
    rcases ha with rfl | rfl | rfl | rfl <;>
      simp only [interpolate, Point.shift, Box.pointWithin, h2, h3, ht, hh] <;> ring
  · intro hq
    have : p.jitter e = 0 := by simp only [Simple.jitter, hq]
    rw [this]
    ring

end

/-- Boxes in a row; the infos are colors. -/
def simpleExample : Simple Nat Bool Bool (Option Text) where
  box s := ⟨100 * s, 0, 50, 20⟩
  font := 10
  horizontalScale := 100
  verticalScale := 100
  stateText _ := ['s']
  stateRepr _ := ['s']
  costText _ := ['c']
  keyText _ := ['k']
  valueText _ := ['v']
  edgeRepr _ := ['e']
  hash v := if v then -1 else 0
  color := id
  sigmoid x := if x < -1 then 0 else if x > 1 then 1 else (x + 1) / 2

/-- Two edges to the right with different values, and one to the left. -/
def simpleDag : Dag Nat Bool Bool (Option Text) :=
  ⟨0, [⟨0, 1, 0, some (true, true), some "red".toList⟩, ⟨0, 1, 0, some (true, false), none⟩, ⟨1, 0, 0, none, none⟩], 1⟩

/-- The hypotheses of `C81_drawn` and `C81_apart` hold. -/
example : (∃ calls, renderDag [] simpleDag simpleExample.annotator [] = some calls)
    ∧ (∀ x, 0 ≤ simpleExample.sigmoid x ∧ simpleExample.sigmoid x ≤ 1)
    ∧ (∀ s, 0 ≤ (simpleExample.box s).width ∧ 0 ≤ (simpleExample.box s).height)
    ∧ simpleExample.sigmoid 0 = 1 / 2 ∧ simpleExample.hash true % 100 ≠ simpleExample.hash false % 100
    ∧ RightOf (simpleExample.box 0) (simpleExample.box 1) ∧ ¬ RightOf (simpleExample.box 1) (simpleExample.box 0) := by
  refine ⟨(C81_total ..).2 ?_, ?_, ?_, ?_, by decide, ?_, ?_⟩
  · intro e he c hc
    simp only [simpleDag, List.mem_cons, List.not_mem_nil, or_false] at he
    rcases he with rfl | rfl | rfl
    · cases hc
      exact List.mem_cons_self ..
    · cases hc
    · cases hc
  · intro x
    simp only [simpleExample]
    split_ifs with h1 h2
    · norm_num
    · norm_num
    · constructor <;> linarith
  · intro s
    norm_num [simpleExample]
  · norm_num [simpleExample]
  · norm_num [simpleExample, RightOf]
  · norm_num [simpleExample, RightOf]

/-- An edge of another color cannot be drawn. -/
example : renderDag [] ⟨0, [⟨0, 1, 0, none, some "green".toList⟩], 1⟩ simpleExample.annotator [] = none := by
  cases h : renderDag [] ⟨0, [⟨0, 1, 0, none, some "green".toList⟩], 1⟩ simpleExample.annotator [] with
  | none => rfl
  | some calls =>
    exact absurd ((C81_total ..).1 ⟨calls, h⟩ _ (List.mem_singleton.2 rfl) "green".toList rfl) (by decide)

end RUSure.Props
