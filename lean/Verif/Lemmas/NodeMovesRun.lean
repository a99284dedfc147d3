import Verif.Lemmas.NodeTransplant

/-!
# Moves one after the other
-/

namespace RUSure.NodeHeap

/-- Both nodes are there (addresses). -/
def OkI (m : Move) (s : List Nat) : Prop := m.c ∈ s ∧ m.p ∈ s ∧ m.p ≠ m.c

instance (m : Move) (s : List Nat) : Decidable (OkI m s) := inferInstanceAs (Decidable (_ ∧ _ ∧ _))

/-- The siblings after a move. -/
def stepIds (s : List Nat) (m : Move) : List Nat := if OkI m s then s.filter fun a => a != m.c else s

theorem placeL_stepIds (m : Move) (l : List LTree) : (placeL m l).map LTree.id = stepIds (l.map LTree.id) m := by
  by_cases ok : OkL m l
  · obtain ⟨C, _, _, _, ep⟩ := placeL_ok ok
    rw [stepIds, if_pos (show OkI m _ from ok), ep, List.map_map, List.filter_map]
    exact List.map_congr_left fun x _ => by
      simp only [Function.comp]
      split <;> simp
  · rw [placeL_not ok, stepIds, if_neg (show ¬ OkI m _ from ok)]

theorem placeAll_stepIds (D : List Move) (l : List LTree) :
    (placeAll D l).map LTree.id = D.foldl stepIds (l.map LTree.id) := by
  induction D generalizing l with
  | nil => rfl
  | cons d D ih =>
    change (placeAll D (placeL d l)).map LTree.id = _
    rw [ih, placeL_stepIds]
    rfl

theorem okL_level {D : List Move} {m : Move} {K : List LTree} : OkL m (placeAll (atLevel D K) (K.map (buildT D)))
    ↔ OkI m ((atLevel D K).foldl stepIds (K.map LTree.id)) := by
  change OkI m _ ↔ _
  rw [placeAll_stepIds, map_buildT_id]

/-- The moves `D2` can be made after the moves `D1`. -/
def Rest (t : LTree) (D1 D2 : List Move) : Prop := ∀ E m F, D2 = E ++ m :: F → ∀ K, Lev t K → m.c ∈ K.map LTree.id →
  OkI m ((atLevel (D1 ++ E) K).foldl stepIds (K.map LTree.id))

theorem rest_nil (t : LTree) (D1 : List Move) : Rest t D1 [] := by
  intro E m F e
  cases E <;> cases e

theorem rest_cons {t : LTree} {D1 D2 : List Move} {m : Move} : Rest t D1 (m :: D2)
    ↔ (∀ K, Lev t K → m.c ∈ K.map LTree.id → OkI m ((atLevel D1 K).foldl stepIds (K.map LTree.id)))
      ∧ Rest t (D1 ++ [m]) D2 := by
  constructor
  · intro h
    refine ⟨fun K hK hc => ?_, fun E m' F e K hK hc => ?_⟩
    · have := h [] m D2 rfl K hK hc
      rwa [List.append_nil] at this
    · have := h (m :: E) m' F (by rw [e]; rfl) K hK hc
      rwa [List.append_assoc]
  · rintro ⟨h1, h2⟩ E m' F e K hK hc
    cases E with
    | nil =>
      cases e
      rw [List.append_nil]
      exact h1 K hK hc
    | cons d E =>
      injection e with e1 e2
      subst e1
      have := h2 E m' F e2 K hK hc
      rwa [List.append_assoc] at this

/-- A move of a node that starts elsewhere than its siblings, under a sibling that starts before it. -/
structure Good (t : LTree) (m : Move) : Prop where
  ex : ∃ K C P, Lev t K ∧ C ∈ K ∧ P ∈ K ∧ C.id = m.c ∧ P.id = m.p ∧ P.lo < C.lo ∧ ∀ x ∈ K, x.id ≠ m.c → x.lo ≠ C.lo

theorem Lev.trans {t : LTree} {L : List LTree} (h : Lev t L) {y : LTree} (hy : y ∈ L) {K : List LTree} (hK : Lev y K) :
    Lev t K := by
  induction h with
  | self => exact .child hy hK
  | child hx _ ih => exact .child hx (ih hy)

theorem Lev.unique {t : LTree} {K : List LTree} (h : Lev t K) : ∀ {K' : List LTree}, Lev t K' → t.ids.Nodup →
    ∀ {a : Nat}, a ∈ K.map LTree.id → a ∈ K'.map LTree.id → K = K' := by
  induction h with
  | @self id lo hi ann cs =>
    intro K' h' hn a ha ha'
    cases h' with
    | self => rfl
    | child hx h' => exact absurd ha (deep_not_root (children_nodup hn) hx (h'.sub (roots_mem ha')))
  | @child id lo hi ann cs x K hx hL ih =>
    intro K' h' hn a ha ha'
    have hcs := children_nodup hn
    cases h' with
    | self => exact absurd ha' (deep_not_root hcs hx (hL.sub (roots_mem ha)))
    | @child _ _ _ _ _ y _ hy h' =>
      cases root_unique hcs hx hy (children_ids (hL.sub (roots_mem ha))) (children_ids (h'.sub (roots_mem ha')))
      exact ih h' (nodup_child hcs hx) ha ha'

/-- The siblings of a node are all different. -/
theorem Lev.nodup {t : LTree} {K : List LTree} (h : Lev t K) : t.ids.Nodup → (K.flatMap LTree.ids).Nodup := by
  induction h with
  | self => exact children_nodup
  | child hx _ ih => intro hn; exact ih (nodup_child (children_nodup hn) hx)

/-- Moves with the addresses of the new nodes. -/
def number : Nat → List (Nat × Nat) → List Move
  | _, [] => []
  | n, (c, p) :: ms => ⟨c, p, n⟩ :: number (n + 1) ms

/-- The objects after the moves `D`. -/
structure After (h : Heap) (t : LTree) (D : List Move) : Prop where
  rep : Rep h none (buildT D t)
  nodup : (buildT D t).ids.Nodup
  exist : ∀ a ∈ (buildT D t).ids, a < h.next
  orig : ∀ a ∈ t.ids, a < h.next
  fresh : ∀ d ∈ D, d.n ∉ t.ids
  good : ∀ d ∈ D, Good t d

theorem After.lo {h : Heap} {t : LTree} {D : List Move} (A : After h t D) (hn : t.ids.Nodup) {K : List LTree}
    (hK : Lev t K) : ∀ d ∈ atLevel D K, ∀ c ∈ K.map (buildT D), ∀ p ∈ K.map (buildT D), c.id = d.c → p.id = d.p →
      p.lo < c.lo := by
  intro d hd c hc p hp ec ep
  obtain ⟨hd1, hd2⟩ := List.mem_filter.1 hd
  obtain ⟨K', C, P, hK', hC, hP, eC, eP, hlt, _⟩ := (A.good d hd1).ex
  have hcK : d.c ∈ K.map LTree.id := by simpa using hd2
  cases hK.unique hK' hn hcK (eC ▸ List.mem_map_of_mem hC)
  obtain ⟨c0, hc0, rfl⟩ := List.mem_map.1 hc
  obtain ⟨p0, hp0, rfl⟩ := List.mem_map.1 hp
  rw [buildT_id] at ec ep
  have hr := roots_nodup (hK.nodup hn)
  cases List.inj_on_of_nodup_map hr hc0 hC (ec.trans eC.symm)
  cases List.inj_on_of_nodup_map hr hp0 hP (ep.trans eP.symm)
  rwa [buildT_lo, buildT_lo]

/-- Where the siblings of the original tree are now. -/
theorem After.find {h : Heap} {t : LTree} {D : List Move} (A : After h t D) (hn : t.ids.Nodup) {K : List LTree}
    (hK : Lev t K) {x : LTree} (hx : x ∈ K) :
    (∃ y ∈ placeAll (atLevel D K) (K.map (buildT D)), y.id = x.id ∧ y.lo = x.lo)
    ∨ (x.id ∉ (placeAll (atLevel D K) (K.map (buildT D))).map LTree.id
      ∧ ∃ a b : LTree, Lev (buildT D t) [a, b] ∧ b.id = x.id ∧ b.lo = x.lo ∧ a.lo < x.lo) := by
  have hr := roots_nodup (hK.nodup hn)
  have hr' : ((K.map (buildT D)).map LTree.id).Nodup := by rwa [map_buildT_id]
  by_cases hm : x.id ∈ (placeAll (atLevel D K) (K.map (buildT D))).map LTree.id
  · refine .inl ?_
    obtain ⟨y, hy, e⟩ := List.mem_map.1 hm
    obtain ⟨z, hz, e1, e2⟩ := placeAll_roots hy
    obtain ⟨z0, hz0, rfl⟩ := List.mem_map.1 hz
    rw [buildT_id] at e1
    rw [buildT_lo] at e2
    cases List.inj_on_of_nodup_map hr hz0 hx (e1.trans e)
    exact ⟨y, hy, e, e2.symm⟩
  · refine .inr ⟨hm, ?_⟩
    have := placeAll_gone hr' (A.lo hn hK) (List.mem_map_of_mem hx) (by rw [buildT_id]; exact hm)
    obtain ⟨y, hy, a, b, h1, h2, h3, h4, _⟩ := this
    rw [buildT_id] at h2
    rw [buildT_lo] at h3 h4
    exact ⟨a, b, (buildT_lev hK hn).trans hy h1, h2, h3, h4⟩

theorem After.get_lo {h : Heap} {t : LTree} {D : List Move} (A : After h t D) (hn : t.ids.Nodup) {K : List LTree}
    (hK : Lev t K) {x : LTree} (hx : x ∈ K) : (h.get x.id).lo = x.lo := by
  have key : ∀ {L : List LTree} {y : LTree}, Lev (buildT D t) L → y ∈ L → (h.get y.id).lo = y.lo := by
    intro L y hL hy
    obtain ⟨q, z, rz, rfl, _, _⟩ := hL.rep A.rep A.nodup
    rw [(rz.sub y hy).cell]
  rcases A.find hn hK hx with ⟨y, hy, e1, e2⟩ | ⟨_, a, b, hl, e1, e2, _⟩
  · rw [← e1, ← e2]; exact key (buildT_lev hK hn) hy
  · rw [← e1, ← e2]; exact key hl (List.mem_cons_of_mem _ List.mem_cons_self)

theorem After.step {fuel : Nat} (hf : 0 < fuel) {h : Heap} {t : LTree} {D : List Move} (A : After h t D)
    (hn : t.ids.Nodup) {m : Move} (hmn : m.n = h.next) (g : Good t m)
    (ok : ∀ K, Lev t K → m.c ∈ K.map LTree.id → OkI m ((atLevel D K).foldl stepIds (K.map LTree.id))) :
    ∃ h', transplant fuel h m.c m.p = .ok h' ∧ h'.next = h.next + 1 ∧ After h' t (D ++ [m])
      ∧ (∀ a < h.next, a ∉ (buildT D t).ids → h'.get a = h.get a)
      ∧ ∀ a ∈ (buildT (D ++ [m]) t).ids, a = h.next ∨ a ∈ (buildT D t).ids := by
  obtain ⟨K, C, P, hK, hC, hP, eC, eP, hlt, hdist⟩ := g.ex
  have hcK : m.c ∈ K.map LTree.id := eC ▸ List.mem_map_of_mem hC
  have ok' := okL_level.2 (ok K hK hcK)
  have hr := roots_nodup (hK.nodup hn)
  have hL := buildT_lev (D := D) hK hn
  have hlo : ∀ x ∈ placeAll (atLevel D K) (K.map (buildT D)), ∀ y ∈ placeAll (atLevel D K) (K.map (buildT D)),
      y.id = m.c → x.id ≠ m.c → x.lo ≠ y.lo := by
    intro x hx y hy ey hxc
    obtain ⟨x1, hx1, ex1, ex2⟩ := placeAll_roots hx
    obtain ⟨y1, hy1, ey1, ey2⟩ := placeAll_roots hy
    obtain ⟨x0, hx0, rfl⟩ := List.mem_map.1 hx1
    obtain ⟨y0, hy0, rfl⟩ := List.mem_map.1 hy1
    rw [buildT_id] at ex1 ey1
    rw [buildT_lo] at ex2 ey2
    have : y0 = C := List.inj_on_of_nodup_map hr hy0 hC (ey1.trans (ey.trans eC.symm))
    rw [← ex2, ← ey2, this]
    exact hdist x0 hx0 (fun e => hxc (ex1 ▸ e))
  obtain ⟨h', e, hnext, hrep, hframe⟩ := transplant_ok hf A.rep A.nodup A.exist hmn hL ok' hlo
  have hDn : m.c ∉ D.map Move.n := fun hm => by
    obtain ⟨d, hd, ed⟩ := List.mem_map.1 hm
    exact A.fresh d hd (ed ▸ children_ids (hK.sub (roots_mem hcK)))
  have hbuild := moveT_buildT hK hn hDn hcK ok'
  have hperm := moveT_perm hL A.nodup ok'
  rw [hbuild] at hrep hperm
  have hmT : m.n ∉ (buildT D t).ids := fun hm => absurd (A.exist _ hm) (by omega)
  refine ⟨h', e, hnext, ⟨hrep, hperm.nodup_iff.2 (List.nodup_cons.2 ⟨hmT, A.nodup⟩), fun a ha => ?_, fun a ha => ?_,
    fun d hd => ?_, fun d hd => ?_⟩, hframe, fun a ha => hmn ▸ List.mem_cons.1 (hperm.mem_iff.1 ha)⟩
  · rcases List.mem_cons.1 (hperm.mem_iff.1 ha) with rfl | ha
    · omega
    · have := A.exist a ha
      omega
  · have := A.orig a ha
    omega
  · rcases List.mem_append.1 hd with hd | hd
    · exact A.fresh d hd
    · cases List.mem_singleton.1 hd
      exact fun hm => absurd (A.orig _ hm) (by omega)
  · rcases List.mem_append.1 hd with hd | hd
    · exact A.good d hd
    · cases List.mem_singleton.1 hd
      exact g

theorem After.fail {fuel : Nat} (hf : 0 < fuel) {h : Heap} {t : LTree} {D : List Move} (A : After h t D)
    (hn : t.ids.Nodup) {m : Move} (g : Good t m)
    (ok : ¬ ∀ K, Lev t K → m.c ∈ K.map LTree.id → OkI m ((atLevel D K).foldl stepIds (K.map LTree.id))) :
    transplant fuel h m.c m.p = .error (.py .value) := by
  obtain ⟨K, C, P, hK, hC, hP, eC, eP, hlt, hdist⟩ := g.ex
  have hcK : m.c ∈ K.map LTree.id := eC ▸ List.mem_map_of_mem hC
  have hr := roots_nodup (hK.nodup hn)
  have nok : ¬ OkL m (placeAll (atLevel D K) (K.map (buildT D))) := by
    intro h'
    apply ok
    intro K' hK' hc'
    cases hK.unique hK' hn hcK hc'
    exact okL_level.1 h'
  have hL := buildT_lev (D := D) hK hn
  have hpc : m.p ≠ m.c := fun e => by
    have : P = C := List.inj_on_of_nodup_map hr hP hC (by rw [eP, eC, e])
    rw [this] at hlt
    omega
  have hclt : m.c < h.next := A.orig _ (children_ids (hK.sub (roots_mem hcK)))
  have hclo : (h.get m.c).lo = C.lo := by rw [← eC]; exact A.get_lo hn hK hC
  rcases A.find hn hK hP with ⟨y, hy, e1, e2⟩ | ⟨_, a, b, hl, e1, e2, e3⟩
  · have hpL : m.p ∈ (placeAll (atLevel D K) (K.map (buildT D))).map LTree.id := by
      rw [← eP, ← e1]
      exact List.mem_map_of_mem hy
    have hcL : m.c ∉ (placeAll (atLevel D K) (K.map (buildT D))).map LTree.id := fun hc => nok ⟨hc, hpL, hpc⟩
    refine transplant_not hf A.rep A.nodup A.exist hL hpL hclt hclo fun x hx => ?_
    obtain ⟨x1, hx1, ex1, ex2⟩ := placeAll_roots hx
    obtain ⟨x0, hx0, rfl⟩ := List.mem_map.1 hx1
    rw [buildT_id] at ex1
    rw [buildT_lo] at ex2
    rw [← ex2]
    exact hdist x0 hx0 fun e => hcL (e ▸ ex1 ▸ List.mem_map_of_mem hx)
  · refine transplant_not hf A.rep A.nodup A.exist hl (by rw [← eP, ← e1]; simp) hclt hclo fun x hx => ?_
    simp only [List.mem_cons, List.not_mem_nil, or_false] at hx
    rcases hx with rfl | rfl <;> omega

/-- All moves one after the other. -/
theorem transplants_ok {fuel : Nat} (hf : 0 < fuel) {t : LTree} (hn : t.ids.Nodup) : ∀ {ms : List (Nat × Nat)}
    {D : List Move} {h : Heap}, After h t D → (∀ m ∈ number h.next ms, Good t m) →
    (Rest t D (number h.next ms) → ∃ h', transplants fuel ms h = .ok h' ∧ h.next ≤ h'.next
      ∧ After h' t (D ++ number h.next ms) ∧ ∀ a < h.next, a ∉ (buildT D t).ids → h'.get a = h.get a)
    ∧ (¬ Rest t D (number h.next ms) → transplants fuel ms h = .error (.py .value))
  | [], D, h, A, _ => by
    refine ⟨fun _ => ⟨h, rfl, Nat.le_refl _, ?_, fun _ _ _ => rfl⟩, fun hr => absurd (rest_nil t D) hr⟩
    rw [number, List.append_nil]
    exact A
  | (c, p) :: ms, D, h, A, g => by
    rw [number] at g
    rw [number, rest_cons, transplants]
    have gm := g ⟨c, p, h.next⟩ List.mem_cons_self
    by_cases ok : ∀ K, Lev t K → c ∈ K.map LTree.id → OkI ⟨c, p, h.next⟩ ((atLevel D K).foldl stepIds (K.map LTree.id))
    · obtain ⟨h', e, hnext, A', hframe, hids⟩ := A.step hf hn (m := ⟨c, p, h.next⟩) rfl gm ok
      simp only at e
      rw [e]
      simp only []
      have ih := transplants_ok hf hn (ms := ms) A' (by
        rw [hnext]; exact fun m hm => g m (List.mem_cons_of_mem _ hm))
      rw [hnext] at ih
      refine ⟨fun hr => ?_, fun hr => ih.2 fun h2 => hr ⟨ok, h2⟩⟩
      obtain ⟨h'', e2, hle, A'', hframe2⟩ := ih.1 hr.2
      refine ⟨h'', e2, by omega, by rw [List.append_assoc] at A''; exact A'', fun a ha hT => ?_⟩
      rw [hframe2 a (by omega), hframe a ha hT]
      intro hm
      rcases hids a hm with h1 | h1
      · omega
      · exact hT h1
    · have := A.fail hf hn gm ok
      simp only at this
      rw [this]
      exact ⟨fun hr => absurd hr.1 ok, fun _ => rfl⟩

end RUSure.NodeHeap
