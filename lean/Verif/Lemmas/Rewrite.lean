import Verif.Lemmas.GatedDag

/-! # Lemmas for renumbering under arbitrary hash collisions -/

namespace RUSure.Lemmas
open RUSure RUSure.Spec

set_option linter.unusedSectionVars false
variable {S K V I : Type} [DecidableEq S]

/-- Every number in the tables stands for the state it was created for. -/
structure Labelled (t : IdTable S) : Prop where
  table : ∀ b i, t.table b = some i → i < t.states.length
  fallback : ∀ s i, t.fallback.lookup s = some i → t.states[i]? = some s

theorem Labelled.lookup {h : S → Nat} {t : IdTable S} (ht : Labelled t) {s : S} {i : Nat}
    (hi : t.lookup h s = some i) : t.states[i]? = some s := by
  unfold IdTable.lookup at hi
  split at hi
  · simp at hi
  · rename_i j hj
    split at hi
    · rename_i hs
      simp only [Option.some.injEq] at hi
      exact hi ▸ hs
    · exact ht.fallback s i hi

/-- A request either finds the number in the slot or appends the state. -/
theorem Labelled.create {h : S → Nat} {t : IdTable S} (ht : Labelled t) (s : S) :
    Labelled (t.create h s).1 ∧ (t.create h s).1.states[(t.create h s).2]? = some s
    ∧ (t.create h s).1.lookup h s = some (t.create h s).2
    ∧ (((t.create h s).1 = t ∧ (t.create h s).2 < t.states.length) ∨
        ((t.create h s).1.states = t.states ++ [s] ∧ (t.create h s).2 = t.states.length)) := by
  have hfresh : ∀ fb : List (S × Nat),
      (∀ s i, fb.lookup s = some i → t.states[i]? = some s) →
      Labelled (⟨fun b => if b = h s then some t.states.length else t.table b,
        t.states ++ [s], fb⟩ : IdTable S) := by
    intro fb hfb
    constructor
    · intro b i hb
      simp only at hb
      split at hb
      · simp only [Option.some.injEq] at hb
        subst hb
        simp
      · have := ht.table b i hb
        simp only [List.length_append, List.length_singleton]
        omega
    · intro s' i hi
      have h1 := hfb s' i hi
      have h2 := (List.getElem?_eq_some_iff.1 h1).1
      rw [List.getElem?_append_left h2, h1]
  have hlook : ∀ fb : List (S × Nat),
      (⟨fun b => if b = h s then some t.states.length else t.table b,
        t.states ++ [s], fb⟩ : IdTable S).lookup h s = some t.states.length := by
    intro fb
    simp [IdTable.lookup]
  unfold IdTable.create
  cases hT : t.table (h s) with
  | none => exact ⟨hfresh _ ht.fallback, by simp, hlook _, .inr ⟨rfl, rfl⟩⟩
  | some i =>
    have hi := ht.table _ _ hT
    simp only [List.getElem?_eq_getElem hi]
    by_cases hs : s = t.states[i]
    · rw [if_pos hs]
      refine ⟨ht, ?_, ?_, .inl ⟨rfl, hi⟩⟩
      · rw [List.getElem?_eq_getElem hi, ← hs]
      · simp [IdTable.lookup, hT, List.getElem?_eq_getElem hi, ← hs]
    · rw [if_neg hs]
      refine ⟨hfresh _ ?_, by simp, hlook _, .inr ⟨rfl, rfl⟩⟩
      intro s' j hj
      rw [List.lookup_cons] at hj
      split at hj
      · rename_i he
        simp only [Option.some.injEq] at hj
        subst hj
        rw [List.getElem?_eq_getElem hi, eq_of_beq he]
      · exact ht.fallback _ _ hj

abbrev tSrc (x : Nat × Nat × Edge S K V I) : Nat := x.1
abbrev tDst (x : Nat × Nat × Edge S K V I) : Nat := x.2.1

/-- What the first pass maintains. -/
structure FirstPass (h : S → Nat) (s0 : S) (t : IdTable S) (T : List (Nat × Nat × Edge S K V I)) :
    Prop where
  labelled : Labelled t
  triples : ∀ x ∈ T, t.states[x.1]? = some x.2.2.source ∧ t.states[x.2.1]? = some x.2.2.dest
    ∧ x.2.2.cost < ⊤
  zero : t.states[0]? = some s0
  only : ∀ i, t.states[i]? = some s0 → i = 0
  leaves : (t.table (h s0) = some 0 ∧ t.states.length = 1) ∨ ∃ x ∈ T, x.2.2.source = s0
  walks : ∀ i, i < t.states.length → ∃ p, Walk tSrc tDst T 0 i p

theorem FirstPass.start (h : S → Nat) (s0 : S) :
    FirstPass h s0 (IdTable.empty.create h s0).1 ([] : List (Nat × Nat × Edge S K V I)) := by
  have hst : (IdTable.empty.create h s0).1.states = [s0] := by simp [IdTable.create, IdTable.empty]
  have hl : Labelled (IdTable.empty : IdTable S) := ⟨by simp [IdTable.empty], by simp [IdTable.empty]⟩
  refine ⟨(hl.create s0).1, by simp, by rw [hst]; rfl, ?_, .inl ⟨?_, by rw [hst]; rfl⟩, ?_⟩
  · intro i hi
    rw [hst] at hi
    have := (List.getElem?_eq_some_iff.1 hi).1
    simp only [List.length_singleton] at this
    omega
  · simp [IdTable.create, IdTable.empty]
  · intro i hi
    rw [hst] at hi
    simp only [List.length_singleton] at hi
    obtain rfl : i = 0 := by omega
    exact ⟨[], .nil _⟩

theorem pass_fold {h : S → Nat} {s0 : S} (E : List (Edge S K V I)) (t : IdTable S)
    (T : List (Nat × Nat × Edge S K V I)) (hp : FirstPass h s0 t T)
    (ht : TopoWeak Edge.source Edge.dest (T.map (fun x => x.2.2) ++ E)) :
    FirstPass h s0 (E.foldl (rewriteStep h) (t, T)).1 (E.foldl (rewriteStep h) (t, T)).2
    ∧ ((E.foldl (rewriteStep h) (t, T)).2.map (fun x => x.2.2)).Sublist
        (T.map (fun x => x.2.2) ++ E) := by
  induction E generalizing t T with
  | nil => exact ⟨hp, by simp⟩
  | cons e E ih =>
    have hskip : FirstPass h s0 (E.foldl (rewriteStep h) (t, T)).1 (E.foldl (rewriteStep h) (t, T)).2
        ∧ ((E.foldl (rewriteStep h) (t, T)).2.map (fun x => x.2.2)).Sublist
          (T.map (fun x => x.2.2) ++ e :: E) := by
      have hsub : (T.map (fun x => x.2.2) ++ E).Sublist (T.map (fun x => x.2.2) ++ e :: E) :=
        (List.Sublist.refl _).append (List.sublist_cons_self _ _)
      obtain ⟨h1, h2⟩ := ih t T hp (ht.sublist hsub)
      exact ⟨h1, h2.trans hsub⟩
    rw [List.foldl_cons]
    by_cases hf : e.isFinite
    · cases hl : t.lookup h e.source with
      | none =>
        have : rewriteStep h (t, T) e = (t, T) := by simp [rewriteStep, hf, hl]
        rw [this]
        exact hskip
      | some src =>
        have hstep : rewriteStep h (t, T) e
            = ((t.create h e.dest).1, T ++ [(src, (t.create h e.dest).2, e)]) := by
          simp [rewriteStep, hf, hl]
        rw [hstep]
        obtain ⟨c1, c2, -, c4⟩ := hp.labelled.create (h := h) e.dest
        have hsrc := hp.labelled.lookup hl
        have hpre : ∀ (i : Nat) (s : S), t.states[i]? = some s → (t.create h e.dest).1.states[i]? = some s := by
          intro i s hi
          rcases c4 with ⟨c, -⟩ | ⟨c, -⟩
          · rw [c]; exact hi
          · rw [c, List.getElem?_append_left (List.getElem?_eq_some_iff.1 hi).1, hi]
        have hlt : src < t.states.length := (List.getElem?_eq_some_iff.1 hsrc).1
        have hw : ∀ a i p, Walk tSrc tDst T a i p →
            Walk tSrc tDst (T ++ [(src, (t.create h e.dest).2, e)]) a i p :=
          fun a i p hw => hw.mono' (List.subset_append_left _ _)
        have hmap : (T ++ [(src, (t.create h e.dest).2, e)]).map (fun x => x.2.2) ++ E
            = T.map (fun x => x.2.2) ++ e :: E := by simp
        rw [← hmap] at ht ⊢
        refine ih _ _ ⟨c1, ?_, hpre _ _ hp.zero, ?_, .inr ?_, ?_⟩ ht
        · intro x hx
          rcases List.mem_append.1 hx with hx | hx
          · obtain ⟨a, b, c⟩ := hp.triples x hx
            exact ⟨hpre _ _ a, hpre _ _ b, c⟩
          · rw [List.mem_singleton] at hx
            subst hx
            exact ⟨hpre _ _ hsrc, c2, by simpa [Edge.isFinite] using hf⟩
        · intro i hi
          rcases c4 with ⟨c, -⟩ | ⟨c, -⟩
          · rw [c] at hi; exact hp.only i hi
          · rw [c] at hi
            by_cases hil : i < t.states.length
            · rw [List.getElem?_append_left hil] at hi
              exact hp.only i hi
            · rw [List.getElem?_append_right (by omega)] at hi
              have hds : e.dest = s0 := by
                have := (List.getElem?_eq_some_iff.1 hi)
                simp only [List.length_singleton] at this
                obtain ⟨_, h2⟩ := this
                simpa using h2
              exfalso
              rcases hp.leaves with ⟨hz, h1⟩ | ⟨x, hx, hxs⟩
              · -- the slot still holds the initial state, so nothing is appended
                have hc : (t.create h e.dest).1 = t := by
                  rw [hds]
                  simp [IdTable.create, hz, hp.zero]
                have := congrArg (fun t => t.states.length) hc
                simp only [c, List.length_append, List.length_singleton] at this
                omega
              · have hpw := ht
                rw [hmap, TopoWeak, List.pairwise_append] at hpw
                exact hpw.2.2 x.2.2 (List.mem_map.2 ⟨x, hx, rfl⟩) e (by simp) (by rw [hds, hxs])
        · rcases hp.leaves with ⟨hz, h1⟩ | ⟨x, hx, hxs⟩
          · refine ⟨(src, (t.create h e.dest).2, e), by simp, ?_⟩
            obtain rfl : src = 0 := by omega
            rw [hp.zero] at hsrc
            simpa using hsrc.symm
          · exact ⟨x, by simp [hx], hxs⟩
        · intro i hi
          have hold : ∀ i, i < t.states.length → ∃ p,
              Walk tSrc tDst (T ++ [(src, (t.create h e.dest).2, e)]) 0 i p := fun i hi =>
            let ⟨p, hp⟩ := hp.walks i hi
            ⟨p, hw _ _ _ hp⟩
          rcases c4 with ⟨c, -⟩ | ⟨c, c'⟩
          · rw [c] at hi; exact hold i hi
          · by_cases hil : i < t.states.length
            · exact hold i hil
            · rw [c] at hi
              simp only [List.length_append, List.length_singleton] at hi
              obtain ⟨p, hp⟩ := hold src hlt
              refine ⟨p ++ [(src, (t.create h e.dest).2, e)], Walk.snoc_iff.2 ⟨by simp, ?_, hp⟩⟩
              simp only [tDst]
              omega
    · have : rewriteStep h (t, T) e = (t, T) := by simp [rewriteStep, hf]
      rw [this]
      exact hskip

/-- Renumbering, whatever the hash function. -/
theorem pruneRewrite_sound {h : S → Nat} {d : Dag S K V I} (ht : DagTopo d) {d' : Dag Nat K V I}
    (hd : d.pruneRewrite h = some d') :
    DagTopo d'
    ∧ (∃ p, DagSolution d' p)
    ∧ (∀ e ∈ d'.edges, ∃ p, DagSolution d' p ∧ e ∈ p)
    ∧ (∃ n, ∀ k, k < n ↔ DagState d' k)
    ∧ ∃ label : Nat → S, label d'.initial = d.initial ∧ label d'.final = d.final
      ∧ (renameStates label d').edges.Sublist d.relevant := by
  obtain ⟨hp, hsub⟩ := pass_fold (h := h) d.edges _ [] (FirstPass.start h d.initial) (by simpa using ht)
  simp only [List.map_nil, List.nil_append] at hsub
  unfold Dag.pruneRewrite at hd
  simp only at hd
  generalize hr : d.edges.foldl (rewriteStep h) ((IdTable.empty.create h d.initial).1, []) = r at *
  obtain ⟨t, T⟩ := r
  simp only at hd hp hsub
  obtain ⟨c1, c2, c3, c4⟩ := hp.labelled.create (h := h) d.final
  generalize hf : t.create h d.final = f at *
  split at hd
  · simp at hd
  rename_i hlt
  have hft : f.1 = t := by
    rcases c4 with ⟨c, -⟩ | ⟨-, c⟩
    · exact c
    · omega
  rw [hft] at hd c2 c3
  rw [c3] at hd
  have hmem : ∀ i, i ∈ T.reverse.foldl endStep [f.2] ↔ ∃ p, Walk tSrc tDst T i f.2 p := by
    intro i
    have htT : TopoWeak tSrc tDst T := by
      have h1 : TopoWeak Edge.source Edge.dest (T.map (fun x => x.2.2)) := ht.sublist hsub
      rw [TopoWeak, List.pairwise_map] at h1
      refine h1.imp_of_mem fun {a b} ha hb hne he => hne ?_
      have h2 := (hp.triples a ha).1
      have h3 := (hp.triples b hb).2.1
      simp only [tDst, tSrc] at he
      rw [he, h2] at h3
      simpa using h3.symm
    have := mem_reachFold (src := tDst) (dst := tSrc) T.reverse (topoWeak_reverse.2 htT) [f.2] i
    simp only [List.mem_singleton, exists_eq_left] at this
    rw [show i ∈ T.reverse.foldl endStep [f.2] ↔ _ from this]
    constructor
    · rintro ⟨p, hp⟩
      refine ⟨p.reverse, ?_⟩
      rw [← Walk.reverse_iff]
      simpa using hp
    · rintro ⟨p, hp⟩
      exact ⟨_, hp.reverse⟩
  generalize T.reverse.foldl endStep [f.2] = reach at *
  cases hi0 : t.lookup h d.initial with
  | none => simp [hi0] at hd
  | some i0 =>
  obtain rfl := hp.only _ (hp.labelled.lookup hi0)
  simp only [hi0] at hd
  split at hd
  swap
  · simp at hd
  rename_i h0
  simp only [Option.some.injEq] at hd
  have hlen : ∀ i, i ∈ reach → i < t.states.length := by
    intro i hi
    obtain ⟨p, hw⟩ := (hmem i).1 hi
    cases hw with
    | nil => omega
    | cons hx => exact (List.getElem?_eq_some_iff.1 (hp.triples _ hx).1).1
  have hback : ∀ x ∈ T, x.2.1 ∈ reach → x.1 ∈ reach := by
    intro x hx h1
    obtain ⟨p, hw⟩ := (hmem _).1 h1
    exact (hmem _).2 ⟨x :: p, .cons hx hw⟩
  have hf2 : f.2 ∈ reach := (hmem _).2 ⟨[], .nil _⟩
  -- paths over the triples are paths of the result
  have hwalk : ∀ a p, Walk tSrc tDst T a f.2 p → DagWalk d' (compactIndex reach a)
      (compactIndex reach f.2) (p.map fun x => ⟨compactIndex reach x.1, compactIndex reach x.2.1,
        x.2.2.cost, x.2.2.req, x.2.2.info⟩) ∧ ∀ x ∈ p, x.2.2.cost < ⊤ := by
    intro a p hw
    generalize hb : f.2 = b at hw ⊢
    induction hw with
    | nil a => exact ⟨.nil _, by simp⟩
    | @cons x b p hx hw ih =>
      obtain ⟨i1, i2⟩ := ih hb
      refine ⟨?_, ?_⟩
      · rw [List.map_cons]
        refine Walk.cons (src := Edge.source) (dst := Edge.dest)
          (e := ⟨compactIndex reach x.1, compactIndex reach x.2.1,
            x.2.2.cost, x.2.2.req, x.2.2.info⟩) ?_ i1
        rw [← hd]
        refine List.mem_map.2 ⟨x, List.mem_filter.2 ⟨hx, ?_⟩, rfl⟩
        exact decide_eq_true ((hmem _).2 ⟨p, by rw [hb]; exact hw⟩)
      · intro y hy
        rcases List.mem_cons.1 hy with rfl | hy
        · exact (hp.triples _ hx).2.2
        · exact i2 y hy
  have hsol : ∀ p, Walk tSrc tDst T 0 f.2 p → DagSolution d' (p.map fun x =>
      ⟨compactIndex reach x.1, compactIndex reach x.2.1,
        x.2.2.cost, x.2.2.req, x.2.2.info⟩) := by
    intro p hw
    obtain ⟨h1, h2⟩ := hwalk 0 p hw
    refine ⟨?_, ?_⟩
    · have e1 : d'.initial = compactIndex reach 0 := by rw [← hd]
      have e2 : d'.final = compactIndex reach f.2 := by rw [← hd]
      rw [e1, e2]
      exact h1
    · intro e he
      obtain ⟨x, hx, rfl⟩ := List.mem_map.1 he
      exact h2 x hx
  have hlabel : ∃ label : Nat → S, ∀ i s, i ∈ reach → t.states[i]? = some s →
      label (compactIndex reach i) = s := by
    refine ⟨fun k => ((((List.range t.states.length).filter
      (fun j => decide (j ∈ reach)))[k]?).bind (fun i => t.states[i]?)).getD d.initial, ?_⟩
    intro i s hi hs
    simp only [compact_spec reach _ i hi (hlen i hi), Option.bind_some, hs, Option.getD_some]
  obtain ⟨label, hlabel⟩ := hlabel
  have hedges : (renameStates label d').edges = (T.filter (fun x => decide (x.2.1 ∈ reach))).map
      (fun x => x.2.2) := by
    rw [← hd]
    simp only [renameStates, List.map_map]
    apply List.map_congr_left
    intro x hx
    obtain ⟨hx, h1⟩ := List.mem_filter.1 hx
    have h1 := of_decide_eq_true h1
    obtain ⟨g1, g2, -⟩ := hp.triples x hx
    simp only [Function.comp, hlabel _ _ h1 g2, hlabel _ _ (hback x hx h1) g1]
  have hsubl : (renameStates label d').edges.Sublist d.relevant := by
    have h1 : (renameStates label d').edges.Sublist d.edges := by
      rw [hedges]
      exact (List.filter_sublist.map _).trans hsub
    have h2 := h1.filter Edge.isFinite
    rwa [List.filter_eq_self.2] at h2
    intro e he
    rw [hedges] at he
    obtain ⟨x, hx, rfl⟩ := List.mem_map.1 he
    simpa [Edge.isFinite] using (hp.triples x (List.mem_filter.1 hx).1).2.2
  refine ⟨?_, ?_, ?_, ?_, label, ?_, ?_, hsubl⟩
  · have h1 : TopoWeak Edge.source Edge.dest (renameStates label d').edges :=
      (relevant_topo ht).sublist hsubl
    rw [TopoWeak, renameStates, List.pairwise_map] at h1
    exact h1.imp fun {a b} hne he => hne (by simp only [he])
  · obtain ⟨p, hw⟩ := (hmem 0).1 h0
    exact ⟨_, hsol p hw⟩
  · intro e he
    rw [← hd] at he
    obtain ⟨x, hx, rfl⟩ := List.mem_map.1 he
    obtain ⟨hx, h1⟩ := List.mem_filter.1 hx
    obtain ⟨p2, w2⟩ := (hmem _).1 (of_decide_eq_true h1)
    obtain ⟨p1, w1⟩ := hp.walks x.1 (List.getElem?_eq_some_iff.1 (hp.triples x hx).1).1
    exact ⟨_, hsol _ (w1.append (.cons hx w2)), List.mem_map.2 ⟨x, by simp, rfl⟩⟩
  · refine ⟨_, fun k => (compact_surj reach t.states.length hlen k).trans ?_⟩
    constructor
    · rintro ⟨i, hi, rfl⟩
      obtain ⟨p1, w1⟩ := hp.walks i (hlen i hi)
      rcases List.eq_nil_or_concat p1 with rfl | ⟨q, x, rfl⟩
      · left
        rw [← hd, Walk.nil_iff.1 w1]
      · rw [List.concat_eq_append, Walk.snoc_iff] at w1
        obtain ⟨hx, he, -⟩ := w1
        right; right
        refine ⟨⟨compactIndex reach x.1, compactIndex reach x.2.1,
            x.2.2.cost, x.2.2.req, x.2.2.info⟩, ?_, .inr ?_⟩
        · rw [← hd]
          exact List.mem_map.2 ⟨x, List.mem_filter.2 ⟨hx, decide_eq_true ((show x.2.1 = i from he.symm) ▸ hi)⟩, rfl⟩
        · simp only [he]
    · rintro (rfl | rfl | ⟨e, he, hk⟩)
      · exact ⟨0, h0, by rw [← hd]⟩
      · exact ⟨f.2, hf2, by rw [← hd]⟩
      · rw [← hd] at he
        obtain ⟨x, hx, rfl⟩ := List.mem_map.1 he
        obtain ⟨hx, h1⟩ := List.mem_filter.1 hx
        have h1 := of_decide_eq_true h1
        rcases hk with rfl | rfl
        · exact ⟨x.1, hback x hx h1, rfl⟩
        · exact ⟨x.2.1, h1, rfl⟩
  · rw [← hd]; exact hlabel _ _ h0 hp.zero
  · rw [← hd]; exact hlabel _ _ hf2 c2

end RUSure.Lemmas
