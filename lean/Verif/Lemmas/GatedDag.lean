import Verif.Lemmas.Paths
import Verif.Spec.GatedDag

/-! # Lemmas for reachability pruning -/

namespace RUSure.Lemmas
open RUSure RUSure.Spec

set_option linter.unusedSectionVars false
variable {S K V I : Type} [DecidableEq S]

theorem relevant_topo {d : Dag S K V I} (ht : DagTopo d) :
    TopoWeak Edge.source Edge.dest d.relevant :=
  TopoWeak.sublist ht List.filter_sublist

theorem mem_forward {d : Dag S K V I} (ht : DagTopo d) (s : S) :
    s ∈ d.forwardReachable ↔ ∃ p, Walk Edge.source Edge.dest d.relevant d.initial s p := by
  have := mem_reachFold d.relevant (relevant_topo ht) [d.initial] s
  simp only [List.mem_singleton, exists_eq_left] at this
  exact this

theorem mem_backward {d : Dag S K V I} (ht : DagTopo d) (s : S) :
    s ∈ d.backwardReachable ↔ ∃ p, Walk Edge.source Edge.dest d.relevant s d.final p := by
  have := mem_reachFold (src := Edge.dest) (dst := Edge.source) d.relevant.reverse
    (topoWeak_reverse.2 (relevant_topo ht)) [d.final] s
  simp only [List.mem_singleton, exists_eq_left] at this
  rw [show s ∈ d.backwardReachable ↔ _ from this]
  constructor
  · rintro ⟨p, hp⟩
    refine ⟨p.reverse, ?_⟩
    rw [← Walk.reverse_iff]
    simpa using hp
  · rintro ⟨p, hp⟩
    exact ⟨_, hp.reverse⟩

theorem mem_relevant {d : Dag S K V I} {e : Edge S K V I} :
    e ∈ d.relevant ↔ e ∈ d.edges ∧ e.cost < ⊤ := by
  simp [Dag.relevant, Edge.isFinite]

theorem solution_iff_relevant {d : Dag S K V I} {a b : S} {p : List (Edge S K V I)} :
    (Walk Edge.source Edge.dest d.edges a b p ∧ ∀ e ∈ p, e.cost < ⊤)
      ↔ Walk Edge.source Edge.dest d.relevant a b p := by
  constructor
  · rintro ⟨h, hf⟩
    exact h.mono fun e he => mem_relevant.2 ⟨Walk.mem h e he, hf e he⟩
  · intro h
    exact ⟨h.mono fun e he => (mem_relevant.1 (Walk.mem h e he)).1,
      fun e he => (mem_relevant.1 (Walk.mem h e he)).2⟩

theorem mem_prune {d : Dag S K V I} (ht : DagTopo d) {e : Edge S K V I} :
    e ∈ d.prune.edges ↔ e ∈ d.relevant
      ∧ (∃ p, Walk Edge.source Edge.dest d.relevant d.initial e.source p)
      ∧ ∃ p, Walk Edge.source Edge.dest d.relevant e.dest d.final p := by
  simp only [Dag.prune, List.mem_filter, Bool.and_eq_true, Dag.isReachable, decide_eq_true_eq,
    mem_forward ht, mem_backward ht, mem_relevant, Edge.isFinite]
  constructor
  · rintro ⟨h1, ⟨h2, h3, h4⟩, h5, h6⟩
    exact ⟨⟨h1, h2⟩, h3, h6⟩
  · rintro ⟨⟨h1, h2⟩, ⟨p, hp⟩, ⟨q, hq⟩⟩
    have he : e ∈ d.relevant := mem_relevant.2 ⟨h1, h2⟩
    refine ⟨h1, ⟨h2, ⟨p, hp⟩, ⟨e :: q, .cons he hq⟩⟩, ⟨p ++ [e], ?_⟩, ⟨q, hq⟩⟩
    rw [Walk.snoc_iff]
    exact ⟨he, rfl, hp⟩

theorem mem_pruneJit {d : Dag S K V I} (ht : DagTopo d) {e : Edge S K V I} :
    e ∈ d.pruneJit.edges ↔ e ∈ d.relevant
      ∧ (∃ p, Walk Edge.source Edge.dest d.relevant d.initial e.source p)
      ∧ ∃ p, Walk Edge.source Edge.dest d.relevant e.dest d.final p := by
  simp only [Dag.pruneJit, List.mem_filter, Bool.and_eq_true, decide_eq_true_eq, mem_forward ht,
    mem_backward ht]

theorem prune_eq_pruneJit {d : Dag S K V I} (ht : DagTopo d) : d.prune = d.pruneJit := by
  unfold Dag.prune Dag.pruneJit Dag.relevant
  simp only [List.filter_filter]
  congr 1
  apply List.filter_congr
  intro e he
  have h1 := mem_prune ht (e := e)
  have h2 := mem_pruneJit ht (e := e)
  rw [← h2] at h1
  simp only [Dag.prune, Dag.pruneJit, Dag.relevant, List.mem_filter, he, true_and] at h1
  rw [Bool.eq_iff_iff, h1]
  simp only [Bool.and_eq_true]
  exact and_comm

/-! ## State rewriting -/

/-- Consistency of the id tables; `done` lists the states for which an id was requested, in order. -/
structure TInv (h : S → Nat) (done : List S) (t : IdTable S) : Prop where
  nodup : t.states.Nodup
  dom : ∀ s ∈ t.states, s ∈ done
  fwd : ∀ i s, t.states[i]? = some s → t.table (h s) = some i
    ∨ ∃ j s', t.table (h s) = some j ∧ t.states[j]? = some s' ∧ s' ≠ s
      ∧ t.fallback.lookup s = some i ∧ [s, s'].Sublist done
  bwd : ∀ b i, t.table b = some i → ∃ s, t.states[i]? = some s ∧ h s = b
  fb : ∀ s i, t.fallback.lookup s = some i → t.states[i]? = some s

theorem TInv.empty (h : S → Nat) : TInv h [] (IdTable.empty : IdTable S) := by
  constructor <;> simp [IdTable.empty]

theorem getElem?_idxOf' {l : List S} {s : S} (hs : s ∈ l) : l[l.idxOf s]? = some s := by
  rw [List.getElem?_eq_getElem (List.idxOf_lt_length_of_mem hs), List.getElem_idxOf]

theorem idxOf_of_getElem? {l : List S} (hn : l.Nodup) {i : Nat} {s : S} (hi : l[i]? = some s) :
    l.idxOf s = i := by
  have hs : s ∈ l := List.mem_of_getElem? hi
  have h1 := getElem?_idxOf' hs
  rw [← hi] at h1
  exact (List.getElem?_inj (List.idxOf_lt_length_of_mem hs) hn).1 h1

theorem TInv.lookup {h : S → Nat} {done : List S} {t : IdTable S} (ht : TInv h done t) (s : S) :
    t.lookup h s = if s ∈ t.states then some (t.states.idxOf s) else none := by
  unfold IdTable.lookup
  by_cases hm : s ∈ t.states
  · rw [if_pos hm]
    have hi := getElem?_idxOf' hm
    rcases ht.fwd _ _ hi with h1 | ⟨j, s', h1, h2, h3, h4, -⟩
    · rw [h1]
      simp only
      rw [if_pos hi]
    · rw [h1]
      simp only
      rw [if_neg (by rw [h2]; simpa using h3), h4]
  · rw [if_neg hm]
    cases hb : t.table (h s) with
    | none => rfl
    | some i =>
      simp only
      rw [if_neg (fun hc => hm (List.mem_of_getElem? hc))]
      cases hf : t.fallback.lookup s with
      | none => rfl
      | some j => exact absurd (List.mem_of_getElem? (ht.fb s j hf)) hm

/-- Pure description of the id list. -/
def insState (L : List S) (s : S) : List S := if s ∈ L then L else L ++ [s]

theorem mem_insState {L : List S} {s x : S} : x ∈ insState L s ↔ x ∈ L ∨ x = s := by
  unfold insState
  split
  · constructor
    · exact .inl
    · rintro (h | rfl) <;> assumption
  · simp

theorem insState_prefix (L : List S) (s : S) : L <+: insState L s := by
  unfold insState
  split
  · exact List.prefix_rfl
  · exact List.prefix_append _ _

theorem idxOf_prefix {L L' : List S} (hp : L <+: L') {s : S} (hs : s ∈ L) :
    L'.idxOf s = L.idxOf s := by
  obtain ⟨m, rfl⟩ := hp
  rw [List.idxOf_append, if_pos hs]

theorem TInv.create {h : S → Nat} {done W : List S} {t : IdTable S} (ht : TInv h done t)
    (hW : NoReturn h W) {s : S} (hs : (done ++ [s]).Sublist W) :
    TInv h (done ++ [s]) (t.create h s).1 ∧ (t.create h s).1.states = insState t.states s
      ∧ (t.create h s).2 = (insState t.states s).idxOf s := by
  have hfresh : ∀ (fbk : List (S × Nat)), s ∉ t.states →
      (∀ (x : S) (i : Nat), fbk.lookup x = some i → t.states[i]? = some x) →
      (∀ (x : S) (i : Nat), t.states[i]? = some x → h x ≠ h s → fbk.lookup x = t.fallback.lookup x) →
      (∀ (x : S) (i : Nat), t.states[i]? = some x → h x = h s → fbk.lookup x = some i) →
      TInv h (done ++ [s]) (⟨fun b => if b = h s then some t.states.length else t.table b,
        t.states ++ [s], fbk⟩ : IdTable S) := by
    intro fbk hm f1 f2 f3
    have hget : ∀ {i : Nat} {x : S}, t.states[i]? = some x → (t.states ++ [s])[i]? = some x := by
      intro i x hx
      rw [List.getElem?_append_left (List.getElem?_eq_some_iff.1 hx).1]
      exact hx
    constructor
    · simp only
      rw [List.nodup_append]
      refine ⟨ht.nodup, by simp, ?_⟩
      intro a ha b hb
      simp only [List.mem_singleton] at hb
      rintro rfl
      subst hb
      exact hm ha
    · intro x hx
      simp only [List.mem_append, List.mem_singleton] at hx ⊢
      rcases hx with hx | rfl
      · exact .inl (ht.dom x hx)
      · exact .inr rfl
    · intro i x hx
      simp only at hx ⊢
      rw [List.getElem?_append] at hx
      split at hx
      · have hxs : x ≠ s := fun hc => hm (hc ▸ List.mem_of_getElem? hx)
        by_cases he : h x = h s
        · right
          refine ⟨t.states.length, s, by simp [he], by simp, hxs.symm, f3 x i hx he, ?_⟩
          exact List.Sublist.append (List.singleton_sublist.2 (ht.dom x (List.mem_of_getElem? hx)))
            (List.Sublist.refl [s])
        · rcases ht.fwd i x hx with h1 | ⟨j, s', h1, h2, h3, h4, h5⟩
          · left; simp [he, h1]
          · right
            refine ⟨j, s', by simp [he, h1], hget h2, h3, by rw [f2 x i hx he]; exact h4, ?_⟩
            exact h5.trans (List.sublist_append_left _ _)
      · rename_i hlt
        rw [List.getElem?_singleton] at hx
        split at hx
        · simp only [Option.some.injEq] at hx
          subst hx
          left
          simp only [↓reduceIte, Option.some.injEq]
          omega
        · simp at hx
    · intro b i hb
      simp only at hb ⊢
      split at hb
      · rename_i hbs
        simp only [Option.some.injEq] at hb
        subst hb
        exact ⟨s, by simp, hbs.symm⟩
      · obtain ⟨x, h1, h2⟩ := ht.bwd b i hb
        exact ⟨x, hget h1, h2⟩
    · intro x i hx
      exact hget (f1 x i hx)
  unfold IdTable.create
  dsimp only
  cases hb : t.table (h s) with
  | none =>
    have hno : ∀ (x : S) (i : Nat), t.states[i]? = some x → h x ≠ h s := by
      intro x i hx he
      rcases ht.fwd _ _ hx with h1 | ⟨j, s', h1, -⟩ <;> rw [he, hb] at h1 <;> simp at h1
    have hm : s ∉ t.states := fun hm => hno s _ (getElem?_idxOf' hm) rfl
    exact ⟨hfresh t.fallback hm ht.fb (fun _ _ _ _ => rfl) (fun x i hx he => absurd he (hno x i hx)),
      by simp [insState, hm], by simp [insState, hm, List.idxOf_append]⟩
  | some i =>
    obtain ⟨s', h1, h2⟩ := ht.bwd _ _ hb
    simp only [h1]
    by_cases hss : s = s'
    · subst hss
      have hm := List.mem_of_getElem? h1
      simp only [↓reduceIte]
      refine ⟨?_, by simp [insState, hm], by simp [insState, hm, idxOf_of_getElem? ht.nodup h1]⟩
      refine ⟨ht.nodup, fun x hx => List.mem_append_left _ (ht.dom x hx), ?_, ht.bwd, ht.fb⟩
      intro j x hx
      rcases ht.fwd j x hx with h3 | ⟨k, y, h3, h4, h5, h6, h7⟩
      · exact .inl h3
      · exact .inr ⟨k, y, h3, h4, h5, h6, h7.trans (List.sublist_append_left _ _)⟩
    · have hm : s ∉ t.states := by
        intro hm
        rcases ht.fwd _ _ (getElem?_idxOf' hm) with h3 | ⟨k, y, h3, h4, h5, -, h7⟩
        · rw [hb] at h3
          simp only [Option.some.injEq] at h3
          rw [h3, getElem?_idxOf' hm] at h1
          exact hss (by simpa using h1)
        · rw [hb] at h3
          simp only [Option.some.injEq] at h3
          rw [← h3, h1] at h4
          simp only [Option.some.injEq] at h4
          subst h4
          refine hW s s' hss h2.symm (List.Sublist.trans ?_ hs)
          exact List.Sublist.append h7 (List.Sublist.refl [s])
      rw [if_neg hss]
      refine ⟨hfresh ((s', i) :: t.fallback) hm ?_ ?_ ?_, by simp [insState, hm],
        by simp [insState, hm, List.idxOf_append]⟩
      · intro x j hx
        rw [List.lookup_cons] at hx
        by_cases hxs : x = s'
        · subst hxs
          simp only [beq_self_eq_true, Option.some.injEq] at hx
          rw [← hx]; exact h1
        · simp only [beq_eq_false_iff_ne.2 hxs] at hx
          exact ht.fb x j hx
      · intro x j hx hne
        have hxs : x ≠ s' := fun hc => hne (hc ▸ h2)
        rw [List.lookup_cons]
        simp [beq_eq_false_iff_ne.2 hxs]
      · intro x j hx he
        rw [List.lookup_cons]
        by_cases hxs : x = s'
        · subst hxs
          have := (List.getElem?_inj (List.getElem?_eq_some_iff.1 hx).1 ht.nodup).1 (hx.trans h1.symm)
          simp [this]
        · simp only [beq_eq_false_iff_ne.2 hxs]
          rcases ht.fwd j x hx with h3 | ⟨k, y, h3, h4, h5, h6, h7⟩
          · rw [he, hb] at h3
            simp only [Option.some.injEq] at h3
            rw [← h3, h1] at hx
            exact absurd (by simpa using hx.symm) hxs
          · exact h6

/-- Pure description of the first pass. -/
def passStep (acc : List S × List (Edge S K V I)) (e : Edge S K V I) :
    List S × List (Edge S K V I) :=
  if e.source ∈ acc.1 then (insState acc.1 e.dest, acc.2 ++ [e]) else acc

def triple (L : List S) (e : Edge S K V I) : Nat × Nat × Edge S K V I :=
  (L.idxOf e.source, L.idxOf e.dest, e)

theorem passFold_prefix (E : List (Edge S K V I)) (L : List S) (kept : List (Edge S K V I)) :
    kept <+: (E.foldl passStep (L, kept)).2 := by
  induction E generalizing L kept with
  | nil => exact List.prefix_rfl
  | cons e E ih =>
    rw [List.foldl_cons]
    by_cases hm : e.source ∈ L
    · simp only [passStep, hm, ↓reduceIte]
      exact (List.prefix_append _ _).trans (ih _ _)
    · simp only [passStep, hm, ↓reduceIte]
      exact ih _ _

theorem rewrite_fold {h : S → Nat} {W : List S} (hW : NoReturn h W) (s0 : S)
    (E : List (Edge S K V I)) (t : IdTable S) (kept : List (Edge S K V I))
    (ht : TInv h (s0 :: kept.map Edge.dest) t)
    (hk : ∀ e ∈ kept, e.source ∈ t.states ∧ e.dest ∈ t.states)
    (hsub : (s0 :: ((E.filter Edge.isFinite).foldl passStep (t.states, kept)).2.map
      Edge.dest).Sublist W) :
    let r := E.foldl (rewriteStep h) (t, kept.map (triple t.states))
    let q := (E.filter Edge.isFinite).foldl passStep (t.states, kept)
    TInv h (s0 :: q.2.map Edge.dest) r.1 ∧ r.1.states = q.1 ∧ r.2 = q.2.map (triple q.1)
      ∧ ∀ e ∈ q.2, e.source ∈ q.1 ∧ e.dest ∈ q.1 := by
  induction E generalizing t kept with
  | nil => exact ⟨ht, rfl, rfl, hk⟩
  | cons e E ih =>
    simp only [List.foldl_cons, rewriteStep, List.filter_cons] at hsub ⊢
    split at hsub
    · rename_i hfin
      simp only [hfin, ↓reduceIte]
      rw [ht.lookup e.source]
      by_cases hm : e.source ∈ t.states
      · simp only [hm, ↓reduceIte, List.foldl_cons, passStep] at hsub ⊢
        have hpre : (s0 :: kept.map Edge.dest ++ [e.dest]).Sublist W := by
          refine List.Sublist.trans ?_ hsub
          obtain ⟨r, hr⟩ := passFold_prefix (E.filter Edge.isFinite) (insState t.states e.dest)
            (kept ++ [e])
          rw [← hr]
          simp
        obtain ⟨h1, h2, h3⟩ := ht.create hW hpre
        have hp := insState_prefix t.states e.dest
        have key : kept.map (triple t.states) ++
            [(t.states.idxOf e.source, (t.create h e.dest).2, e)]
            = (kept ++ [e]).map (triple (t.create h e.dest).1.states) := by
          rw [List.map_append, h2]
          congr 1
          · apply List.map_congr_left
            intro x hx
            obtain ⟨g1, g2⟩ := hk x hx
            simp [triple, idxOf_prefix hp g1, idxOf_prefix hp g2]
          · simp [triple, idxOf_prefix hp hm, h3]
        rw [← h2] at hsub
        rw [key, ← h2]
        refine ih _ _ (by simpa using h1) ?_ hsub
        intro x hx
        rw [h2, mem_insState, mem_insState]
        rcases List.mem_append.1 hx with hx | hx
        · exact ⟨.inl (hk x hx).1, .inl (hk x hx).2⟩
        · simp only [List.mem_singleton] at hx
          subst hx
          exact ⟨.inl hm, .inr rfl⟩
      · simp only [hm, ↓reduceIte, List.foldl_cons, passStep] at hsub ⊢
        exact ih t kept ht hk hsub
    · rename_i hfin
      simp only [hfin]
      exact ih t kept ht hk hsub

theorem passFold_spec (E : List (Edge S K V I)) (ht : TopoWeak Edge.source Edge.dest E)
    (L : List S) (kept : List (Edge S K V I)) :
    (∀ s, s ∈ (E.foldl passStep (L, kept)).1 ↔ s ∈ reachFold Edge.source Edge.dest E L)
    ∧ (E.foldl passStep (L, kept)).2 = kept ++ E.filter
        (fun e => decide (e.source ∈ reachFold Edge.source Edge.dest E L)) := by
  induction E generalizing L kept with
  | nil => exact ⟨fun s => Iff.rfl, by simp⟩
  | cons e E ih =>
    have ht' := (List.pairwise_cons.1 ht).2
    have hcongr : ∀ (E : List (Edge S K V I)) (L L' : List S), (∀ s, s ∈ L ↔ s ∈ L') → ∀ s,
        s ∈ reachFold Edge.source Edge.dest E L ↔ s ∈ reachFold Edge.source Edge.dest E L' := by
      intro E
      induction E with
      | nil => intro L L' h s; exact h s
      | cons x E ih =>
        intro L L' h s
        refine ih _ _ ?_ s
        intro s
        dsimp only
        simp only [h]
        split <;> simp [h]
    by_cases hm : e.source ∈ L
    · have hL : ∀ s, s ∈ insState L e.dest ↔ s ∈ e.dest :: L := by
        intro s; rw [mem_insState, List.mem_cons]; exact or_comm
      have hred : reachFold Edge.source Edge.dest (e :: E) L
          = reachFold Edge.source Edge.dest E (e.dest :: L) := by
        show reachFold Edge.source Edge.dest E _ = _
        simp [hm]
      obtain ⟨h1, h2⟩ := ih ht' (insState L e.dest) (kept ++ [e])
      have hsrc : e.source ∈ reachFold Edge.source Edge.dest (e :: E) L :=
        (mem_reachFold _ ht _ _).2 ⟨_, hm, [], .nil _⟩
      simp only [List.foldl_cons, passStep, hm, ↓reduceIte, List.filter_cons, hsrc,
        decide_true]
      refine ⟨fun s => by rw [h1, hred, hcongr E _ _ hL], ?_⟩
      rw [h2, List.append_assoc, List.singleton_append]
      congr 2
      apply List.filter_congr
      intro x _
      rw [hred]
      simp only [hcongr E _ _ hL]
    · have hred : reachFold Edge.source Edge.dest (e :: E) L
          = reachFold Edge.source Edge.dest E L := by
        show reachFold Edge.source Edge.dest E _ = _
        simp [hm]
      have hsrc : e.source ∉ reachFold Edge.source Edge.dest (e :: E) L := by
        intro hc
        obtain ⟨a, ha, p, hp⟩ := (mem_reachFold _ ht _ _).1 hc
        exact hm (walk_to_first ht hp ▸ ha)
      obtain ⟨h1, h2⟩ := ih ht' L kept
      simp only [List.foldl_cons, passStep, hm, ↓reduceIte, List.filter_cons, hsrc,
        decide_false, Bool.false_eq_true]
      rw [hred]
      exact ⟨h1, h2⟩

theorem reachFold_map {ε ε' : Type} {src dst : ε → S} {src' dst' : ε' → Nat} (f : S → Nat)
    (g : ε → ε') (P : S → Prop) (hf : ∀ s s', P s → P s' → f s = f s' → s = s') (E : List ε)
    (hE : ∀ e ∈ E, P (src e) ∧ P (dst e) ∧ src' (g e) = f (src e) ∧ dst' (g e) = f (dst e))
    (R : List S) (hR : ∀ s ∈ R, P s) :
    reachFold src' dst' (E.map g) (R.map f) = (reachFold src dst E R).map f
      ∧ ∀ s ∈ reachFold src dst E R, P s := by
  induction E generalizing R with
  | nil => exact ⟨rfl, hR⟩
  | cons e E ih =>
    have hE' := fun x hx => hE x (List.mem_cons_of_mem e hx)
    obtain ⟨p1, p2, g1, g2⟩ := hE e (by simp)
    have hmem : src' (g e) ∈ R.map f ↔ src e ∈ R := by
      rw [g1, List.mem_map]
      constructor
      · rintro ⟨s, hs, he⟩
        exact hf _ _ (hR s hs) p1 he ▸ hs
      · intro hs; exact ⟨_, hs, rfl⟩
    simp only [reachFold, List.map_cons, List.foldl_cons, hmem]
    by_cases hm : src e ∈ R
    · simp only [hm, ↓reduceIte]
      rw [g2, ← List.map_cons]
      refine ih hE' _ ?_
      intro s hs
      rcases List.mem_cons.1 hs with rfl | hs
      · exact p2
      · exact hR s hs
    · simp only [hm, ↓reduceIte]
      exact ih hE' _ hR

/-- The positions listed by the compaction. -/
theorem compact_spec (reach : List Nat) (n i : Nat) (hi : i ∈ reach) (hn : i < n) :
    ((List.range n).filter (fun j => decide (j ∈ reach)))[compactIndex reach i]? = some i := by
  obtain ⟨m, rfl⟩ : ∃ m, n = (i + 1) + m := ⟨n - (i + 1), by omega⟩
  unfold compactIndex
  rw [List.range_add, List.filter_append, List.range_succ, List.filter_append]
  simp only [List.filter_cons, hi, decide_true, ↓reduceIte, List.filter_nil]
  rw [List.getElem?_append_left (by simp), List.getElem?_append_right (by simp)]
  simp

theorem compact_inj (reach : List Nat) {i j : Nat} (hi : i ∈ reach) (hj : j ∈ reach)
    (h : compactIndex reach i = compactIndex reach j) : i = j := by
  have h1 := compact_spec reach (max i j + 1) i hi (by omega)
  have h2 := compact_spec reach (max i j + 1) j hj (by omega)
  rw [h, h2] at h1
  simpa using h1.symm

theorem compact_surj (reach : List Nat) (n : Nat) (hn : ∀ i ∈ reach, i < n) (k : Nat) :
    k < ((List.range n).filter (fun j => decide (j ∈ reach))).length
      ↔ ∃ i ∈ reach, compactIndex reach i = k := by
  constructor
  · intro hk
    have hget := List.getElem?_eq_getElem hk
    have hmem : ((List.range n).filter (fun j => decide (j ∈ reach)))[k] ∈
        (List.range n).filter (fun j => decide (j ∈ reach)) := List.getElem_mem hk
    generalize hx : ((List.range n).filter (fun j => decide (j ∈ reach)))[k] = x at *
    simp only [List.mem_filter, List.mem_range, decide_eq_true_eq] at hmem
    refine ⟨x, hmem.2, ?_⟩
    have h1 := compact_spec reach n x hmem.2 hmem.1
    have hnd : ((List.range n).filter (fun j => decide (j ∈ reach))).Nodup :=
      List.Pairwise.filter _ List.nodup_range
    rw [← hget] at h1
    exact ((List.getElem?_inj hk hnd).1 h1.symm).symm
  · rintro ⟨i, hi, rfl⟩
    exact (List.getElem?_eq_some_iff.1 (compact_spec reach n i hi (hn i hi))).1

end RUSure.Lemmas

namespace RUSure.Lemmas
open RUSure RUSure.Spec

set_option linter.unusedSectionVars false
variable {S K V I : Type} [DecidableEq S]

theorem pruneRewrite_spec {h : S → Nat} {d : Dag S K V I} (ht : DagTopo d)
    (hW : NoReturn h (createdOrder d)) :
    (¬ (∃ p, DagSolution d p) → d.pruneRewrite h = none)
    ∧ ((∃ p, DagSolution d p) → ∃ (f : S → Nat) (n : Nat),
        d.pruneRewrite h = some (renameStates f d.pruneJit)
        ∧ (∀ s s', OnSolution d s → OnSolution d s' → f s = f s' → s = s')
        ∧ ∀ k, k < n ↔ ∃ s, OnSolution d s ∧ f s = k) := by
  obtain ⟨a1, a2, a3⟩ := (TInv.empty h).create hW (s := d.initial)
    (by simp [createdOrder])
  have hst0 : (IdTable.empty.create h d.initial).1.states = [d.initial] := by
    rw [a2]; simp [insState, IdTable.empty]
  have hrel := relevant_topo ht
  obtain ⟨c1, c2⟩ := passFold_spec (d.edges.filter Edge.isFinite) hrel [d.initial] []
  have hcreated : createdOrder d = d.initial :: ((d.edges.filter Edge.isFinite).foldl passStep
      ([d.initial], [])).2.map Edge.dest ++ [d.final] := by
    rw [c2, List.nil_append, createdOrder, List.filter_filter]
    congr 3
    apply List.filter_congr
    intro e _
    have hmr : e.source ∈ reachFold Edge.source Edge.dest (d.edges.filter Edge.isFinite)
        [d.initial] ↔ ∃ p, DagWalk d d.initial e.source p ∧ ∀ x ∈ p, x.cost < ⊤ := by
      have := mem_reachFold _ hrel [d.initial] e.source
      simp only [List.mem_singleton, exists_eq_left] at this
      exact this.trans (exists_congr fun p => solution_iff_relevant.symm)
    rw [Bool.eq_iff_iff, Bool.and_eq_true]
    simp only [decide_eq_true_eq, hmr, Edge.isFinite]
    exact and_comm
  obtain ⟨b1, b2, b3, b4⟩ := rewrite_fold hW d.initial d.edges
    (IdTable.empty.create h d.initial).1 [] a1 (by simp) (by
      rw [hst0, hcreated]; exact List.sublist_append_left _ _)
  rw [hst0] at b1 b2 b3 b4
  simp only [List.map_nil] at b1 b2 b3 b4
  rw [List.nil_append] at c2
  generalize hL : (d.edges.filter Edge.isFinite).foldl passStep ([d.initial], []) = q at *
  obtain ⟨L, kept⟩ := q
  simp only at b2 b3 b4 c1 c2
  have hmemL : ∀ s, s ∈ L ↔ ∃ p, Walk Edge.source Edge.dest d.relevant d.initial s p := by
    intro s
    rw [c1]
    have := mem_reachFold _ hrel [d.initial] s
    simp only [List.mem_singleton, exists_eq_left] at this
    exact this
  have hkept : kept = d.relevant.filter (fun e => decide (e.source ∈ L)) := by
    rw [c2]
    apply List.filter_congr
    intro x _
    simp only [c1]
  generalize hr : d.edges.foldl (rewriteStep h) ((IdTable.empty.create h d.initial).1, [])
    = r at *
  have hnd : L.Nodup := b2 ▸ b1.nodup
  obtain ⟨d1, d2, d3⟩ := b1.create hW (s := d.final) (by rw [hcreated]; exact List.Sublist.refl _)
  rw [b2] at d2 d3
  have hiL : d.initial ∈ L := (hmemL _).2 ⟨[], .nil _⟩
  have hsol : (∃ p, DagSolution d p) ↔ d.final ∈ L := by
    rw [hmemL]
    unfold DagSolution DagWalk
    simp only [solution_iff_relevant]
  constructor
  · intro hno
    rw [hsol] at hno
    simp only [Dag.pruneRewrite]
    rw [hr, if_pos]
    rw [d3, b2]
    simp only [insState, hno, ↓reduceIte, ge_iff_le, List.idxOf_append]
    simp
  · intro hyes
    rw [hsol] at hyes
    have hins : insState L d.final = L := by simp [insState, hyes]
    rw [hins] at d2 d3
    have hinjL : ∀ s s', s ∈ L → s' ∈ L → L.idxOf s = L.idxOf s' → s = s' := by
      intro s s' hs hs' he
      have h1 := getElem?_idxOf' hs
      rw [he, getElem?_idxOf' hs'] at h1
      simpa using h1.symm
    -- second pass
    have hreach : r.2.reverse.foldl endStep [L.idxOf d.final]
        = (reachFold Edge.dest Edge.source kept.reverse [d.final]).map (fun s => L.idxOf s)
        ∧ ∀ s ∈ reachFold Edge.dest Edge.source kept.reverse [d.final], s ∈ L := by
      rw [b3, ← List.map_reverse]
      refine reachFold_map (src' := fun x : Nat × Nat × Edge S K V I => x.2.1)
        (dst' := fun x : Nat × Nat × Edge S K V I => x.1) (fun s => L.idxOf s) (triple L)
        (fun s => s ∈ L) hinjL kept.reverse ?_ [d.final] (by simpa using hyes)
      intro e he
      obtain ⟨g1, g2⟩ := b4 e (List.mem_reverse.1 he)
      exact ⟨g2, g1, rfl, rfl⟩
    obtain ⟨hreach, hBL⟩ := hreach
    generalize hB : reachFold Edge.dest Edge.source kept.reverse [d.final] = B at *
    have hkt : TopoWeak Edge.source Edge.dest kept := by
      rw [hkept]; exact hrel.sublist List.filter_sublist
    have hmemB : ∀ s, s ∈ L → (s ∈ B ↔ ∃ p, Walk Edge.source Edge.dest d.relevant s d.final p) := by
      intro s hs
      rw [← hB, mem_reachFold _ (topoWeak_reverse.2 hkt)]
      simp only [List.mem_singleton, exists_eq_left]
      constructor
      · rintro ⟨p, hp⟩
        have hw : Walk Edge.source Edge.dest kept s d.final p.reverse := by
          rw [← Walk.reverse_iff]; simpa using hp
        refine ⟨_, hw.mono' ?_⟩
        rw [hkept]
        exact List.filter_sublist.subset
      · rintro ⟨p, hp⟩
        refine ⟨p.reverse, Walk.reverse ?_⟩
        clear hB hreach
        generalize hdf : d.final = fin at hp
        clear hdf
        induction hp with
        | nil a => exact .nil a
        | @cons e b p he hw ih =>
          have hed : e.dest ∈ L := by
            obtain ⟨p', hp'⟩ := (hmemL _).1 hs
            exact (hmemL _).2 ⟨p' ++ [e], Walk.snoc_iff.2 ⟨he, rfl, hp'⟩⟩
          refine .cons ?_ (ih hed)
          rw [hkept, List.mem_filter]
          exact ⟨he, by simpa using hs⟩
    have hixB : ∀ s, s ∈ L → (L.idxOf s ∈ B.map (fun s => L.idxOf s) ↔ s ∈ B) := by
      intro s hs
      rw [List.mem_map]
      constructor
      · rintro ⟨x, hx, he⟩
        exact hinjL _ _ (hBL x hx) hs he ▸ hx
      · intro hx; exact ⟨s, hx, rfl⟩
    have hiB : d.initial ∈ B := (hmemB _ hiL).2 ((hmemL _).1 hyes)
    have hfB : d.final ∈ B := (hmemB _ hyes).2 ⟨[], .nil _⟩
    have hons : ∀ s, OnSolution d s ↔ s ∈ B := by
      intro s
      unfold OnSolution DagWalk
      simp only [solution_iff_relevant]
      rw [← hmemL]
      constructor
      · rintro ⟨h1, h2⟩; exact (hmemB s h1).2 h2
      · intro hb; exact ⟨hBL s hb, (hmemB s (hBL s hb)).1 hb⟩
    refine ⟨fun s => compactIndex (B.map (fun s => L.idxOf s)) (L.idxOf s),
      ((List.range L.length).filter
        (fun j => decide (j ∈ B.map (fun s => L.idxOf s)))).length, ?_, ?_, ?_⟩
    · have l1 := d1.lookup d.initial
      have l2 := d1.lookup d.final
      rw [d2] at l1 l2
      simp only [hiL, hyes, ↓reduceIte] at l1 l2
      simp only [Dag.pruneRewrite]
      rw [hr, if_neg]
      · rw [l1, l2, d3, hreach]
        simp only [(hixB _ hiL).2 hiB, ↓reduceIte, Option.some.injEq, renameStates, Dag.pruneJit]
        congr 1
        rw [b3, List.filter_map, List.map_map, hkept, List.filter_filter]
        have hfil : d.relevant.filter (fun e =>
              ((fun x : Nat × Nat × Edge S K V I =>
                decide (x.2.1 ∈ B.map (fun s => L.idxOf s))) ∘ triple L) e
              && decide (e.source ∈ L))
            = d.relevant.filter (fun e =>
                decide (e.source ∈ d.forwardReachable) && decide (e.dest ∈ d.backwardReachable)) := by
          apply List.filter_congr
          intro e he
          rw [Bool.eq_iff_iff]
          simp only [Function.comp, triple, Bool.and_eq_true, decide_eq_true_eq]
          rw [mem_forward ht, mem_backward ht, ← hmemL]
          constructor
          · rintro ⟨h1, h2⟩
            have hed : e.dest ∈ L := by
              obtain ⟨p', hp'⟩ := (hmemL _).1 h2
              exact (hmemL _).2 ⟨p' ++ [e], Walk.snoc_iff.2 ⟨he, rfl, hp'⟩⟩
            exact ⟨h2, (hmemB _ hed).1 ((hixB _ hed).1 (of_decide_eq_true h1))⟩
          · rintro ⟨h2, h1⟩
            have hed : e.dest ∈ L := by
              obtain ⟨p', hp'⟩ := (hmemL _).1 h2
              exact (hmemL _).2 ⟨p' ++ [e], Walk.snoc_iff.2 ⟨he, rfl, hp'⟩⟩
            exact ⟨decide_eq_true ((hixB _ hed).2 ((hmemB _ hed).2 h1)), h2⟩
        rw [hfil]
        rfl
      · rw [d3, b2]
        have := List.idxOf_lt_length_of_mem hyes
        omega
    · intro s s' h1 h2 he
      rw [hons] at h1 h2
      exact hinjL _ _ (hBL _ h1) (hBL _ h2) (compact_inj _ ((hixB _ (hBL _ h1)).2 h1)
        ((hixB _ (hBL _ h2)).2 h2) he)
    · intro k
      rw [compact_surj]
      · simp only [List.mem_map, hons]
        constructor
        · rintro ⟨i, ⟨s, hs, rfl⟩, hk⟩; exact ⟨s, hs, hk⟩
        · rintro ⟨s, hs, hk⟩; exact ⟨_, ⟨s, hs, rfl⟩, hk⟩
      · intro i hi
        obtain ⟨s, hs, rfl⟩ := List.mem_map.1 hi
        exact List.idxOf_lt_length_of_mem (hBL s hs)

/-! ## The builder -/

theorem attemptAll_inv (start : S) (hist : List (Edge S K V I)) :
    let d := attemptAll start hist
    (∀ s, (d.seen.lookup s).isSome ↔ ∃ e ∈ d.edges, e.source = s)
    ∧ TopoWeak Edge.source Edge.dest d.edges ∧ d.edges.Sublist hist ∧ d.initial = start := by
  suffices H : ∀ (hist pre : List (Edge S K V I)) (d : PartialDag S K V I),
      (∀ s, (d.seen.lookup s).isSome ↔ ∃ e ∈ d.edges, e.source = s) →
      TopoWeak Edge.source Edge.dest d.edges → d.edges.Sublist pre → d.initial = start →
      let d' := hist.foldl (fun d e => match d.addEdge e with
        | .ok d' => d'
        | .error _ => d) d
      (∀ s, (d'.seen.lookup s).isSome ↔ ∃ e ∈ d'.edges, e.source = s)
      ∧ TopoWeak Edge.source Edge.dest d'.edges ∧ d'.edges.Sublist (pre ++ hist)
      ∧ d'.initial = start by
    have := H hist [] (PartialDag.start start) (by simp [PartialDag.start])
      (by simp [PartialDag.start, TopoWeak]) (by simp [PartialDag.start]) rfl
    rw [List.nil_append] at this
    exact this
  intro hist
  induction hist with
  | nil => intro pre d h1 h2 h3 h4; exact ⟨h1, h2, by simpa using h3, h4⟩
  | cons e hist ih =>
    intro pre d h1 h2 h3 h4
    simp only [List.foldl_cons]
    have happ : pre ++ e :: hist = (pre ++ [e]) ++ hist := by simp
    rw [happ]
    unfold PartialDag.addEdge
    by_cases hd : (d.seen.lookup e.dest).isSome
    · rw [if_pos hd]
      have h3' : d.edges.Sublist (pre ++ [e]) := h3.trans (List.sublist_append_left _ _)
      split
      · rename_i d' heq; split at heq <;> simp at heq
      · exact ih (pre ++ [e]) d h1 h2 h3' h4
    · rw [if_neg hd]
      refine ih (pre ++ [e]) _ ?_ ?_ ?_ h4
      · intro s
        simp only [List.lookup_cons]
        by_cases hs : s = e.source
        · subst hs
          simp
        · have : (s == e.source) = false := by simpa using hs
          rw [this]
          simp only [h1, List.mem_append, List.mem_singleton]
          constructor
          · rintro ⟨x, hx, rfl⟩; exact ⟨x, .inl hx, rfl⟩
          · rintro ⟨x, hx | rfl, rfl⟩
            · exact ⟨x, hx, rfl⟩
            · exact absurd rfl hs
      · simp only
        unfold TopoWeak
        rw [List.pairwise_append]
        refine ⟨h2, by simp, ?_⟩
        intro x hx y hy
        simp only [List.mem_singleton] at hy
        subst hy
        intro hc
        exact hd ((h1 _).2 ⟨x, hx, hc.symm⟩)
      · exact List.Sublist.append h3 (List.Sublist.refl _)

/-- In topological order a closed walk only repeats one self loop. -/
theorem closed_walk {σ ε : Type} {src dst : ε → σ} {E : List ε} (ht : TopoWeak src dst E) {a : σ}
    {p : List ε} (h : Walk src dst E a a p) : ∀ e ∈ p, src e = a ∧ dst e = a := by
  induction E generalizing a p with
  | nil =>
    cases h with
    | nil => simp
    | cons he => simp at he
  | cons x E ih =>
    have ht' := (List.pairwise_cons.1 ht).2
    have key : ∀ {a : σ} {p : List ε}, Walk src dst (x :: E) a (src x) p → a = src x ∧
        ∀ e ∈ p, src e = src x ∧ dst e = src x := by
      intro a p h
      induction hn : p.length generalizing p a with
      | zero =>
        rw [List.length_eq_zero_iff] at hn
        subst hn
        exact ⟨Walk.nil_iff.1 h, by simp⟩
      | succ n ihn =>
        obtain ⟨q, y, rfl⟩ : ∃ q y, p = q ++ [y] := by
          rcases List.eq_nil_or_concat p with rfl | ⟨q, y, rfl⟩
          · simp at hn
          · exact ⟨q, y, by simp⟩
        rw [Walk.snoc_iff] at h
        obtain ⟨hy, hd, hw⟩ := h
        rcases List.mem_cons.1 hy with rfl | hy
        · obtain ⟨h1, h2⟩ := ihn hw (by simpa using hn)
          refine ⟨h1, ?_⟩
          intro e he
          rcases List.mem_append.1 he with he | he
          · exact h2 e he
          · simp only [List.mem_singleton] at he
            subst he
            exact ⟨rfl, hd.symm⟩
        · exact absurd hd.symm ((List.pairwise_cons.1 ht).1 y hy)
    rcases walk_cons_split h with h' | ⟨p1, p2, rfl, h1, h2⟩
    · exact ih ht' h'
    · obtain ⟨ha, h3⟩ := key h1
      subst ha
      have := key h
      exact this.2

end RUSure.Lemmas
