import Verif.Lemmas.NodeCollect

/-!
# The moves on linked nodes and those on values
-/

namespace RUSure.NodeHeap

/-- The moves can be made one after the other. -/
def LevelOk (s : List Nat) (d : List Move) : Prop := ∀ d1 m d2, d = d1 ++ m :: d2 → OkI m (d1.foldl stepIds s)

theorem levelOk_nil (s : List Nat) : LevelOk s [] := by
  intro d1 m d2 e
  cases d1 <;> cases e

theorem levelOk_cons {s : List Nat} {m : Move} {d : List Move} :
    LevelOk s (m :: d) ↔ OkI m s ∧ LevelOk (stepIds s m) d := by
  constructor
  · intro h
    refine ⟨h [] m d rfl, fun d1 m' d2 e => ?_⟩
    exact h (m :: d1) m' d2 (by rw [e]; rfl)
  · rintro ⟨h1, h2⟩ d1 m' d2 e
    cases d1 with
    | nil =>
      injection e with e1 e2
      subst e1
      exact h1
    | cons x d1 =>
      injection e with e1 e2
      subst e1
      exact h2 d1 m' d2 e2

theorem rest_iff {t : LTree} {D : List Move} : Rest t [] D ↔ ∀ K, Lev t K → LevelOk (K.map LTree.id) (atLevel D K) := by
  constructor
  · intro h K hK d1 m d2 e
    have hm : m ∈ atLevel D K := by rw [e]; simp
    unfold atLevel at e
    rw [List.filter_eq_append_iff] at e
    obtain ⟨A, B, rfl, rfl, eB⟩ := e
    rw [List.filter_eq_cons_iff] at eB
    obtain ⟨B1, B2, rfl, hB1, _, rfl⟩ := eB
    have := h (A ++ B1) m B2 (by simp) K hK (by simpa using (List.mem_filter.1 hm).2)
    rw [List.nil_append] at this
    have e : atLevel (A ++ B1) K = A.filter fun m => decide (m.c ∈ K.map LTree.id) := by
      rw [atLevel, List.filter_append, List.filter_eq_nil_iff.2 hB1, List.append_nil]
    rwa [e] at this
  · intro h E m F e K hK hc
    rw [List.nil_append]
    refine h K hK (atLevel E K) m (atLevel F K) ?_
    rw [e, atLevel, List.filter_append, List.filter_cons_of_pos (by simpa using hc)]
    rfl

/-! ### The moves of one level -/

section
variable {idx : Nat → Nat} {S : List Nat}

theorem lookup_map (hinj : ∀ a ∈ S, ∀ b ∈ S, idx a = idx b → a = b) {a : Nat} (ha : a ∈ S) : ∀ {l : List LTree},
    (∀ x ∈ l, x.id ∈ S) → (l.map fun x => (idx x.id, x.erase)).lookup (idx a) = (findT a l).map LTree.erase
  | [], _ => rfl
  | x :: l, hl => by
    rw [List.map_cons, List.lookup_cons, findT, List.find?_cons]
    by_cases hxa : x.id = a
    · rw [hxa]; simp
    · have : idx a ≠ idx x.id := fun e => hxa (hinj _ ha _ (hl x List.mem_cons_self) e).symm
      rw [beq_false_of_ne this, beq_false_of_ne hxa]
      exact lookup_map hinj ha fun y hy => hl y (List.mem_cons_of_mem _ hy)

theorem findT_none {a : Nat} {l : List LTree} (h : a ∉ l.map LTree.id) : findT a l = none := by
  cases hf : findT a l with
  | none => rfl
  | some c => exact absurd ((findT_some hf).2 ▸ List.mem_map_of_mem (findT_some hf).1) h

theorem transplant_sim (hinj : ∀ a ∈ S, ∀ b ∈ S, idx a = idx b → a = b) {m : Move} (hc : m.c ∈ S) (hp : m.p ∈ S)
    {l : List LTree} (hl : ∀ x ∈ l, x.id ∈ S) (hn : (l.map LTree.id).Nodup) :
    RUSure.transplant (idx m.c, idx m.p) (l.map fun x => (idx x.id, x.erase))
      = if OkL m l then .ok ((placeL m l).map fun x => (idx x.id, x.erase)) else .error .value := by
  unfold RUSure.transplant
  simp only []
  rw [lookup_map hinj hc hl, lookup_map hinj hp hl]
  by_cases hcl : m.c ∈ l.map LTree.id
  · obtain ⟨C, eC⟩ := findT_mem hcl
    by_cases hpl : m.p ∈ l.map LTree.id
    · obtain ⟨P, eP⟩ := findT_mem hpl
      rw [eC, eP]
      have eP' := findT_some eP
      by_cases hpc : m.p = m.c
      · rw [if_neg fun ok : OkL m l => ok.2.2 hpc]
        cases P
        simp [hpc]
      · have ok : OkL m l := ⟨hcl, hpl, hpc⟩
        rw [if_pos ok]
        obtain ⟨C', hC', _, eC', ep⟩ := placeL_ok ok
        rw [eC] at eC'
        cases eC'
        cases P with
        | mk pid plo phi pann old =>
          have hne : idx m.c ≠ idx m.p := fun e => hpc (hinj _ hc _ hp e).symm
          simp only [Option.map_some, LTree.erase_mk, if_neg hne]
          rw [ep, List.map_map, List.filter_map, List.map_map]
          have hfil : l.filter ((fun x : Nat × PNode => x.1 != idx m.c) ∘ fun x => (idx x.id, x.erase))
              = l.filter fun x => x.id != m.c := List.filter_congr fun x hx => by
            simp only [Function.comp]
            by_cases hxc : x.id = m.c
            · simp [hxc]
            · have : idx x.id ≠ idx m.c := fun e => hxc (hinj _ (hl x hx) _ hc e)
              rw [bne_iff_ne.2 this, bne_iff_ne.2 hxc]
          rw [hfil]
          congr 1
          refine List.map_congr_left fun x hx => ?_
          have hx := (List.mem_filter.1 hx).1
          simp only [Function.comp]
          by_cases hxp : x.id = m.p
          · rw [if_pos (by rw [hxp]), if_pos hxp]
            have : x = .mk pid plo phi pann old := List.inj_on_of_nodup_map hn hx eP'.1 (hxp.trans eP'.2.symm)
            subst this
            simp only [joinT, LTree.erase_mk, List.map_cons, List.map_nil, LTree.erase_hi]
            rfl
          · have : idx x.id ≠ idx m.p := fun e => hxp (hinj _ (hl x hx) _ hp e)
            rw [if_neg this, if_neg hxp]
    · rw [findT_none hpl, eC, if_neg fun ok : OkL m l => hpl ok.2.1]
      rfl
  · rw [findT_none hcl, if_neg fun ok : OkL m l => hcl ok.1]
    rfl

theorem transplants_sim (hinj : ∀ a ∈ S, ∀ b ∈ S, idx a = idx b → a = b) : ∀ {d : List Move} {l : List LTree},
    (∀ m ∈ d, m.c ∈ S ∧ m.p ∈ S) → (∀ x ∈ l, x.id ∈ S) → (l.map LTree.id).Nodup →
    (LevelOk (l.map LTree.id) d → RUSure.transplants (d.map fun m => (idx m.c, idx m.p)) (l.map fun x => (idx x.id, x.erase))
      = .ok ((placeAll d l).map fun x => (idx x.id, x.erase)))
    ∧ (¬ LevelOk (l.map LTree.id) d → RUSure.transplants (d.map fun m => (idx m.c, idx m.p)) (l.map fun x => (idx x.id, x.erase))
      = .error .value)
  | [], l, _, _, _ => ⟨fun _ => rfl, fun h => absurd (levelOk_nil _) h⟩
  | m :: d, l, hd, hl, hn => by
    have hm := hd m List.mem_cons_self
    rw [levelOk_cons, List.map_cons, RUSure.transplants, transplant_sim hinj hm.1 hm.2 hl hn, ← placeL_stepIds]
    by_cases ok : OkL m l
    · rw [if_pos ok]
      have ih := transplants_sim hinj (d := d) (l := placeL m l) (fun m' h' => hd m' (List.mem_cons_of_mem _ h'))
        (fun x hx => by
          obtain ⟨y, hy, e, _⟩ := placeL_roots hx
          exact e ▸ hl y hy) (placeL_ids_nodup hn)
      exact ⟨fun h => ih.1 h.2, fun h => ih.2 fun h2 => h ⟨ok, h2⟩⟩
    · rw [if_neg ok]
      exact ⟨fun h => absurd h.1 ok, fun _ => rfl⟩

end

section
variable {T : Type} [DecidableEq T]

theorem subHits_count {tokens : List T} {sub : T × T} : ∀ {ps : List LTree}, (∀ p ∈ ps, PairsOk tokens p) →
    subHits tokens sub (ps.map LTree.erase) = .ok (ps.countP (hit tokens sub))
  | [], _ => rfl
  | p :: ps, h => by
    rw [List.map_cons, subHits, subHits_count fun q hq => h q (List.mem_cons_of_mem _ hq), List.countP_cons, hit]
    simp only [bind, Except.bind, pure, Except.pure, LTree.erase_ann, LTree.erase_children]
    by_cases hpa : p.ann = .paired
    · obtain ⟨q, eq⟩ := h p List.mem_cons_self p .self hpa
      rw [if_pos hpa, eq]
      by_cases hq : q = sub
      · simp [hq, hpa]
      · simp [hq]
    · rw [if_neg hpa]
      cases pairTokens tokens (p.children.map LTree.erase) with
      | error e => simp
      | ok q => simp [hpa]

theorem mapM_ok {α β ε : Type} {f : α → Except ε β} {g : α → β} {l : List α} (h : ∀ a ∈ l, f a = .ok (g a)) :
    l.mapM f = .ok (l.map g) := by
  induction l with
  | nil => rfl
  | cons a l ih =>
    rw [List.mapM_cons, h a List.mem_cons_self, ih fun b hb => h b (List.mem_cons_of_mem _ hb)]
    rfl

theorem idxOf_at {pre post : List Nat} {a : Nat} (hn : (pre ++ a :: post).Nodup) :
    (pre ++ a :: post).idxOf a = pre.length := by
  rw [List.idxOf_append_of_notMem]
  · simp
  · intro h
    exact (List.nodup_append.1 hn).2.2 a h a List.mem_cons_self rfl

/-- The moves by position. -/
theorem subMoves_level {tokens : List T} {sub : T × T} {cs : List LTree} (hn : (cs.map LTree.id).Nodup)
    (hfirst : ∀ b xs, cs = b :: xs → b.children ≠ [] → ∀ l ∈ cs, l.hi ≠ some b.lo) :
    subMoves (cs.map LTree.erase) (cs.map fun x => x.children.countP (hit tokens sub))
      = (levelMoves tokens sub none cs).map fun m => ((cs.map LTree.id).idxOf m.1, (cs.map LTree.id).idxOf m.2) := by
  have key : ∀ post pre : List LTree, cs = pre ++ post →
      ((List.range' pre.length post.length).flatMap fun j =>
        let k := if j = 0 then (cs.map LTree.erase).length - 1 else j - 1
        match (cs.map LTree.erase)[j]?, (cs.map LTree.erase)[k]?, (cs.map fun x => x.children.countP (hit tokens sub))[j]? with
        | some c, some p, some h =>
          if c.ann = .split ∧ p.ann = .split ∧ p.hi = some c.lo then List.replicate h (j, k) else []
        | _, _, _ => [])
      = (levelMoves tokens sub pre.getLast? post).map fun m =>
          ((cs.map LTree.id).idxOf m.1, (cs.map LTree.id).idxOf m.2) := by
    intro post
    induction post with
    | nil => intro pre _; rfl
    | cons x xs ih =>
      intro pre e
      rw [List.length_cons, List.range'_succ, List.flatMap_cons, levelMoves, List.map_append]
      have ih' := ih (pre ++ [x]) (by rw [e]; simp)
      rw [List.length_append, List.length_singleton] at ih'
      have hl : (pre ++ [x]).getLast? = some x := by simp
      rw [hl] at ih'
      rw [ih']
      congr 1
      have hj : ∀ {β : Type} (f : LTree → β), (cs.map f)[pre.length]? = some (f x) := by
        intro β f
        rw [e]
        simp
      rw [hj, hj]
      have hix : (cs.map LTree.id).idxOf x.id = pre.length := by
        rw [e, List.map_append, List.map_cons] at hn ⊢
        rw [idxOf_at hn, List.length_map]
      cases hp : pre.getLast? with
      | none =>
        have hnil : pre = [] := List.getLast?_eq_none_iff.1 hp
        subst hnil
        rw [List.nil_append] at e
        simp only [List.length_nil, if_true, moveOf]
        have hR : ∀ n : Nat, (List.replicate n ([] : List (Nat × Nat))).flatten = [] := by
          intro n
          induction n with
          | zero => rfl
          | succ n ih => rw [List.replicate_succ, List.flatten_cons, ih]; rfl
        rw [hR]
        cases hk : (cs.map LTree.erase)[(cs.map LTree.erase).length - 1]? with
        | none => rfl
        | some q =>
          simp only [LTree.erase_ann, LTree.erase_lo]
          rw [List.getElem?_map] at hk
          cases hk' : cs[(cs.map LTree.erase).length - 1]? with
          | none => rw [hk'] at hk; cases hk
          | some l =>
            rw [hk'] at hk
            cases hk
            have hlm : l ∈ cs := List.mem_of_getElem? hk'
            by_cases hx : x.children = []
            · rw [hx]
              simp
            · rw [if_neg fun hh => hfirst x xs e hx l hlm (by simpa using hh.2.2)]
              rfl
      | some p =>
        obtain ⟨ini, rfl⟩ := List.getLast?_eq_some_iff.1 hp
        have hne : (ini ++ [p]).length ≠ 0 := by simp
        rw [if_neg hne]
        have hk : (cs.map LTree.erase)[(ini ++ [p]).length - 1]? = some p.erase := by
          rw [e]
          simp
        have hip : (cs.map LTree.id).idxOf p.id = (ini ++ [p]).length - 1 := by
          have e' : cs = ini ++ p :: (x :: xs) := by rw [e]; simp
          rw [e', List.map_append, List.map_cons] at hn ⊢
          rw [idxOf_at hn]
          simp
        simp only [hk, LTree.erase_ann, LTree.erase_lo, LTree.erase_hi, moveOf]
        by_cases hc : x.ann = .split ∧ p.ann = .split ∧ p.hi = some x.lo
        · rw [if_pos hc, if_pos hc]
          have : ∀ n : Nat, ((List.replicate n [(x.id, p.id)]).flatten).map (fun m =>
              ((cs.map LTree.id).idxOf m.1, (cs.map LTree.id).idxOf m.2))
              = List.replicate n ((ini ++ [p]).length, (ini ++ [p]).length - 1) := by
            intro n
            induction n with
            | zero => rfl
            | succ n ih => rw [List.replicate_succ, List.flatten_cons, List.map_append, ih, List.replicate_succ]; simp [hix, hip]
          rw [this]
        · rw [if_neg hc, if_neg hc]
          have : ∀ n : Nat, (List.replicate n ([] : List (Nat × Nat))).flatten = [] := by
            intro n
            induction n with
            | zero => rfl
            | succ n ih => rw [List.replicate_succ, List.flatten_cons, ih]; rfl
          rw [this]
          rfl
  have := key cs [] rfl
  rw [List.getLast?_nil] at this
  rw [← this, subMoves, List.range_eq_range', List.length_map]
  rfl

theorem zip_idx {cs : List LTree} (hn : (cs.map LTree.id).Nodup) (f : LTree → LTree) (hf : ∀ x, (f x).id = x.id) :
    (List.range ((cs.map f).map LTree.erase).length).zip ((cs.map f).map LTree.erase)
      = (cs.map f).map fun x => ((cs.map LTree.id).idxOf x.id, x.erase) := by
  rw [List.map_map, List.map_map, List.length_map]
  apply List.ext_getElem
  · simp
  · intro i h1 h2
    simp only [List.length_map] at h2
    simp only [List.getElem_zip, List.getElem_range, List.getElem_map, Function.comp, hf]
    congr 1
    obtain ⟨pre, x, post, e1, e2⟩ : ∃ pre x post, cs = pre ++ x :: post ∧ pre.length = i :=
      ⟨cs.take i, cs[i], cs.drop (i + 1), by rw [List.getElem_cons_drop, List.take_append_drop], by rw [List.length_take]; omega⟩
    subst e1
    subst e2
    rw [List.map_append, List.map_cons] at hn
    simp only [List.getElem_append_right (Nat.le_refl _), Nat.sub_self, List.getElem_cons_zero, List.map_append, List.map_cons]
    rw [idxOf_at hn, List.length_map]

theorem subMatchList_ok {tokens : List T} {sub : T × T} {f : LTree → LTree} {A : LTree → Prop} : ∀ {cs : List LTree},
    (∀ x ∈ cs, (A x → x.erase.subMatch tokens sub = .ok (f x).erase) ∧ (¬ A x → x.erase.subMatch tokens sub = .error .value)) →
    ((∀ x ∈ cs, A x) → PNode.subMatchList tokens sub (cs.map LTree.erase) = .ok ((cs.map f).map LTree.erase))
    ∧ ((¬ ∀ x ∈ cs, A x) → PNode.subMatchList tokens sub (cs.map LTree.erase) = .error .value)
  | [], _ => ⟨fun _ => by rw [List.map_nil]; unfold PNode.subMatchList; rfl, fun h => absurd (by simp) h⟩
  | x :: cs, h => by
    have ih := subMatchList_ok (cs := cs) fun y hy => h y (List.mem_cons_of_mem _ hy)
    have hx := h x List.mem_cons_self
    rw [List.map_cons]
    unfold PNode.subMatchList
    rw [List.forall_mem_cons]
    by_cases hA : A x
    · rw [hx.1 hA]
      constructor
      · intro hh
        rw [ih.1 hh.2]
        rfl
      · intro hh
        rw [ih.2 fun h2 => hh ⟨hA, h2⟩]
        rfl
    · rw [hx.2 hA]
      exact ⟨fun hh => absurd hh.1 hA, fun _ => rfl⟩

/-- The function on values makes the moves bottom up. -/
theorem subMatch_build {tokens : List T} {sub : T × T} {D : List Move} : ∀ {t : LTree}, t.ids.Nodup → PairsOk tokens t → Apart t →
    (∀ K, Lev t K → (atLevel D K).map (fun d => (d.c, d.p)) = levelMoves tokens sub none K) →
    ((∀ K, Lev t K → LevelOk (K.map LTree.id) (atLevel D K)) → t.erase.subMatch tokens sub = .ok (buildT D t).erase)
    ∧ ((¬ ∀ K, Lev t K → LevelOk (K.map LTree.id) (atLevel D K)) → t.erase.subMatch tokens sub = .error .value)
  | .mk id lo hi ann cs, hn, hp, ha, hD => by
    have hcs := children_nodup hn
    simp only [LTree.children] at hcs
    have hr := roots_nodup hcs
    have hlist := subMatchList_ok (tokens := tokens) (sub := sub) (f := buildT D)
      (A := fun x => ∀ K, Lev x K → LevelOk (K.map LTree.id) (atLevel D K)) (cs := cs)
      fun x hx => subMatch_build (nodup_child hcs hx) (hp.child (t := .mk id lo hi ann cs) hx)
        (ha.child (t := .mk id lo hi ann cs) hx) fun K hK => hD K (.child hx hK)
    have hsplit : (∀ K, Lev (.mk id lo hi ann cs) K → LevelOk (K.map LTree.id) (atLevel D K))
        ↔ (∀ x ∈ cs, ∀ K, Lev x K → LevelOk (K.map LTree.id) (atLevel D K)) ∧ LevelOk (cs.map LTree.id) (atLevel D cs) := by
      constructor
      · exact fun h => ⟨fun x hx K hK => h K (.child hx hK), h cs .self⟩
      · rintro ⟨h1, h2⟩ K hK
        cases hK with
        | self => exact h2
        | child hx hK => exact h1 _ hx K hK
    rw [hsplit, LTree.erase_mk, buildT_mk, LTree.erase_mk]
    have hunfold : (PNode.mk lo hi ann (cs.map LTree.erase)).subMatch tokens sub
        = (do
          let cs' ← PNode.subMatchList tokens sub (cs.map LTree.erase)
          let ps ← RUSure.transplants (subMoves (cs.map LTree.erase) (cs.map fun x => x.children.countP (hit tokens sub)))
            ((List.range cs'.length).zip cs')
          return .mk lo hi ann (ps.map Prod.snd)) := by
      unfold PNode.subMatch
      have hhits : ((cs.map LTree.erase).mapM fun c => subHits tokens sub c.children)
          = .ok (cs.map fun x => x.children.countP (hit tokens sub)) := by
        rw [mapM_map]
        refine mapM_ok fun x hx => ?_
        rw [LTree.erase_children]
        exact subHits_count fun y hy => (hp.child (t := .mk id lo hi ann cs) hx).child hy
      rw [hhits]
      by_cases hpa : ann = .paired
      · obtain ⟨q, eq⟩ := hp _ .self hpa
        simp only [LTree.children] at eq
        rw [if_pos hpa, eq]
        rfl
      · rw [if_neg hpa]
        rfl
    rw [hunfold]
    by_cases hall : ∀ x ∈ cs, ∀ K, Lev x K → LevelOk (K.map LTree.id) (atLevel D K)
    · rw [hlist.1 hall]
      simp only [bind, Except.bind]
      rw [zip_idx hr (buildT D) (buildT_id D), subMoves_level hr (fun b xs e => ha.first b xs (e ▸ .self)
        |> fun h => e ▸ h), ← hD cs .self, List.map_map]
      have hinj : ∀ a ∈ cs.map LTree.id, ∀ b ∈ cs.map LTree.id, (cs.map LTree.id).idxOf a = (cs.map LTree.id).idxOf b → a = b :=
        fun a ha b _ e => (List.idxOf_inj ha).1 e
      have hmem : ∀ m ∈ atLevel D cs, m.c ∈ cs.map LTree.id ∧ m.p ∈ cs.map LTree.id := by
        intro m hm
        refine ⟨by simpa using (List.mem_filter.1 hm).2, ?_⟩
        have : (m.c, m.p) ∈ levelMoves tokens sub none cs := by
          rw [← hD cs .self]
          exact List.mem_map_of_mem (f := fun d : Move => (d.c, d.p)) hm
        have key : ∀ (xs : List LTree) (prev : Option LTree) (q : Nat × Nat), (∀ p, prev = some p → p ∈ cs) → (∀ x ∈ xs, x ∈ cs) →
            q ∈ levelMoves tokens sub prev xs → q.2 ∈ cs.map LTree.id := by
          intro xs
          induction xs with
          | nil => intro _ _ _ _ h; cases h
          | cons x xs ih =>
            intro prev q hpv hxs h
            rw [levelMoves] at h
            rcases List.mem_append.1 h with h | h
            · obtain ⟨l, hl, hq⟩ := List.mem_flatten.1 h
              rw [(List.mem_replicate.1 hl).2] at hq
              obtain ⟨p, e1, _, _, _, rfl⟩ := moveOf_mem hq
              exact List.mem_map_of_mem (hpv p e1)
            · exact ih (some x) q (fun p e => by cases e; exact hxs _ List.mem_cons_self)
                (fun y hy => hxs y (List.mem_cons_of_mem _ hy)) h
        exact key cs none _ (by simp) (fun _ h => h) this
      have hsim := transplants_sim (idx := fun a => (cs.map LTree.id).idxOf a) hinj (d := atLevel D cs) (l := cs.map (buildT D))
        hmem (fun x hx => by
          obtain ⟨y, hy, rfl⟩ := List.mem_map.1 hx
          rw [buildT_id]
          exact List.mem_map_of_mem hy) (by rw [map_buildT_id]; exact hr)
      rw [map_buildT_id] at hsim
      have hcomp : (atLevel D cs).map ((fun m : Nat × Nat => ((cs.map LTree.id).idxOf m.1, (cs.map LTree.id).idxOf m.2)) ∘
          fun d : Move => (d.c, d.p)) = (atLevel D cs).map fun m => ((cs.map LTree.id).idxOf m.c, (cs.map LTree.id).idxOf m.p) := rfl
      constructor
      · intro hh
        have := hsim.1 hh.2
        rw [hcomp, this]
        simp only [pure, Except.pure, List.map_map]
        rfl
      · intro hh
        have := hsim.2 fun h2 => hh ⟨hall, h2⟩
        rw [hcomp, this]
    · rw [hlist.2 hall]
      exact ⟨fun hh => absurd hh.1 hall, fun _ => rfl⟩

end

end RUSure.NodeHeap
