import Verif.Lemmas.NodeMovesRun
import Verif.Lemmas.NodeHeapSplit

/-!
# `_sub_match` on linked nodes: the moves, in the order in which they are found
-/

namespace RUSure.NodeHeap

/-- Nodes of a tree. -/
inductive Node : LTree → LTree → Prop
  | self {t} : Node t t
  | child {id lo hi ann cs x y} : x ∈ cs → Node x y → Node (.mk id lo hi ann cs) y

/-- The move of `x` under the sibling before it. -/
def moveOf : Option LTree → LTree → List (Nat × Nat)
  | none, _ => []
  | some p, x => if x.ann = .split ∧ p.ann = .split ∧ p.hi = some x.lo then [(x.id, p.id)] else []

section
variable {T : Type} [DecidableEq T]

/-- A bracket pair `sub`. -/
def hit (tokens : List T) (sub : T × T) (t : LTree) : Bool :=
  match pairTokens tokens (t.children.map LTree.erase) with
  | .ok p => decide (t.ann = .paired ∧ p = sub)
  | .error _ => false

mutual
/-- The moves below `t`; `own` is that of the parent, `mine` is that of `t`. -/
def dfsT (tokens : List T) (sub : T × T) (own mine : List (Nat × Nat)) : LTree → List (Nat × Nat)
  | .mk id lo hi ann cs => (if hit tokens sub (.mk id lo hi ann cs) then own else []) ++ dfsL tokens sub mine none cs

/-- The moves in a list of siblings. -/
def dfsL (tokens : List T) (sub : T × T) (mine : List (Nat × Nat)) (prev : Option LTree) : List LTree → List (Nat × Nat)
  | [] => []
  | x :: xs => dfsT tokens sub mine (moveOf prev x) x ++ dfsL tokens sub mine (some x) xs
end

theorem dfsT_eq (tokens : List T) (sub : T × T) (own mine : List (Nat × Nat)) (t : LTree) :
    dfsT tokens sub own mine t = (if hit tokens sub t then own else []) ++ dfsL tokens sub mine none t.children := by
  cases t; rw [dfsT, LTree.children]

/-- The tokens of all bracket pairs exist. -/
def PairsOk (tokens : List T) (t : LTree) : Prop :=
  ∀ x, Node t x → x.ann = .paired → ∃ p, pairTokens tokens (x.children.map LTree.erase) = .ok p

theorem PairsOk.child {tokens : List T} {t : LTree} (h : PairsOk tokens t) {x : LTree} (hx : x ∈ t.children) :
    PairsOk tokens x := by
  cases t with
  | mk => exact fun y hy => h y (.child hx hy)

end

/-- Inner nodes start elsewhere than their siblings, the last sibling does not end where the first starts, and
groups are not empty. -/
structure Apart (t : LTree) : Prop where
  dist : ∀ K, Lev t K → ∀ b ∈ K, b.children ≠ [] → ∀ x ∈ K, x.id ≠ b.id → x.lo ≠ b.lo
  first : ∀ b xs, Lev t (b :: xs) → b.children ≠ [] → ∀ l ∈ b :: xs, l.hi ≠ some b.lo
  proper : ∀ K, Lev t K → ∀ x ∈ K, x.ann = .split → ∀ v, x.hi = some v → x.lo < v

theorem Apart.child {t : LTree} (h : Apart t) {x : LTree} (hx : x ∈ t.children) : Apart x := by
  cases t with
  | mk =>
    exact ⟨fun K hK => h.dist K (.child hx hK), fun b xs hK => h.first b xs (.child hx hK), fun K hK =>
      h.proper K (.child hx hK)⟩

/-! ### The move of a node -/

theorem indexOf_ok {fuel : Nat} (hf : 0 < fuel) {h : Heap} {x : Nat} : ∀ {pre post : List Nat},
    (∀ a ∈ pre, (h.get a).lo ≠ (h.get x).lo) → indexOf fuel h x (pre ++ x :: post) = .ok pre.length
  | [], _, _ => by rw [List.nil_append, indexOf, nodeEq_self]; rfl
  | a :: pre, post, hp => by
    rw [List.cons_append, indexOf, nodeEq_lo hf (hp a List.mem_cons_self),
      indexOf_ok hf fun b hb => hp b (List.mem_cons_of_mem _ hb)]
    rfl

theorem moveFor_ok {fuel : Nat} (hf : 0 < fuel) {h : Heap} {g : LTree} {q : Option Nat} (r : Rep h q g) (hn : g.ids.Nodup)
    {pre post : List LTree} {x : LTree} (e : g.children = pre ++ x :: post)
    (hd : ∀ y ∈ g.children, y.id ≠ x.id → y.lo ≠ x.lo) (hfirst : pre = [] → ∀ l ∈ g.children, l.hi ≠ some x.lo) :
    moveFor fuel h x.id g.id = .ok (moveOf pre.getLast? x) := by
  have hk : (h.get g.id).children = pre.map LTree.id ++ x.id :: post.map LTree.id := by
    rw [r.cell, e, List.map_append, List.map_cons]
  have hcell : ∀ y ∈ g.children, h.get y.id = ⟨y.lo, y.hi, some g.id, y.ann, y.children.map LTree.id⟩ :=
    fun y hy => (r.sub y hy).cell
  have hx : x ∈ g.children := by rw [e]; simp
  have hpre : ∀ y ∈ pre, y ∈ g.children := fun y hy => by rw [e]; exact List.mem_append_left _ hy
  have hr := roots_nodup (children_nodup hn)
  rw [e, List.map_append, List.map_cons, List.nodup_append] at hr
  unfold moveFor
  rw [hk, indexOf_ok hf fun a ha => ?_]
  · simp only [List.length_map]
    cases hp : pre.getLast? with
    | none =>
      have hnil : pre = [] := List.getLast?_eq_none_iff.1 hp
      subst hnil
      rw [List.nil_append] at e
      simp only [List.length_nil, if_true, List.map_nil, List.nil_append, List.length_cons, List.length_map,
        Nat.add_sub_cancel, moveOf]
      obtain ⟨l, hl⟩ : ∃ l, (x :: post)[post.length]? = some l := by
        refine ⟨(x :: post)[post.length], List.getElem?_eq_getElem (by simp)⟩
      have hl' : (x.id :: post.map LTree.id)[post.length]? = some l.id := by
        rw [← List.map_cons, List.getElem?_map, hl]; rfl
      have hlm : l ∈ g.children := by rw [e]; exact List.mem_of_getElem? hl
      rw [hl']
      simp only [hcell l hlm, hcell x hx]
      rw [if_neg fun hh => hfirst rfl l hlm hh.2.2]
    | some p =>
      obtain ⟨ini, rfl⟩ := List.getLast?_eq_some_iff.1 hp
      have hpm : p ∈ g.children := hpre p (by simp)
      have hne : (ini ++ [p]).length ≠ 0 := by simp
      rw [if_neg hne]
      have hget : ((ini ++ [p]).map LTree.id ++ x.id :: post.map LTree.id)[(ini ++ [p]).length - 1]? = some p.id := by
        simp
      rw [hget]
      simp only [hcell p hpm, hcell x hx, moveOf]
  · obtain ⟨y, hy, rfl⟩ := List.mem_map.1 ha
    have hxy : y.id ≠ x.id := hr.2.2 _ (List.mem_map_of_mem hy) _ List.mem_cons_self
    rw [hcell y (hpre y hy), hcell x hx]
    exact hd y (hpre y hy) hxy

/-- The move of a node of the heap. -/
def moveAt (fuel : Nat) (h : Heap) (b : Nat) : Except Fail (List (Nat × Nat)) :=
  match (h.get b).parent with
  | none => .ok []
  | some g => moveFor fuel h b g

section
variable {T : Type} [DecidableEq T]

theorem collectList_ok {collect : Nat → Except Fail (List (Nat × Nat))} {tokens : List T} {sub : T × T}
    {mine : List (Nat × Nat)} : ∀ {pre xs : List LTree},
    (∀ a x b, xs = a ++ x :: b → collect x.id = .ok (dfsT tokens sub mine (moveOf (pre ++ a).getLast? x) x)) →
    collectList collect (xs.map LTree.id) = .ok (dfsL tokens sub mine pre.getLast? xs)
  | _, [], _ => by rw [dfsL]; rfl
  | pre, x :: xs, hc => by
    rw [List.map_cons, collectList, dfsL]
    have h0 := hc [] x xs rfl
    rw [List.append_nil] at h0
    rw [h0]
    have ih := collectList_ok (collect := collect) (tokens := tokens) (sub := sub) (mine := mine)
      (pre := pre ++ [x]) (xs := xs) (fun a y b e => by
        have := hc (x :: a) y b (by rw [e]; rfl)
        rwa [List.append_assoc])
    rw [List.getLast?_append] at ih
    simp only [List.getLast?_singleton, Option.some_or] at ih
    rw [ih]

theorem collect_ok {eqFuel : Nat} (hf : 0 < eqFuel) {h : Heap} {tokens : List T} {sub : T × T} :
    ∀ {fuel : Nat} {t : LTree} {par : Option Nat} {own mine : List (Nat × Nat)}, t.depth ≤ fuel → Rep h par t → t.ids.Nodup →
    PairsOk tokens t → Apart t → (match par with | none => own = [] | some b => moveAt eqFuel h b = .ok own) →
    (t.children ≠ [] → moveAt eqFuel h t.id = .ok mine) →
    collect eqFuel tokens sub fuel h t.id = .ok (dfsT tokens sub own mine t)
  | 0, t, _, _, _, hd, _, _, _, _, _, _ => by have := t.depth_pos; omega
  | fuel + 1, t, par, own, mine, hd, r, hn, hp, ha, ho, hm => by
    have hcell := r.cell
    have hdc := LTree.depth_child hd
    have hcs := children_nodup hn
    rw [collect, dfsT_eq]
    have hkids : ((h.get t.id).children.map (shallow h)) = t.children.map fun t => PNode.mk t.lo t.hi t.ann [] := by
      rw [hcell]
      simp only [List.map_map]
      refine List.map_congr_left fun x hx => ?_
      simp only [Function.comp, shallow, (r.sub x hx).cell]
    have hown : ownMoves eqFuel tokens sub h t.id = .ok (if hit tokens sub t then own else []) := by
      unfold ownMoves
      rw [hkids, pairTokens_erase, hit]
      by_cases hpa : t.ann = .paired
      · obtain ⟨p, ep⟩ := hp t .self hpa
        rw [if_pos (by rw [hcell]; exact hpa), ep]
        by_cases hps : p = sub
        · simp only [hpa, hps, and_self, decide_true, if_true, hcell]
          cases par with
          | none => simp only at ho; rw [ho]
          | some b => exact ho
        · simp only [hps, and_false, decide_false, if_false, Bool.false_eq_true]
      · rw [if_neg (by rw [hcell]; exact hpa)]
        cases pairTokens tokens (t.children.map LTree.erase) with
        | error e => rfl
        | ok p => simp only [hpa, false_and, decide_false, if_false, Bool.false_eq_true]
    rw [hown]
    have hck : (h.get t.id).children = t.children.map LTree.id := by rw [hcell]
    rw [hck, collectList_ok (tokens := tokens) (sub := sub) (mine := mine) (pre := []) fun a x b e => ?_]
    · rfl
    · have hx : x ∈ t.children := by rw [e]; simp
      have rx := r.sub x hx
      have hlev : Lev t t.children := by cases t; exact .self
      refine collect_ok hf (hdc x hx) rx (nodup_child hcs hx) (hp.child hx) (ha.child hx) (hm (List.ne_nil_of_mem hx))
        fun hne => ?_
      have : (h.get x.id).parent = some t.id := by rw [rx.cell]
      rw [moveAt, this]
      refine moveFor_ok hf r hn e (fun y hy => ha.dist _ hlev x hx hne y hy) fun hnil l hl => ?_
      subst hnil
      rw [List.nil_append] at e
      rw [e] at hl hlev
      exact ha.first x b hlev hne l hl

/-! ### What the moves are -/

theorem moveOf_mem {prev : Option LTree} {x : LTree} {m : Nat × Nat} (h : m ∈ moveOf prev x) :
    ∃ p, prev = some p ∧ x.ann = .split ∧ p.ann = .split ∧ p.hi = some x.lo ∧ m = (x.id, p.id) := by
  cases prev with
  | none => cases h
  | some p =>
    rw [moveOf] at h
    by_cases hc : x.ann = .split ∧ p.ann = .split ∧ p.hi = some x.lo
    · rw [if_pos hc] at h
      exact ⟨p, rfl, hc.1, hc.2.1, hc.2.2, List.mem_singleton.1 h⟩
    · rw [if_neg hc] at h
      cases h

/-- A move between neighbours. -/
def Neighbours (K : List LTree) (m : Nat × Nat) : Prop := ∃ pre P C post, K = pre ++ P :: C :: post ∧ C.children ≠ []
  ∧ C.ann = .split ∧ P.ann = .split ∧ P.hi = some C.lo ∧ m = (C.id, P.id)

mutual
theorem dfsT_mem {tokens : List T} {sub : T × T} {m : Nat × Nat} : ∀ {t : LTree} {own mine : List (Nat × Nat)},
    m ∈ dfsT tokens sub own mine t → m ∈ own ∨ (m ∈ mine ∧ t.children ≠ []) ∨ ∃ K, Lev t K ∧ Neighbours K m
  | .mk id lo hi ann cs, own, mine, h => by
    rw [dfsT] at h
    rcases List.mem_append.1 h with h | h
    · split at h
      · exact .inl h
      · cases h
    · rcases dfsL_mem (pre := []) (K := cs) rfl h with ⟨h1, h2⟩ | h | ⟨x, hx, K, hK, h⟩
      · exact .inr (.inl ⟨h1, h2⟩)
      · exact .inr (.inr ⟨cs, .self, h⟩)
      · exact .inr (.inr ⟨K, .child hx hK, h⟩)

theorem dfsL_mem {tokens : List T} {sub : T × T} {m : Nat × Nat} {K : List LTree} : ∀ {xs : List LTree} {mine : List (Nat × Nat)}
    {pre : List LTree}, K = pre ++ xs → m ∈ dfsL tokens sub mine pre.getLast? xs →
    (m ∈ mine ∧ xs ≠ []) ∨ Neighbours K m ∨ ∃ x ∈ xs, ∃ K', Lev x K' ∧ Neighbours K' m
  | [], _, _, _, h => by rw [dfsL] at h; cases h
  | x :: xs, mine, pre, e, h => by
    rw [dfsL] at h
    rcases List.mem_append.1 h with h | h
    · rcases dfsT_mem h with h | ⟨h, hne⟩ | ⟨K', hK, h⟩
      · exact .inl ⟨h, List.cons_ne_nil _ _⟩
      · obtain ⟨p, hp, h1, h2, h3, h4⟩ := moveOf_mem h
        obtain ⟨ini, rfl⟩ := List.getLast?_eq_some_iff.1 hp
        refine .inr (.inl ⟨ini, p, x, xs, ?_, hne, h1, h2, h3, h4⟩)
        rw [e]
        simp
      · exact .inr (.inr ⟨x, List.mem_cons_self, K', hK, h⟩)
    · have hl : (pre ++ [x]).getLast? = some x := by simp
      rw [← hl] at h
      rcases dfsL_mem (K := K) (by rw [e]; simp) h with ⟨h1, _⟩ | h | ⟨y, hy, K', hK, h⟩
      · exact .inl ⟨h1, List.cons_ne_nil _ _⟩
      · exact .inr (.inl h)
      · exact .inr (.inr ⟨y, List.mem_cons_of_mem _ hy, K', hK, h⟩)
end

theorem good_of_neighbours {t : LTree} (ha : Apart t) {K : List LTree} (hK : Lev t K)
    {m : Nat × Nat} (h : Neighbours K m) (n : Nat) : Good t ⟨m.1, m.2, n⟩ := by
  obtain ⟨pre, P, C, post, rfl, h1, h2, h3, h4, rfl⟩ := h
  have hC : C ∈ pre ++ P :: C :: post := by simp
  have hP : P ∈ pre ++ P :: C :: post := by simp
  exact ⟨⟨_, C, P, hK, hC, hP, rfl, rfl, ha.proper _ hK P hP h3 _ h4, fun x hx hne => ha.dist _ hK C hC h1 x hx hne⟩⟩

theorem number_mem {ms : List (Nat × Nat)} {n : Nat} {d : Move} (h : d ∈ number n ms) : (d.c, d.p) ∈ ms ∧ n ≤ d.n := by
  induction ms generalizing n with
  | nil => cases h
  | cons m ms ih =>
    obtain ⟨c, p⟩ := m
    rw [number] at h
    rcases List.mem_cons.1 h with rfl | h
    · exact ⟨List.mem_cons_self, Nat.le_refl _⟩
    · have := ih h
      exact ⟨List.mem_cons_of_mem _ this.1, by omega⟩

theorem good_number {tokens : List T} {sub : T × T} {t : LTree} (ha : Apart t) {n : Nat} :
    ∀ d ∈ number n (dfsT tokens sub [] [] t), Good t d := by
  intro d hd
  rcases dfsT_mem (number_mem hd).1 with h | ⟨h, _⟩ | ⟨K, hK, h⟩
  · cases h
  · cases h
  · exact good_of_neighbours ha hK h d.n

/-! ### The moves of a level -/

/-- The moves among siblings, in order. -/
def levelMoves (tokens : List T) (sub : T × T) (prev : Option LTree) : List LTree → List (Nat × Nat)
  | [] => []
  | x :: xs => (List.replicate (x.children.countP (hit tokens sub)) (moveOf prev x)).flatten
      ++ levelMoves tokens sub (some x) xs

mutual
theorem dfsT_addr {tokens : List T} {sub : T × T} {m : Nat × Nat} : ∀ {t : LTree} {own mine : List (Nat × Nat)},
    m ∈ dfsT tokens sub own mine t → m ∈ own ∨ m ∈ mine ∨ m.1 ∈ t.children.flatMap LTree.ids
  | .mk id lo hi ann cs, own, mine, h => by
    rw [dfsT] at h
    rcases List.mem_append.1 h with h | h
    · split at h
      · exact .inl h
      · cases h
    · exact .inr (dfsL_addr h)

theorem dfsL_addr {tokens : List T} {sub : T × T} {m : Nat × Nat} : ∀ {xs : List LTree} {mine : List (Nat × Nat)}
    {prev : Option LTree}, m ∈ dfsL tokens sub mine prev xs → m ∈ mine ∨ m.1 ∈ xs.flatMap LTree.ids
  | [], _, _, h => by rw [dfsL] at h; cases h
  | x :: xs, mine, prev, h => by
    rw [dfsL] at h
    rw [List.flatMap_cons]
    rcases List.mem_append.1 h with h | h
    · rcases dfsT_addr h with h | h | h
      · exact .inl h
      · obtain ⟨p, _, _, _, _, rfl⟩ := moveOf_mem h
        exact .inr (List.mem_append_left _ x.id_mem)
      · exact .inr (List.mem_append_left _ (children_ids h))
    · exact (dfsL_addr h).imp_right fun h => List.mem_append_right _ h
end

theorem filter_none {P : Nat × Nat → Bool} {l : List (Nat × Nat)} (h : ∀ m ∈ l, P m = false) : l.filter P = [] :=
  List.filter_eq_nil_iff.2 fun m hm => by rw [h m hm]; exact Bool.false_ne_true

theorem filter_hits {tokens : List T} {sub : T × T} {P : Nat × Nat → Bool} {mv : List (Nat × Nat)} (hmv : ∀ m ∈ mv, P m = true) :
    ∀ {ys : List LTree} {prev : Option LTree}, (∀ m : Nat × Nat, m.1 ∈ ys.flatMap LTree.ids → P m = false) →
    (dfsL tokens sub mv prev ys).filter P = (List.replicate (ys.countP (hit tokens sub)) mv).flatten
  | [], _, _ => by rw [dfsL]; rfl
  | y :: ys, prev, hP => by
    rw [dfsL, List.filter_append, dfsT_eq, List.filter_append, filter_hits hmv (ys := ys) (prev := some y) fun m hm =>
      hP m (by rw [List.flatMap_cons]; exact List.mem_append_right _ hm)]
    have h0 : (dfsL tokens sub (moveOf prev y) none y.children).filter P = [] := filter_none fun m hm => by
      refine hP m ?_
      rw [List.flatMap_cons]
      refine List.mem_append_left _ ?_
      rcases dfsL_addr hm with h | h
      · obtain ⟨p, _, _, _, _, rfl⟩ := moveOf_mem h
        exact y.id_mem
      · exact children_ids h
    rw [h0, List.append_nil, List.countP_cons]
    cases hh : hit tokens sub y with
    | true =>
      simp only [if_true]
      rw [List.filter_eq_self.2 hmv, List.replicate_succ', List.flatten_append]
      have : ∀ n : Nat, mv ++ (List.replicate n mv).flatten = (List.replicate n mv).flatten ++ [mv].flatten := by
        intro n
        rw [← List.flatten_append, ← List.replicate_succ', List.replicate_succ, List.flatten_cons]
      exact this _
    | false => simp

theorem filter_level {tokens : List T} {sub : T × T} {K : List LTree} (hn : (K.flatMap LTree.ids).Nodup)
    {mine : List (Nat × Nat)} (hm : ∀ m ∈ mine, m.1 ∉ K.map LTree.id) : ∀ {xs : List LTree} {prev : Option LTree},
    (∀ x ∈ xs, x ∈ K) → (dfsL tokens sub mine prev xs).filter (fun m => decide (m.1 ∈ K.map LTree.id))
      = levelMoves tokens sub prev xs
  | [], _, _ => by rw [dfsL]; rfl
  | x :: xs, prev, hx => by
    have hxK := hx x List.mem_cons_self
    rw [dfsL, List.filter_append, filter_level hn hm fun y hy => hx y (List.mem_cons_of_mem _ hy), levelMoves,
      dfsT_eq, List.filter_append]
    have h0 : (if hit tokens sub x then mine else []).filter (fun m => decide (m.1 ∈ K.map LTree.id)) = [] :=
      filter_none fun m hm' => by
        split at hm'
        · simpa using hm m hm'
        · cases hm'
    rw [h0, List.nil_append, filter_hits]
    · intro m hm'
      obtain ⟨p, _, _, _, _, rfl⟩ := moveOf_mem hm'
      exact decide_eq_true (List.mem_map_of_mem hxK)
    · intro m hm'
      exact decide_eq_false (deep_not_root hn hxK hm')

theorem dfs_level {tokens : List T} {sub : T × T} {t : LTree} {K : List LTree} (hK : Lev t K) : t.ids.Nodup →
    ∀ {own mine : List (Nat × Nat)}, (∀ m ∈ own, m.1 ∉ t.children.flatMap LTree.ids) →
    (∀ m ∈ mine, m.1 ∉ t.children.flatMap LTree.ids) →
    (dfsT tokens sub own mine t).filter (fun m => decide (m.1 ∈ K.map LTree.id)) = levelMoves tokens sub none K := by
  induction hK with
  | @self id lo hi ann cs =>
    intro hn own mine ho hm
    have hcs := children_nodup hn
    simp only [LTree.children] at hcs ho hm
    rw [dfsT, List.filter_append, filter_level hcs (fun m h h' => hm m h (roots_mem h')) fun x hx => hx]
    rw [filter_none, List.nil_append]
    intro m h
    split at h
    · exact decide_eq_false fun h' => ho m h (roots_mem h')
    · cases h
  | @child id lo hi ann cs x K hx hL ih =>
    intro hn own mine ho hm
    have hcs := children_nodup hn
    simp only [LTree.children] at hcs ho hm
    have hsub : ∀ {a : Nat}, a ∈ K.map LTree.id → a ∈ x.children.flatMap LTree.ids := fun h => hL.sub (roots_mem h)
    rw [dfsT, List.filter_append, filter_none, List.nil_append]
    · have key : ∀ {xs : List LTree} {prev : Option LTree}, (xs.flatMap LTree.ids).Nodup → (∀ y ∈ xs, y ∈ cs) → x ∈ xs →
          (dfsL tokens sub mine prev xs).filter (fun m => decide (m.1 ∈ K.map LTree.id)) = levelMoves tokens sub none K := by
        intro xs
        induction xs with
        | nil => intro _ _ _ h; cases h
        | cons y ys ihy =>
          intro prev hnys hys hxm
          rw [List.flatMap_cons, List.nodup_append] at hnys
          rw [dfsL, List.filter_append]
          by_cases hyx : y = x
          · subst hyx
            rw [ih (nodup_child hcs hx) (fun m h h' => hm m h (mem_flat hx (children_ids h'))) (fun m h h' => by
              obtain ⟨p, _, _, _, _, rfl⟩ := moveOf_mem h
              exact children_not_root (nodup_child hcs hx) h'), filter_none, List.append_nil]
            intro m h
            refine decide_eq_false fun h' => ?_
            rcases dfsL_addr h with h | h
            · exact hm m h (mem_flat hx (children_ids (hsub h')))
            · exact hnys.2.2 _ (children_ids (hsub h')) _ h rfl
          · have hxys : x ∈ ys := (List.mem_cons.1 hxm).resolve_left (Ne.symm hyx)
            rw [filter_none, List.nil_append, ihy hnys.2.1 (fun z hz => hys z (List.mem_cons_of_mem _ hz)) hxys]
            intro m h
            refine decide_eq_false fun h' => ?_
            have hmx := children_ids (hsub h')
            have hyc := hys y List.mem_cons_self
            rcases dfsT_addr h with h | h | h
            · exact hm m h (mem_flat hx hmx)
            · obtain ⟨p, _, _, _, _, rfl⟩ := moveOf_mem h
              exact hyx (root_unique hcs hyc hx y.id_mem hmx)
            · exact hyx (root_unique hcs hyc hx (children_ids h) hmx)
      exact key hcs (fun _ h => h) hx
    · intro m h
      split at h
      · exact decide_eq_false fun h' => ho m h (mem_flat hx (children_ids (hsub h')))
      · cases h

theorem atLevel_number {tokens : List T} {sub : T × T} {t : LTree} {K : List LTree} (hK : Lev t K) (hn : t.ids.Nodup) (n : Nat) :
    (atLevel (number n (dfsT tokens sub [] [] t)) K).map (fun d => (d.c, d.p)) = levelMoves tokens sub none K := by
  rw [← dfs_level hK hn (own := []) (mine := []) (by simp) (by simp)]
  generalize dfsT tokens sub [] [] t = ms
  induction ms generalizing n with
  | nil => rfl
  | cons m ms ih =>
    obtain ⟨c, p⟩ := m
    rw [number]
    unfold atLevel at ih ⊢
    by_cases hc : c ∈ K.map LTree.id
    · rw [List.filter_cons_of_pos (by simpa using hc), List.filter_cons_of_pos (by simpa using hc), List.map_cons, ih]
    · rw [List.filter_cons_of_neg (by simpa using hc), List.filter_cons_of_neg (by simpa using hc), ih]

end

end RUSure.NodeHeap
