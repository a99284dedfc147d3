import Verif.Lemmas.NodeSubMatch
import Verif.Lemmas.StackGroups

/-!
# Which nodes can be empty
-/

namespace RUSure.NodeHeap
open RUSure RUSure.Spec RUSure.Lemmas

/-- Not empty. -/
def NE (x : PNode) : Prop := x.hi ≠ some x.lo

/-- Only the inside of a bracket pair can be empty. -/
def SolidAt (x : PNode) : Prop :=
  (x.ann = .paired → ∃ a m b, x.children = [a, m, b] ∧ a.children = [] ∧ b.children = [] ∧ NE a ∧ NE b ∧ m.ann = .middle)
  ∧ (x.ann ≠ .paired → ∀ c ∈ x.children, NE c)

theorem tile_lt {cs : List PNode} {a b : Nat} (h : RangesTile a b cs) (hne : cs ≠ []) (hs : ∀ c ∈ cs, NE c) : a < b := by
  cases h with
  | nil => exact absurd rfl hne
  | @cons _ mid _ ann ks ns h1 h2 =>
    have h3 := hs _ List.mem_cons_self
    obtain ⟨hi, e, hle⟩ := range_shape h1
    cases e
    have := ranges_le _ h2
    have : a ≠ mid := fun e => h3 (by rw [e]; rfl)
    simp only [PNode.lo] at hle
    omega

/-- Nodes with children that are not empty are not empty. -/
theorem ne_of_children {x : PNode} (hr : RangeOk x) (hne : x.children ≠ []) (hs : ∀ c ∈ x.children, NE c) : NE x := by
  cases hr with
  | leaf _ => exact absurd rfl hne
  | @inner lo hi ann cs h1 h2 =>
    have := tile_lt h2 h1 hs
    intro e
    have : hi = lo := Option.some.inj e
    omega

section
variable {T : Type} [DecidableEq T] (tokens splitters : List T) (un : List (T × T))

theorem splitWith_leaf {n n' : PNode} (h : n.splitWith tokens splitters un = .ok n') (hc : n.children = []) : n' = n := by
  cases n with
  | mk lo hi ann cs =>
    simp only [PNode.children] at hc
    subst hc
    unfold PNode.splitWith at h
    split at h
    · obtain ⟨b, hb, h⟩ := except_bind_ok h
      cases hb
    · obtain ⟨marks, h1, h⟩ := except_bind_ok h
      obtain ⟨cs', h2, h⟩ := except_bind_ok h
      cases h1
      unfold PNode.splitList at h2
      cases h2
      cases h
      simp [regroup]

/-- What splitting the children makes of them. -/
theorem splitList_each : ∀ {cs cs' : List PNode}, PNode.splitList tokens splitters un cs = .ok cs' →
    List.Forall₂ (fun c c' => c' = c ∨ c.splitWith tokens splitters un = .ok c') cs cs'
  | [], cs', h => by
    unfold PNode.splitList at h
    cases h
    exact .nil
  | c :: cs, cs', h => by
    unfold PNode.splitList at h
    obtain ⟨k, -, h⟩ := except_bind_ok h
    dsimp only at h
    split at h
    · obtain ⟨c', h1, h⟩ := except_bind_ok h
      obtain ⟨cs2, h2, h⟩ := except_bind_ok h
      cases h
      exact .cons (.inr h1) (splitList_each h2)
    · obtain ⟨c', h1, h⟩ := except_bind_ok h
      obtain ⟨cs2, h2, h⟩ := except_bind_ok h
      cases h
      cases h1
      exact .cons (.inl rfl) (splitList_each h2)

theorem NE.same {n n' : PNode} (h : SameNode n n') (hn : NE n) : NE n' := by
  unfold NE
  rw [h.hi, h.lo]
  exact hn

theorem forall₂_right {α β : Type} {R : α → β → Prop} {l : List α} {r : List β} (h : List.Forall₂ R l r) :
    ∀ b ∈ r, ∃ a ∈ l, R a b := by
  induction h with
  | nil => intro b hb; cases hb
  | cons h1 _ ih =>
    intro b hb
    rcases List.mem_cons.1 hb with rfl | hb
    · exact ⟨_, List.mem_cons_self, h1⟩
    · obtain ⟨a, ha, h⟩ := ih b hb
      exact ⟨a, List.mem_cons_of_mem _ ha, h⟩

mutual
theorem splitWith_solid (N : Nat) : ∀ (n n' : PNode), n.splitWith tokens splitters un = .ok n' →
    (∀ x, InTree x n → LookupOk N x) → (∀ x, InTree x n → SolidAt x) → (∀ x, InTree x n' → RangeOk x) →
    ∀ x, InTree x n' → SolidAt x
  | .mk lo hi ann cs, n', h, hp, hs, hr, x, hx => by
    have ih := splitList_solid N cs
    rcases splitWith_cases tokens splitters un h (hp _ .self) with ⟨rfl, -⟩ | ⟨marks, cs', h1, h2, rfl⟩
    · exact hs x hx
    · have hsh := splitList_shape tokens splitters un _ _ h2
      have heach := splitList_each tokens splitters un h2
      rcases inTree_mk.mp hx with rfl | hx
      · refine ⟨fun ha => ?_, fun ha => ?_⟩
        · simp only [PNode.ann] at ha
          subst ha
          obtain ⟨a, m, b, e, ea, eb, na, nb, em⟩ := (hs _ .self).1 rfl
          simp only [PNode.children] at e
          subst e
          have hreg : regroup .paired marks cs' = cs' := by simp [regroup]
          simp only [PNode.children]
          rw [hreg]
          cases heach with
          | @cons _ a' _ _ ha' heach =>
          cases heach with
          | @cons _ m' _ _ hm' heach =>
          cases heach with
          | @cons _ b' _ _ hb' heach =>
          cases heach
          have ea' : a' = a := ha'.elim id fun h => splitWith_leaf tokens splitters un h ea
          have eb' : b' = b := hb'.elim id fun h => splitWith_leaf tokens splitters un h eb
          have em' : m'.ann = m.ann := hm'.elim (fun e => by rw [e]) fun h => (splitWith_same tokens splitters un _ _ h).ann
          rw [ea', eb']
          exact ⟨a, m', b, rfl, ea, eb, na, nb, em'.trans em⟩
        · simp only [PNode.ann] at ha
          simp only [PNode.children]
          have hcs : ∀ c ∈ cs', NE c := fun c hc => by
            obtain ⟨d, hd, hdc⟩ := forall₂_right hsh c hc
            exact ((hs _ .self).2 ha d hd).same hdc
          rcases regroup_cases (ann := ann) hsh h1 with ⟨h3, -⟩ | ⟨gs, h3, h4, h5, h6⟩
          · rw [h3]; exact hcs
          · intro c hc
            have hrc := hr c (.child (inTrees_iff.2 ⟨c, hc, .self⟩))
            rw [h3] at hc
            obtain ⟨g, hg, rfl⟩ := List.mem_map.1 hc
            refine ne_of_children hrc (h5 g hg).1 fun d hd => hcs d ?_
            rw [← h4]
            exact List.mem_flatten.2 ⟨g, hg, hd⟩
      · have hcs : ∀ y, InTrees y cs' → RangeOk y := by
          intro y hy
          rcases regroup_cases (ann := ann) hsh h1 with ⟨h3, -⟩ | ⟨gs, h3, h4, -⟩
          · exact hr y (.child (by rw [h3]; exact hy))
          · rw [← h4] at hy
            obtain ⟨g, hg, hy⟩ := inTrees_flatten.1 hy
            refine hr y (.child ?_)
            rw [h3]
            exact inTrees_iff.2 ⟨RUSure.splitNode g, List.mem_map_of_mem hg, .child hy⟩
        have ih' := ih cs' h2 (fun y hy => hp y (.child hy)) (fun y hy => hs y (.child hy)) hcs
        rcases regroup_cases (ann := ann) hsh h1 with ⟨h3, -⟩ | ⟨gs, h3, h4, h5, -⟩
        · rw [h3] at hx
          exact ih' x hx
        · have hna : ann ≠ .paired := by
            rintro rfl
            have hreg : regroup .paired marks cs' = cs' := by simp [regroup]
            obtain ⟨a, m, b, e, -⟩ := (hs _ .self).1 rfl
            simp only [PNode.children] at e
            subst e
            rw [hreg] at h3
            obtain ⟨a, m, b, e, ea, -⟩ := (hs _ .self).1 rfl
            simp only [PNode.children] at e
            cases e
            cases gs with
            | nil => rw [h3] at heach; cases heach
            | cons g gs =>
              rw [List.map_cons] at h3
              rw [h3] at heach
              cases heach with
              | cons ha' _ =>
                have e1 : RUSure.splitNode g = a := ha'.elim id fun h => splitWith_leaf tokens splitters un h ea
                have e2 : (RUSure.splitNode g).children = g := rfl
                rw [e1, ea] at e2
                exact (h5 g List.mem_cons_self).1 e2.symm
          rw [h3] at hx
          obtain ⟨c, hc, hx⟩ := inTrees_iff.1 hx
          obtain ⟨g, hg, rfl⟩ := List.mem_map.1 hc
          unfold RUSure.splitNode at hx
          rcases inTree_mk.1 hx with rfl | hx
          · refine ⟨fun h => (by cases h), fun _ d hd => ?_⟩
            simp only [PNode.children] at hd
            have hd' : d ∈ cs' := by rw [← h4]; exact List.mem_flatten.2 ⟨g, hg, hd⟩
            obtain ⟨e, he, hde⟩ := forall₂_right hsh d hd'
            exact ((hs _ .self).2 hna e he).same hde
          · exact ih' x (by rw [← h4]; exact inTrees_flatten.2 ⟨g, hg, hx⟩)

theorem splitList_solid (N : Nat) : ∀ (cs cs' : List PNode), PNode.splitList tokens splitters un cs = .ok cs' →
    (∀ x, InTrees x cs → LookupOk N x) → (∀ x, InTrees x cs → SolidAt x) → (∀ x, InTrees x cs' → RangeOk x) →
    ∀ x, InTrees x cs' → SolidAt x
  | [], cs', h, _, _, _, x, hx => by
    unfold PNode.splitList at h
    cases h
    cases hx
  | c :: cs, cs', h, hp, hs, hr, x, hx => by
    have ih := splitWith_solid N c
    have ih' := splitList_solid N cs
    unfold PNode.splitList at h
    obtain ⟨k, -, h⟩ := except_bind_ok h
    dsimp only at h
    split at h
    · obtain ⟨c', h1, h⟩ := except_bind_ok h
      obtain ⟨cs2, h2, h⟩ := except_bind_ok h
      cases h
      rcases inTrees_cons.1 hx with hx | hx
      · exact ih c' h1 (fun y hy => hp y (.here hy)) (fun y hy => hs y (.here hy)) (fun y hy => hr y (.here hy)) x hx
      · exact ih' cs2 h2 (fun y hy => hp y (.there hy)) (fun y hy => hs y (.there hy)) (fun y hy => hr y (.there hy)) x hx
    · obtain ⟨c', h1, h⟩ := except_bind_ok h
      obtain ⟨cs2, h2, h⟩ := except_bind_ok h
      cases h
      cases h1
      rcases inTrees_cons.1 hx with hx | hx
      · exact hs x (.here hx)
      · exact ih' cs2 h2 (fun y hy => hp y (.there hy)) (fun y hy => hs y (.there hy)) (fun y hy => hr y (.there hy)) x hx
end

/-! ### Depth of the split tree -/

mutual
theorem splitWith_depth : ∀ (n n' : PNode), n.splitWith tokens splitters un = .ok n' → valueDepth n' ≤ 2 * valueDepth n
  | .mk lo hi ann cs, n', h => by
    have ih := splitList_depth cs
    have main : ∀ marks cs', cs.mapM (isSplitter tokens splitters) = .ok marks →
        PNode.splitList tokens splitters un cs = .ok cs' →
        valueDepth (.mk lo hi ann (regroup ann marks cs')) ≤ 2 * valueDepth (.mk lo hi ann cs) := by
      intro marks cs' h1 h2
      have hsh := splitList_shape tokens splitters un _ _ h2
      have hd : ∀ c ∈ cs', valueDepth c ≤ 2 * (cs.map valueDepth).foldr max 0 := ih cs' h2 _ fun c hc =>
        foldr_max_le.1 (Nat.le_refl _) _ (List.mem_map_of_mem hc)
      rw [valueDepth, valueDepth]
      have key : ((regroup ann marks cs').map valueDepth).foldr max 0 ≤ 2 * (cs.map valueDepth).foldr max 0 + 1 := by
        rw [foldr_max_le]
        intro k hk
        obtain ⟨c, hc, rfl⟩ := List.mem_map.1 hk
        rcases regroup_cases (ann := ann) hsh h1 with ⟨h3, -⟩ | ⟨gs, h3, h4, -⟩
        · rw [h3] at hc
          have := hd c hc
          omega
        · rw [h3] at hc
          obtain ⟨g, hg, rfl⟩ := List.mem_map.1 hc
          rw [RUSure.splitNode, valueDepth]
          refine Nat.succ_le_succ (foldr_max_le.2 fun k hk => ?_)
          obtain ⟨d, hd', rfl⟩ := List.mem_map.1 hk
          exact hd d (by rw [← h4]; exact List.mem_flatten.2 ⟨g, hg, hd'⟩)
      omega
    unfold PNode.splitWith at h
    split at h
    · obtain ⟨b, -, h⟩ := except_bind_ok h
      cases b with
      | true => cases h; omega
      | false =>
        obtain ⟨marks, h1, h⟩ := except_bind_ok h
        obtain ⟨cs', h2, h⟩ := except_bind_ok h
        cases h
        exact main _ _ h1 h2
    · obtain ⟨marks, h1, h⟩ := except_bind_ok h
      obtain ⟨cs', h2, h⟩ := except_bind_ok h
      cases h
      exact main _ _ h1 h2

theorem splitList_depth : ∀ (cs cs' : List PNode), PNode.splitList tokens splitters un cs = .ok cs' →
    ∀ k, (∀ c ∈ cs, valueDepth c ≤ k) → ∀ c ∈ cs', valueDepth c ≤ 2 * k
  | [], cs', h, _, _, c, hc => by
    unfold PNode.splitList at h
    cases h
    cases hc
  | c :: cs, cs', h, k, hk, d, hd => by
    have ih := splitWith_depth c
    have ih' := splitList_depth cs
    unfold PNode.splitList at h
    obtain ⟨_, -, h⟩ := except_bind_ok h
    dsimp only at h
    split at h
    · obtain ⟨c', h1, h⟩ := except_bind_ok h
      obtain ⟨cs2, h2, h⟩ := except_bind_ok h
      cases h
      rcases List.mem_cons.1 hd with rfl | hd
      · have := ih d h1
        have := hk c List.mem_cons_self
        omega
      · exact ih' cs2 h2 k (fun x hx => hk x (List.mem_cons_of_mem _ hx)) d hd
    · obtain ⟨c', h1, h⟩ := except_bind_ok h
      obtain ⟨cs2, h2, h⟩ := except_bind_ok h
      cases h
      cases h1
      rcases List.mem_cons.1 hd with rfl | hd
      · have := hk d List.mem_cons_self
        omega
      · exact ih' cs2 h2 k (fun x hx => hk x (List.mem_cons_of_mem _ hx)) d hd
end

end

/-! ### Trees with addresses -/

theorem lev_inTree {t : LTree} {K : List LTree} (h : Lev t K) : ∃ x, InTree x t.erase ∧ x.children = K.map LTree.erase := by
  induction h with
  | @self id lo hi ann cs => exact ⟨_, .self, by rw [LTree.erase_mk, PNode.children]⟩
  | @child id lo hi ann cs x K hx _ ih =>
    obtain ⟨y, hy, e⟩ := ih
    refine ⟨y, ?_, e⟩
    rw [LTree.erase_mk]
    exact .child (inTrees_iff.2 ⟨x.erase, List.mem_map_of_mem hx, hy⟩)

theorem node_inTree {t x : LTree} (h : Node t x) : InTree x.erase t.erase := by
  induction h with
  | self => exact .self
  | child hx _ ih =>
    rw [LTree.erase_mk]
    exact .child (inTrees_iff.2 ⟨_, List.mem_map_of_mem hx, ih⟩)

theorem tile_apart : ∀ {K : List LTree} {a b : Nat}, RangesTile a b (K.map LTree.erase) → (∀ x ∈ K, NE x.erase) →
    ∀ x ∈ K, ∀ y ∈ K, x ≠ y → x.lo ≠ y.lo
  | [], _, _, _, _, x, hx, _, _, _ => by cases hx
  | z :: K, a, b, h, hs, x, hx, y, hy, hxy => by
    rw [List.map_cons] at h
    generalize hz : z.erase = ze at h
    cases h with
    | @cons _ mid _ ann ks _ h1 h2 =>
      have hzlo : z.lo = a := by rw [← LTree.erase_lo, hz]; rfl
      have hzn : a < mid := by
        have hne := hs z List.mem_cons_self
        rw [hz] at hne
        obtain ⟨e, he, hle⟩ := range_shape h1
        cases he
        simp only [PNode.lo] at hle
        rcases Nat.lt_or_ge a mid with h | h
        · exact h
        · exact absurd (by rw [Nat.le_antisymm hle h]; rfl) hne
      have hlow : ∀ w ∈ K, mid ≤ w.lo := fun w hw => by
        have := (tile_mem h2 w.erase (List.mem_map_of_mem hw)).2.1
        rwa [LTree.erase_lo] at this
      rcases List.mem_cons.1 hx with rfl | hx' <;> rcases List.mem_cons.1 hy with rfl | hy'
      · exact absurd rfl hxy
      · have := hlow y hy'; omega
      · have := hlow x hx'; omega
      · exact tile_apart h2 (fun w hw => hs w (List.mem_cons_of_mem _ hw)) x hx' y hy' hxy

theorem apart_of_solid {t : LTree} (hr : RangeOk t.erase) (hs : ∀ x, InTree x t.erase → SolidAt x) : Apart t := by
  have hlev : ∀ {K : List LTree} {k : LTree}, Lev t K → k ∈ K → ∃ x a b, InTree x t.erase ∧ x.children = K.map LTree.erase
      ∧ RangesTile a b (K.map LTree.erase) := by
    intro K k hK hk
    obtain ⟨x, hx, e⟩ := lev_inTree hK
    have := range_inTree _ hr x hx
    cases this with
    | leaf _ =>
      have : k.erase ∈ K.map LTree.erase := List.mem_map_of_mem hk
      rw [← e] at this
      cases this
    | inner h1 h2 =>
      simp only [PNode.children] at e
      rw [e] at h2
      exact ⟨_, _, _, hx, by rw [← e]; rfl, h2⟩
  have hchild : ∀ {x : PNode} {K : List LTree} {k : LTree}, InTree x t.erase → x.children = K.map LTree.erase → k ∈ K →
      InTree k.erase t.erase := by
    intro x K k hx e hk
    have := inTree_children (P := fun y => InTree y t.erase) _ (fun y hy => hy) x hx k.erase
    exact this (by rw [e]; exact List.mem_map_of_mem hk)
  -- Nodes with children are not empty.
  have hinner : ∀ {K : List LTree} {k : LTree}, Lev t K → k ∈ K → k.children ≠ [] → NE k.erase := by
    intro K k hK hk hne
    obtain ⟨x, a, b, hx, e, ht⟩ := hlev hK hk
    by_cases hpa : x.ann = .paired
    · obtain ⟨l, m, r, e', el, er, nl, nr, em⟩ := (hs x hx).1 hpa
      have hkm : k.erase ∈ [l, m, r] := by rw [← e', e]; exact List.mem_map_of_mem hk
      simp only [List.mem_cons, List.not_mem_nil, or_false] at hkm
      rcases hkm with h | h | h
      · rw [h]; exact nl
      · have hkt := hchild hx e hk
        have hann : k.erase.ann ≠ .paired := by rw [h, em]; decide
        exact ne_of_children (range_inTree _ hr _ hkt) (by rw [LTree.erase_children]; simpa using hne) ((hs _ hkt).2 hann)
      · rw [h]; exact nr
    · exact (hs x hx).2 hpa _ (by rw [e]; exact List.mem_map_of_mem hk)
  refine ⟨fun K hK b hb hne x hx hid => ?_, fun b xs hK hne l hl e => ?_, fun K hK x hx hxs v hv => ?_⟩
  · obtain ⟨n, lo, hi, hn, e, ht⟩ := hlev hK hb
    by_cases hpa : n.ann = .paired
    · obtain ⟨l, m, r, e', el, er, nl, nr, em⟩ := (hs n hn).1 hpa
      rw [e] at e'
      match K, e' with
      | [l', m', r'], e' =>
        simp only [List.map_cons, List.map_nil, List.cons.injEq, and_true] at e'
        obtain ⟨e1, e2, e3⟩ := e'
        have hbm : b = m' := by
          simp only [List.mem_cons, List.not_mem_nil, or_false] at hb
          rcases hb with rfl | rfl | rfl
          · rw [← e1, LTree.erase_children, List.map_eq_nil_iff] at el
            exact absurd el hne
          · rfl
          · rw [← e3, LTree.erase_children, List.map_eq_nil_iff] at er
            exact absurd er hne
        have hall : ∀ x ∈ [l', m', r'], NE x.erase := by
          intro x hx
          simp only [List.mem_cons, List.not_mem_nil, or_false] at hx
          rcases hx with rfl | rfl | rfl
          · rw [e1]; exact nl
          · exact hinner hK (by simp) (hbm ▸ hne)
          · rw [e3]; exact nr
        exact tile_apart ht hall x hx b hb fun e => hid (by rw [e])
    · exact tile_apart ht (fun y hy => (hs n hn).2 hpa _ (by rw [e]; exact List.mem_map_of_mem hy)) x hx b hb
        fun e => hid (by rw [e])
  · have hbm : b ∈ b :: xs := List.mem_cons_self
    obtain ⟨n, lo, hi, hn, -, ht⟩ := hlev hK hbm
    have hnb := hinner hK hbm hne
    rw [List.map_cons] at ht
    generalize hz : b.erase = be at ht hnb
    cases ht with
    | @cons _ mid _ ann ks _ h1 h2 =>
      have hblo : b.lo = lo := by rw [← LTree.erase_lo, hz]; rfl
      obtain ⟨w, hw, hle⟩ := range_shape h1
      cases hw
      simp only [PNode.lo] at hle
      have hlt : lo < mid := by
        rcases Nat.lt_or_ge lo mid with h | h
        · exact h
        · exact absurd (by rw [Nat.le_antisymm hle h]; rfl) hnb
      rcases List.mem_cons.1 hl with rfl | hl
      · rw [← LTree.erase_hi, hz] at e
        have : mid = l.lo := Option.some.inj e
        omega
      · obtain ⟨h3, h4, v, h5, -⟩ := tile_mem h2 l.erase (List.mem_map_of_mem hl)
        obtain ⟨v', h6, h7⟩ := range_shape h3
        rw [← LTree.erase_hi, h6] at e
        have := Option.some.inj e
        omega
  · obtain ⟨n, lo, hi, hn, e, ht⟩ := hlev hK hx
    have hxt := hchild hn e hx
    have hne : NE x.erase := by
      by_cases hpa : n.ann = .paired
      · obtain ⟨l, m, r, e', el, er, nl, nr, em⟩ := (hs n hn).1 hpa
        have hkm : x.erase ∈ [l, m, r] := by rw [← e', e]; exact List.mem_map_of_mem hx
        simp only [List.mem_cons, List.not_mem_nil, or_false] at hkm
        rcases hkm with h | h | h
        · rw [h]; exact nl
        · have : x.erase.ann = .middle := by rw [h, em]
          rw [LTree.erase_ann, hxs] at this
          cases this
        · rw [h]; exact nr
      · exact (hs n hn).2 hpa _ (by rw [e]; exact List.mem_map_of_mem hx)
    obtain ⟨v', h6, h7⟩ := range_shape (range_inTree _ hr _ hxt)
    rw [LTree.erase_hi, hv] at h6
    cases h6
    rw [LTree.erase_lo] at h7
    rcases Nat.lt_or_ge x.lo v with h | h
    · exact h
    · refine absurd ?_ hne
      rw [LTree.erase_hi, LTree.erase_lo, hv, Nat.le_antisymm h7 h]

section
variable {T : Type} [DecidableEq T]

omit [DecidableEq T] in
theorem pairsOk_of {tokens : List T} {t : LTree} (h : ∀ x, InTree x t.erase → LookupOk tokens.length x) : PairsOk tokens t := by
  intro x hx hpa
  have := pairTokens_ok tokens (h _ (node_inTree hx)) (by rw [LTree.erase_ann]; exact hpa)
  rwa [LTree.erase_children] at this

/-- `_sub_match` on linked nodes. -/
theorem subMatch_heap {fuel : Nat} {h : Heap} {t : LTree} {tokens : List T} {sub : T × T} (hd : t.depth ≤ fuel) (r : Rep h none t)
    (hn : t.ids.Nodup) (he : ∀ a ∈ t.ids, a < h.next) (hp : PairsOk tokens t) (ha : Apart t) :
    ∃ ms, collect fuel tokens sub fuel h t.id = .ok ms
      ∧ (∀ e, t.erase.subMatch tokens sub = .error e → transplants fuel ms h = .error (.py e))
      ∧ ∀ s, t.erase.subMatch tokens sub = .ok s → ∃ h' t', transplants fuel ms h = .ok h' ∧ t'.id = t.id ∧ t'.erase = s
        ∧ Rep h' none t' ∧ t'.ids.Nodup ∧ h.next ≤ h'.next ∧ (∀ a ∈ t'.ids, a < h'.next)
        ∧ (∀ a ∈ t'.ids, a ∈ t.ids ∨ h.next ≤ a) ∧ ∀ a < h.next, a ∉ t.ids → h'.get a = h.get a := by
  have hf : 0 < fuel := by have := t.depth_pos; omega
  refine ⟨_, collect_ok hf (own := []) (mine := []) hd r hn hp ha rfl fun _ => by rw [moveAt, r.cell], ?_⟩
  have hbase : buildT [] t = t := by
    have : ∀ t : LTree, buildT [] t = t := by
      intro t
      induction t using LTree.rec (motive_2 := fun cs => cs.map (buildT []) = cs) with
      | mk id lo hi ann cs ih => rw [buildT_mk, ih]; rfl
      | nil => rfl
      | cons a l h1 h2 => rw [List.map_cons, h1, h2]
    exact this t
  have A : After h t [] := ⟨by rw [hbase]; exact r, by rw [hbase]; exact hn, by rw [hbase]; exact he, he, by simp, by simp⟩
  obtain ⟨h1, h2⟩ := transplants_ok hf hn (ms := dfsT tokens sub [] [] t) A (good_number ha)
  obtain ⟨h3, h4⟩ := subMatch_build (tokens := tokens) (sub := sub) (D := number h.next (dfsT tokens sub [] [] t)) hn hp ha
    fun K hK => atLevel_number hK hn h.next
  by_cases ok : Rest t [] (number h.next (dfsT tokens sub [] [] t))
  · rw [h3 (rest_iff.1 ok)]
    refine ⟨fun e h => (by cases h), fun s hs => ?_⟩
    cases hs
    obtain ⟨h', e, hle, A', hfr⟩ := h1 ok
    rw [List.nil_append] at A'
    rw [hbase] at hfr
    refine ⟨h', _, e, buildT_id _ _, rfl, A'.rep, A'.nodup, hle, A'.exist, fun a ha => ?_, hfr⟩
    rcases buildT_ids ha with h | h
    · exact .inl h
    · obtain ⟨d, hd, rfl⟩ := List.mem_map.1 h
      exact .inr (number_mem hd).2
  · rw [h4 fun h => ok (rest_iff.2 h)]
    refine ⟨fun e h => ?_, fun s hs => by cases hs⟩
    cases h
    exact h2 ok

end

end RUSure.NodeHeap
