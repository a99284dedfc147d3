import Verif.Lemmas.StackSub

/-!
# The groups that splitting makes
-/

namespace RUSure.Lemmas
open RUSure RUSure.Spec
variable {T : Type} [DecidableEq T]

theorem isSplitter_iff {tokens splitters : List T} {c : PNode} {b : Bool}
    (h : isSplitter tokens splitters c = .ok b) : b = true ↔ CoversSplitter tokens splitters c := by
  unfold isSplitter at h
  obtain ⟨n, h1, h⟩ := except_bind_ok h
  have h2 : c.hi = some (c.lo + n) := by
    unfold PNode.len at h1
    cases hh : c.hi with
    | none => rw [hh] at h1; cases h1
    | some e =>
      rw [hh] at h1
      dsimp only at h1
      split at h1
      · cases h1
      · cases h1; congr 1; omega
  split at h
  · rename_i h3
    subst h3
    obtain ⟨t, h4, h⟩ := except_bind_ok h
    cases h
    unfold tokenAt at h4
    split at h4
    · rename_i t' ht
      cases h4
      simp [CoversSplitter, h2, ht]
    · cases h4
  · rename_i h3
    cases h
    simp [CoversSplitter, h2, h3]

theorem groups_spec {P : PNode → Prop} : ∀ (zs : List (PNode × Bool)) (acc : List PNode),
    (∀ z ∈ zs, z.2 = true ↔ P z.1) → (∀ c ∈ acc, ¬ P c) →
    (∀ g ∈ groupChildren acc zs, ∀ c ∈ g.dropLast, ¬ P c)
      ∧ ∀ g ∈ (groupChildren acc zs).dropLast, ∃ c, g.getLast? = some c ∧ P c
  | [], acc, _, ha => by
    unfold groupChildren
    cases acc with
    | nil => simp
    | cons a acc =>
      simp only [List.isEmpty_cons, Bool.false_eq_true, if_false, List.mem_singleton, forall_eq]
      exact ⟨fun c hc => ha c (List.dropLast_subset _ hc), by simp⟩
  | (c, false) :: zs, acc, hz, ha => by
    rw [List.forall_mem_cons] at hz
    rw [groupChildren]
    refine groups_spec zs _ hz.2 ?_
    intro d hd
    rcases List.mem_append.mp hd with hd | hd
    · exact ha d hd
    · rw [List.mem_singleton.mp hd]
      intro h; have := hz.1.mpr h; cases this
  | (c, true) :: zs, acc, hz, ha => by
    rw [List.forall_mem_cons] at hz
    rw [groupChildren]
    obtain ⟨h1, h2⟩ := groups_spec zs [] hz.2 (by simp)
    constructor
    · rw [List.forall_mem_cons]
      refine ⟨fun d hd => ha d ?_, h1⟩
      simpa using hd
    · cases hg : groupChildren [] zs with
      | nil => simp
      | cons g gs =>
        rw [List.dropLast_cons_cons, List.forall_mem_cons, ← hg]
        exact ⟨⟨c, by simp, hz.1.mp rfl⟩, h2⟩

omit [DecidableEq T] in
theorem SameNode.covers {tokens splitters : List T} {n n' : PNode} (h : SameNode n n') :
    CoversSplitter tokens splitters n' ↔ CoversSplitter tokens splitters n := by
  unfold CoversSplitter
  rw [h.lo, h.hi]

theorem marks_zip {tokens splitters : List T} : ∀ {cs cs' : List PNode} {marks : List Bool},
    List.Forall₂ SameNode cs cs' →
    List.Forall₂ (fun c b => isSplitter tokens splitters c = .ok b) cs marks →
    ∀ z ∈ cs'.zip marks, z.2 = true ↔ CoversSplitter tokens splitters z.1
  | _, _, _, .nil, .nil => by simp
  | _, _, _, .cons h hs, .cons h' hs' => by
    rw [List.zip_cons_cons, List.forall_mem_cons]
    exact ⟨(isSplitter_iff h').trans h.covers.symm, marks_zip hs hs'⟩

theorem same_anns {cs cs' : List PNode} (h : List.Forall₂ SameNode cs cs') :
    ∀ c' ∈ cs', ∃ c ∈ cs, c'.ann = c.ann := by
  induction h with
  | nil => simp
  | cons h _ ih =>
    rw [List.forall_mem_cons]
    refine ⟨⟨_, List.mem_cons_self .., h.ann⟩, fun c' hc => ?_⟩
    obtain ⟨c, h1, h2⟩ := ih c' hc
    exact ⟨c, List.mem_cons_of_mem _ h1, h2⟩

/-- The two cases of `regroup`. -/
theorem regroup_cases {tokens splitters : List T} {ann : PAnn} {cs cs' : List PNode}
    {marks : List Bool} (hs : List.Forall₂ SameNode cs cs')
    (hm : cs.mapM (isSplitter tokens splitters) = .ok marks) :
    (regroup ann marks cs' = cs' ∧ (ann ≠ .paired → ∀ c ∈ cs', ¬ CoversSplitter tokens splitters c))
    ∨ ∃ gs : List (List PNode), regroup ann marks cs' = gs.map splitNode ∧ gs.flatten = cs'
      ∧ (∀ g ∈ gs, g ≠ [] ∧ ∀ c ∈ g.dropLast, ¬ CoversSplitter tokens splitters c)
      ∧ ∀ g ∈ gs.dropLast, ∃ c, g.getLast? = some c ∧ CoversSplitter tokens splitters c := by
  have hF := mapM_ok hm
  have hl : cs'.length = marks.length := by rw [← hs.length_eq, hF.length_eq]
  have hz := marks_zip hs hF
  unfold regroup
  split
  · right
    obtain ⟨h1, h2⟩ := groups_spec _ [] hz (by simp)
    refine ⟨_, rfl, ?_, fun g hg => ⟨groupChildren_ne _ _ g hg, h1 g hg⟩, h2⟩
    rw [groupChildren_flatten, List.nil_append, zip_map_fst hl]
  · rename_i hc
    left
    refine ⟨rfl, fun ha c hc' hcov => ?_⟩
    obtain ⟨i, hi, rfl⟩ := List.mem_iff_getElem.mp hc'
    have hmem : (cs'[i], marks[i]'(by omega)) ∈ cs'.zip marks := by
      rw [List.mem_iff_getElem]
      exact ⟨i, by simp; omega, by simp⟩
    have h3 := (hz _ hmem).mpr hcov
    dsimp only at h3
    apply hc
    refine ⟨?_, ha⟩
    rw [List.contains_iff_mem, ← h3]
    exact List.getElem_mem _

mutual
theorem inTree_children {P : PNode → Prop} : ∀ (n : PNode), (∀ x, InTree x n → P x) → ∀ x, InTree x n →
    ∀ c ∈ x.children, P c
  | .mk lo hi ann cs, h, x, hx, c, hc => by
    have ih := inTrees_children' (P := P) cs
    rcases inTree_mk.mp hx with rfl | hx'
    · exact h c (.child (inTrees_iff.mpr ⟨c, hc, .self⟩))
    · exact ih (fun y hy => h y (.child hy)) x hx' c hc

theorem inTrees_children' {P : PNode → Prop} : ∀ (cs : List PNode), (∀ x, InTrees x cs → P x) →
    ∀ x, InTrees x cs → ∀ c ∈ x.children, P c
  | [], _, _, hx, _, _ => by cases hx
  | d :: cs, h, x, hx, c, hc => by
    have ih := inTree_children (P := P) d
    have ih' := inTrees_children' (P := P) cs
    rcases inTrees_cons.mp hx with hx' | hx'
    · exact ih (fun y hy => h y (.here hy)) x hx' c hc
    · exact ih' (fun y hy => h y (.there hy)) x hx' c hc
end

theorem inTrees_children {P : PNode → Prop} {cs : List PNode} (h : ∀ x, InTrees x cs → P x)
    {x : PNode} (hx : InTrees x cs) : ∀ c ∈ x.children, P c := inTrees_children' cs h x hx

section
variable (tokens splitters : List T) (un : List (T × T))

/-- The cases of splitting a node. -/
theorem splitWith_cases {lo hi ann cs} {n' : PNode} {N : Nat}
    (h : (PNode.mk lo hi ann cs).splitWith tokens splitters un = .ok n')
    (hp : LookupOk N (.mk lo hi ann cs)) :
    (n' = .mk lo hi ann cs ∧ HasBrackets un tokens n')
    ∨ ∃ marks cs', cs.mapM (isSplitter tokens splitters) = .ok marks
      ∧ PNode.splitList tokens splitters un cs = .ok cs'
      ∧ n' = .mk lo hi ann (regroup ann marks cs') := by
  have hget : ∀ {i : Nat} {t : T}, tokenAt tokens i = .ok t → tokens[i]? = some t := by
    intro i t h
    unfold tokenAt at h
    split at h
    · cases h; assumption
    · cases h
  unfold PNode.splitWith at h
  split at h
  · rename_i ha
    subst ha
    obtain ⟨u, hu, h⟩ := except_bind_ok h
    cases u with
    | true =>
      cases h
      left
      refine ⟨rfl, rfl, ?_⟩
      obtain ⟨a, m, b, q, e1, -, e3, -⟩ := hp rfl
      obtain rfl : cs = [a, m, b] := e1
      unfold unsplittable at hu
      dsimp only at hu
      obtain ⟨l, hl, hu⟩ := except_bind_ok hu
      split at hu
      · cases hu
      · rename_i p hp
        obtain ⟨r, hr, hu⟩ := except_bind_ok hu
        have h1 : p.1 = l := by simpa using List.find?_some hp
        have h2 := List.mem_of_find?_eq_some hp
        have h3 : r = p.2 := by
          have hu : (Except.ok (r == p.2) : Except ParseFail Bool) = .ok true := hu
          exact eq_of_beq (Except.ok.inj hu)
        rw [e3, tokenBefore] at hr
        exact ⟨a, m, b, q, l, r, rfl, hget hl, e3, hget hr, by rw [← h1, h3]; exact h2⟩
    | false =>
      obtain ⟨marks, h1, h⟩ := except_bind_ok h
      obtain ⟨cs', h2, h⟩ := except_bind_ok h
      cases h
      exact .inr ⟨_, _, h1, h2, rfl⟩
  · obtain ⟨marks, h1, h⟩ := except_bind_ok h
    obtain ⟨cs', h2, h⟩ := except_bind_ok h
    cases h
    exact .inr ⟨_, _, h1, h2, rfl⟩

omit [DecidableEq T] in
theorem wellGrouped_groups {gs : List (List PNode)}
    (h1 : ∀ g ∈ gs, g ≠ [] ∧ ∀ c ∈ g.dropLast, ¬ CoversSplitter tokens splitters c)
    (h2 : ∀ g ∈ gs.dropLast, ∃ c, g.getLast? = some c ∧ CoversSplitter tokens splitters c) :
    WellGrouped tokens splitters (gs.map splitNode) := by
  right
  constructor
  · intro c hc
    obtain ⟨g, hg, rfl⟩ := List.mem_map.mp hc
    exact ⟨rfl, h1 g hg⟩
  · intro c hc
    rw [← List.map_dropLast] at hc
    obtain ⟨g, hg, rfl⟩ := List.mem_map.mp hc
    exact h2 g hg

mutual
theorem splitWith_grouped (N : Nat) : ∀ (n n' : PNode), n.splitWith tokens splitters un = .ok n' →
    (∀ x, InTree x n → LookupOk N x) → (∀ x, InTrees x n.children → x.ann ≠ .split) →
    ∀ x, InTree x n' → WellGrouped tokens splitters x.children
  | .mk lo hi ann cs, n', h, hp, hn, x, hx => by
    have ih := splitList_grouped N cs
    have hn' : ∀ x, InTrees x cs → x.ann ≠ .split := hn
    rcases splitWith_cases tokens splitters un h (hp _ .self) with ⟨rfl, -⟩ | ⟨marks, cs', h1, h2, rfl⟩
    · left
      intro c hc
      rcases inTree_mk.mp hx with rfl | hx'
      · exact hn' c (inTrees_iff.mpr ⟨c, hc, .self⟩)
      · exact inTrees_children hn' hx' c hc
    · have hs := splitList_shape tokens splitters un _ _ h2
      have hna : ∀ c ∈ cs', c.ann ≠ .split := by
        intro c hc
        obtain ⟨d, hd, e⟩ := same_anns hs c hc
        rw [e]
        exact hn' d (inTrees_iff.mpr ⟨d, hd, .self⟩)
      have ih := ih cs' h2 (fun y hy => hp y (.child hy)) hn'
      rcases regroup_cases (ann := ann) hs h1 with ⟨h3, -⟩ | ⟨gs, h3, h4, h5, h6⟩
      · rw [h3] at hx
        rcases inTree_mk.mp hx with rfl | hx'
        · exact .inl hna
        · exact ih x hx'
      · rw [h3] at hx
        rcases inTree_mk.mp hx with rfl | hx'
        · exact wellGrouped_groups tokens splitters h5 h6
        · obtain ⟨c, hc, hx'⟩ := inTrees_iff.mp hx'
          obtain ⟨g, hg, rfl⟩ := List.mem_map.mp hc
          unfold splitNode at hx'
          rcases inTree_mk.mp hx' with rfl | hx'
          · left
            intro d hd
            exact hna d (by rw [← h4]; exact List.mem_flatten.mpr ⟨g, hg, hd⟩)
          · exact ih x (by rw [← h4]; exact inTrees_flatten.mpr ⟨g, hg, hx'⟩)

theorem splitList_grouped (N : Nat) : ∀ (cs cs' : List PNode),
    PNode.splitList tokens splitters un cs = .ok cs' → LookupsOk N cs →
    (∀ x, InTrees x cs → x.ann ≠ .split) →
    ∀ x, InTrees x cs' → WellGrouped tokens splitters x.children
  | [], cs', h, hp, hn, x, hx => by
    unfold PNode.splitList at h
    cases h
    cases hx
  | c :: cs, cs', h, hp, hn, x, hx => by
    have ih := splitWith_grouped N c
    have ih' := splitList_grouped N cs
    rw [LookupsOk.cons] at hp
    have hn1 : ∀ y, InTrees y c.children → y.ann ≠ .split := by
      intro y hy
      exact hn y (.here (by obtain ⟨_, _, _, _⟩ := c; exact .child hy))
    have hn2 : ∀ y, InTrees y cs → y.ann ≠ .split := fun y hy => hn y (.there hy)
    unfold PNode.splitList at h
    obtain ⟨k, -, h⟩ := except_bind_ok h
    dsimp only at h
    split at h
    · obtain ⟨c', h1, h⟩ := except_bind_ok h
      obtain ⟨cs2, h2, h⟩ := except_bind_ok h
      cases h
      rcases inTrees_cons.mp hx with hx' | hx'
      · exact ih c' h1 hp.1 hn1 x hx'
      · exact ih' cs2 h2 hp.2 hn2 x hx'
    · obtain ⟨c', h1, h⟩ := except_bind_ok h
      obtain ⟨cs2, h2, h⟩ := except_bind_ok h
      cases h
      cases h1
      rcases inTrees_cons.mp hx with hx' | hx'
      · left
        intro d hd
        exact inTrees_children hn (.here hx') d hd
      · exact ih' cs2 h2 hp.2 hn2 x hx'
end

/-- What is left of a node that is reached. -/
def NoSplitterLeft (x : PNode) : Prop :=
  x.ann ≠ .paired → x.ann ≠ .split → ∀ c ∈ x.children, c.ann ≠ .split →
    ¬ CoversSplitter tokens splitters c

mutual
theorem splitWith_left (N : Nat) : ∀ (n n' : PNode), n.splitWith tokens splitters un = .ok n' →
    (∀ x, InTree x n → LookupOk N x) →
    ∀ x, Reached un tokens x n' → NoSplitterLeft tokens splitters x
  | .mk lo hi ann cs, n', h, hp, x, hx => by
    have ih := splitList_left N cs
    rcases splitWith_cases tokens splitters un h (hp _ .self) with
      ⟨rfl, hb⟩ | ⟨marks, cs', h1, h2, rfl⟩
    · cases hx with
      | self => intro ha; exact absurd hb.1 ha
      | child _ hb' => exact absurd hb hb'
    · have hs := splitList_shape tokens splitters un _ _ h2
      have ih := ih cs' h2 (fun y hy => hp y (.child hy))
      rcases regroup_cases (ann := ann) hs h1 with ⟨h3, h4⟩ | ⟨gs, h3, h4, h5, h6⟩
      · rw [h3] at hx
        cases hx with
        | self => intro ha _ c hc _; exact h4 ha c hc
        | child hc _ hl hx => exact ih _ hc hl x hx
      · rw [h3] at hx
        cases hx with
        | self =>
          intro _ _ c hc hns
          obtain ⟨g, hg, rfl⟩ := List.mem_map.mp hc
          exact absurd rfl hns
        | child hc _ hl hx =>
          obtain ⟨g, hg, rfl⟩ := List.mem_map.mp hc
          cases hx with
          | self => intro _ hns; exact absurd rfl hns
          | child hd _ hl' hx =>
            exact ih _ (by rw [← h4]; exact List.mem_flatten.mpr ⟨g, hg, hd⟩) hl' x hx

theorem splitList_left (N : Nat) : ∀ (cs cs' : List PNode),
    PNode.splitList tokens splitters un cs = .ok cs' → LookupsOk N cs →
    ∀ c ∈ cs', Long c → ∀ x, Reached un tokens x c → NoSplitterLeft tokens splitters x
  | [], cs', h, hp, d, hd, hl, x, hx => by
    unfold PNode.splitList at h
    cases h
    cases hd
  | c :: cs, cs', h, hp, d, hd, hl, x, hx => by
    have ih := splitWith_left N c
    have ih' := splitList_left N cs
    rw [LookupsOk.cons] at hp
    unfold PNode.splitList at h
    obtain ⟨k, hk, h⟩ := except_bind_ok h
    dsimp only at h
    split at h
    · obtain ⟨c', h1, h⟩ := except_bind_ok h
      obtain ⟨cs2, h2, h⟩ := except_bind_ok h
      cases h
      rcases List.mem_cons.mp hd with rfl | hd
      · exact ih _ h1 hp.1 x hx
      · exact ih' cs2 h2 hp.2 d hd hl x hx
    · rename_i hk'
      obtain ⟨c', h1, h⟩ := except_bind_ok h
      obtain ⟨cs2, h2, h⟩ := except_bind_ok h
      cases h
      cases h1
      rcases List.mem_cons.mp hd with rfl | hd
      · exfalso
        obtain ⟨e, he, hl⟩ := hl
        rw [len_ok he (by omega)] at hk
        cases hk
        omega
      · exact ih' cs2 h2 hp.2 d hd hl x hx
end

end

end RUSure.Lemmas
