import Verif.Props.StackParser
import Verif.Lemmas.StackNest
import Verif.Lemmas.StackGroups

/-!
# What groups consist of, and why the groups of Python code can be moved
-/

namespace RUSure.Lemmas
open RUSure RUSure.Spec
variable {T : Type} [DecidableEq T]

/-- A leaf whose token is not an opener, or a bracket. -/
def Element (pairs : List (T × T)) (tokens : List T) (c : PNode) : Prop :=
  (c.hi = some (c.lo + 1) ∧ ∃ t, tokens[c.lo]? = some t ∧ t ∉ pairs.map Prod.fst)
  ∨ ∃ h o t, c.hi = some (h + 1) ∧ tokens[c.lo]? = some o ∧ tokens[h]? = some t
    ∧ o ∈ pairs.map Prod.fst ∧ t ∈ pairs.map Prod.snd

omit [DecidableEq T] in
theorem Element.same {pairs : List (T × T)} {tokens : List T} {c c' : PNode} (h : Element pairs tokens c)
    (hs : SameNode c c') : Element pairs tokens c' := by
  unfold Element at h ⊢
  rw [hs.lo, hs.hi]
  exact h

omit [DecidableEq T] in
theorem forest_elements {pairs : List (T × T)} (hT : Table pairs) {tokens : List T} {ctx : Option T} {i : Nat}
    {ts : List T} {ns : List PNode} (h : Forest pairs ctx i ts ns) :
    ∀ pre post, tokens = pre ++ ts ++ post → pre.length = i →
      (∀ c ∈ ns, Element pairs tokens c)
        ∧ ∀ x, InTrees x ns → x.ann ≠ .split ∧ (x.ann ≠ .paired → ∀ c ∈ x.children, Element pairs tokens c) := by
  have leaf : ∀ (pre post : List T) (t : T) (ts : List T), tokens = pre ++ (t :: ts) ++ post →
      t ∉ pairs.map Prod.fst → Element pairs tokens (.mk pre.length (some (pre.length + 1)) .sibling []) := by
    intro pre post t ts e ht
    refine .inl ⟨rfl, t, ?_, ht⟩
    subst e
    simp [PNode.lo]
  have lf : ∀ {x : PNode} {lo hi ann}, InTree x (.mk lo hi ann []) → ann ≠ .split →
      x.ann ≠ .split ∧ (x.ann ≠ .paired → ∀ c ∈ x.children, Element pairs tokens c) := by
    intro x lo hi ann hx ha
    rcases inTree_mk.mp hx with rfl | hx
    · exact ⟨ha, fun _ c hc => by cases hc⟩
    · cases hx
  induction h with
  | nil =>
    intro pre post _ _
    exact ⟨by simp, fun x hx => by cases hx⟩
  | @plain ctx i t ts ns hp hf ih =>
    intro pre post e hl
    obtain ⟨h1, h2⟩ := ih (pre ++ [t]) post (by rw [e]; simp) (by simp [hl])
    subst hl
    refine ⟨?_, fun x hx => ?_⟩
    · rw [List.forall_mem_cons]
      exact ⟨leaf pre post t ts e hp.1, h1⟩
    · rcases inTrees_cons.mp hx with hx | hx
      · exact lf hx (by simp)
      · exact h2 x hx
  | @stray o o' c i ts ns hp hne hf ih =>
    intro pre post e hl
    obtain ⟨h1, h2⟩ := ih (pre ++ [c]) post (by rw [e]; simp) (by simp [hl])
    subst hl
    refine ⟨?_, fun x hx => ?_⟩
    · rw [List.forall_mem_cons]
      refine ⟨leaf pre post c ts e fun hc => ?_, h1⟩
      exact hT.disjoint c hc (List.mem_map.mpr ⟨_, hp, rfl⟩)
    · rcases inTrees_cons.mp hx with hx | hx
      · exact lf hx (by simp)
      · exact h2 x hx
  | @bracket ctx o c i j inner ts ns ms hp hj hf1 hf2 ih1 ih2 =>
    intro pre post e hl
    obtain ⟨h1, h2⟩ := ih1 (pre ++ [o]) (c :: ts ++ post) (by rw [e]; simp) (by simp [hl])
    obtain ⟨h3, h4⟩ := ih2 (pre ++ o :: inner ++ [c]) post (by rw [e]; simp) (by simp [hl, hj]; omega)
    subst hl
    refine ⟨?_, fun x hx => ?_⟩
    · rw [List.forall_mem_cons]
      refine ⟨.inr ⟨j, o, c, rfl, ?_, ?_, List.mem_map.mpr ⟨_, hp, rfl⟩, List.mem_map.mpr ⟨_, hp, rfl⟩⟩, h3⟩
      · subst e
        simp [PNode.lo]
      · subst e
        rw [List.append_assoc, List.getElem?_append_right (by omega), List.cons_append,
          show j - pre.length = inner.length + 1 by omega, List.getElem?_cons_succ, List.append_assoc,
          List.getElem?_append_right (Nat.le_refl _)]
        simp
    · rcases inTrees_cons.mp hx with hx | hx
      · rcases inTree_mk.mp hx with rfl | hx
        · exact ⟨by simp [PNode.ann], fun h => absurd rfl h⟩
        · rcases inTrees_cons.mp hx with hx | hx
          · exact lf hx (by simp)
          · rcases inTrees_cons.mp hx with hx | hx
            · rcases inTree_mk.mp hx with rfl | hx
              · exact ⟨by simp [PNode.ann], fun _ => h1⟩
              · exact h2 x hx
            · rcases inTrees_cons.mp hx with hx | hx
              · exact lf hx (by simp)
              · cases hx
      · exact h4 x hx

section
variable (tokens splitters : List T) (un : List (T × T)) {pairs : List (T × T)}

/-- The original nodes other than brackets have elements as children. -/
def ElementsBelow (pairs : List (T × T)) (tokens : List T) (x : PNode) : Prop :=
  x.ann ≠ .split ∧ (x.ann ≠ .paired → ∀ c ∈ x.children, Element pairs tokens c)

omit [DecidableEq T] in
theorem same_elements {cs cs' : List PNode} (h : List.Forall₂ SameNode cs cs')
    (he : ∀ c ∈ cs, Element pairs tokens c) : ∀ c ∈ cs', Element pairs tokens c := by
  induction h with
  | nil => simp
  | cons h _ ih =>
    rw [List.forall_mem_cons] at he ⊢
    exact ⟨he.1.same h, ih he.2⟩

mutual
theorem splitWith_elements (N : Nat) : ∀ (n n' : PNode), n.splitWith tokens splitters un = .ok n' →
    (∀ x, InTree x n → LookupOk N x) → (∀ x, InTree x n → ElementsBelow pairs tokens x) →
    ∀ x, InTree x n' → x.ann = .split → ∀ c ∈ x.children, Element pairs tokens c
  | .mk lo hi ann cs, n', h, hp, hn, x, hx => by
    have ih := splitList_elements N cs
    rcases splitWith_cases tokens splitters un h (hp _ .self) with ⟨rfl, -⟩ | ⟨marks, cs', h1, h2, rfl⟩
    · intro ha
      exact absurd ha (hn x hx).1
    · have hs := splitList_shape tokens splitters un _ _ h2
      have ih := ih cs' h2 (fun y hy => hp y (.child hy)) (fun y hy => hn y (.child hy))
      have hself := hn _ .self
      by_cases hpa : ann = .paired
      · have hr : regroup ann marks cs' = cs' := by
          unfold regroup
          rw [if_neg]
          exact fun h => h.2 hpa
        rw [hr] at hx
        rcases inTree_mk.mp hx with rfl | hx'
        · intro ha
          exact absurd ha hself.1
        · exact ih x hx'
      · have hel := same_elements tokens hs (hself.2 hpa)
        rcases regroup_cases (ann := ann) hs h1 with ⟨h3, -⟩ | ⟨gs, h3, h4, h5, h6⟩
        · rw [h3] at hx
          rcases inTree_mk.mp hx with rfl | hx'
          · intro ha
            exact absurd ha hself.1
          · exact ih x hx'
        · rw [h3] at hx
          rcases inTree_mk.mp hx with rfl | hx'
          · intro ha
            exact absurd ha hself.1
          · obtain ⟨c, hc, hx'⟩ := inTrees_iff.mp hx'
            obtain ⟨g, hg, rfl⟩ := List.mem_map.mp hc
            unfold splitNode at hx'
            rcases inTree_mk.mp hx' with rfl | hx'
            · intro _ d hd
              exact hel d (by rw [← h4]; exact List.mem_flatten.mpr ⟨g, hg, hd⟩)
            · exact ih x (by rw [← h4]; exact inTrees_flatten.mpr ⟨g, hg, hx'⟩)

theorem splitList_elements (N : Nat) : ∀ (cs cs' : List PNode),
    PNode.splitList tokens splitters un cs = .ok cs' → LookupsOk N cs →
    (∀ x, InTrees x cs → ElementsBelow pairs tokens x) →
    ∀ x, InTrees x cs' → x.ann = .split → ∀ c ∈ x.children, Element pairs tokens c
  | [], cs', h, hp, hn, x, hx => by
    unfold PNode.splitList at h
    cases h
    cases hx
  | c :: cs, cs', h, hp, hn, x, hx => by
    have ih := splitWith_elements N c
    have ih' := splitList_elements N cs
    rw [LookupsOk.cons] at hp
    unfold PNode.splitList at h
    obtain ⟨k, -, h⟩ := except_bind_ok h
    dsimp only at h
    split at h
    · obtain ⟨c', h1, h⟩ := except_bind_ok h
      obtain ⟨cs2, h2, h⟩ := except_bind_ok h
      cases h
      rcases inTrees_cons.mp hx with hx' | hx'
      · exact ih c' h1 hp.1 (fun y hy => hn y (.here hy)) x hx'
      · exact ih' cs2 h2 hp.2 (fun y hy => hn y (.there hy)) x hx'
    · obtain ⟨c', h1, h⟩ := except_bind_ok h
      obtain ⟨cs2, h2, h⟩ := except_bind_ok h
      cases h
      cases h1
      rcases inTrees_cons.mp hx with hx' | hx'
      · intro ha
        exact absurd ha (hn x (.here hx')).1
      · exact ih' cs2 h2 hp.2 (fun y hy => hn y (.there hy)) x hx'
end
end

/-! ### Streams with markers -/

/-- What the indentation pass guarantees about the neighbours of markers. -/
structure MarkerPlaces (indent dedent newline : T) (out : List T) : Prop where
  indents : ∀ j, out[j + 1]? = some indent → out[j]? = some indent ∨ out[j]? = some newline
  dedents : ∀ j, out[j]? = some dedent → out[j + 1]? = some dedent ∨ out[j + 1]? = some newline
  apart : ∀ j, out[j]? = some dedent → out[j + 1]? = some newline → out[j + 2]? ≠ some indent

section
variable {pairs : List (T × T)} {indent dedent newline : T} {out : List T}

omit [DecidableEq T] in
theorem brackets_ends {d : PNode} (h : HasBrackets [(indent, dedent)] out d) (hr : RangeOk d) :
    out[d.lo]? = some indent ∧ ∃ e, d.hi = some (e + 1) ∧ out[e]? = some dedent := by
  obtain ⟨-, a, m, b, e, l, r, h1, h2, h3, h4, h5⟩ := h
  rw [List.mem_singleton] at h5
  cases h5
  obtain ⟨lo, hi, ann, cs⟩ := d
  obtain rfl : cs = [a, m, b] := h1
  cases hr with
  | inner _ ht =>
    obtain ⟨h6, h7, -⟩ := tile_shape _ _ ht
    refine ⟨by rw [← h2, h6]; rfl, e, ?_, h4⟩
    simp only [List.getLast?_cons_cons, List.getLast?_singleton, Option.map_some, Option.some.injEq] at h7
    rw [← h3, h7]
    rfl

omit [DecidableEq T] in
theorem tile_split {a b : Nat} {l r : List PNode} {p c : PNode} (h : RangesTile a b (l ++ p :: c :: r)) :
    p.hi = some c.lo := by
  obtain ⟨m, -, h2⟩ := tile_append_inv h
  exact tile_hi_lo h2

variable (hT : Table (pairs ++ [(indent, dedent)]))
  (hn : PlainTok (pairs ++ [(indent, dedent)]) newline)
  (hp : MarkerPlaces indent dedent newline out)
include hT hn hp

omit [DecidableEq T] in
/-- A block can only be the first in its group. -/
theorem block_first {a b : Nat} {l r : List PNode} {d : PNode} (ht : RangesTile a b (l ++ d :: r))
    (he : ∀ c ∈ l, Element (pairs ++ [(indent, dedent)]) out c)
    (hs : ∀ c ∈ l, ¬ CoversSplitter out [newline] c)
    (hd : HasBrackets [(indent, dedent)] out d) : l = [] := by
  by_contra hne
  obtain ⟨l', e, rfl⟩ : ∃ l' e, l = l' ++ [e] := ⟨_, _, (List.dropLast_append_getLast hne).symm⟩
  have hdr := (tile_mem ht d (by simp)).1
  obtain ⟨h1, -⟩ := brackets_ends hd hdr
  rw [List.append_assoc] at ht
  have h2 : e.hi = some d.lo := tile_split ht
  have hio : indent ∈ (pairs ++ [(indent, dedent)]).map Prod.fst := by simp
  rcases he e (by simp) with ⟨h3, t, h4, h5⟩ | ⟨h, o, t, h3, -, h4, -, h5⟩
  · rw [h2] at h3
    have h3 := Option.some.inj h3
    rw [h3] at h1
    rcases hp.indents _ h1 with h6 | h6
    · rw [h4] at h6
      cases h6
      exact h5 hio
    · refine hs e (by simp) ⟨by rw [h2, h3], newline, h6, by simp⟩
  · rw [h2] at h3
    have h3 := Option.some.inj h3
    rw [h3] at h1
    rcases hp.indents _ h1 with h6 | h6
    · rw [h4] at h6
      cases h6
      exact hT.disjoint _ hio h5
    · rw [h4] at h6
      cases h6
      exact hn.2 h5

omit [DecidableEq T] in
/-- After a block comes the newline. -/
theorem block_end : ∀ {q b : Nat} {r : List PNode} {e : PNode}, RangesTile (q + 1) b r →
    out[q]? = some dedent → (∀ c ∈ r, Element (pairs ++ [(indent, dedent)]) out c) →
    (∀ c ∈ r.dropLast, ¬ CoversSplitter out [newline] c) → r.getLast? = some e →
    ∃ q', e.lo = q' + 1 ∧ out[q']? = some dedent
  | _, _, [], _, _, _, _, _, h => by cases h
  | q, b, [x], e, ht, hd, _, _, h => by
    cases h
    exact ⟨q, (tile_shape _ _ ht).1, hd⟩
  | q, b, x :: y :: r, e, ht, hd, he, hs, h => by
    have h1 := (tile_shape _ _ ht).1
    have h2 := tile_hi_lo ht
    rw [List.forall_mem_cons] at he
    rw [List.dropLast_cons_cons, List.forall_mem_cons] at hs
    rw [List.getLast?_cons_cons] at h
    rcases he.1 with ⟨h3, t, h4, h5⟩ | ⟨h, o, t, h3, h4, -, h5, -⟩
    · have hx : out[q + 1]? = some dedent := by
        rcases hp.dedents q hd with h6 | h6
        · exact h6
        · exact absurd ⟨h3, newline, by rw [h1]; exact h6, by simp⟩ hs.1
      have hy : y.lo = q + 1 + 1 := by
        rw [h2, h1] at h3
        exact Option.some.inj h3
      refine block_end (b := b) ?_ hx he.2 hs.2 h
      cases ht with
      | cons _ ht =>
        have := (tile_shape _ _ ht).1
        rw [← hy, this]
        exact ht
    · rw [h1] at h4
      rcases hp.dedents q hd with h6 | h6
      · rw [h4] at h6
        cases h6
        exact (hT.disjoint _ h5 (by simp)).elim
      · rw [h4] at h6
        cases h6
        exact (hn.1 h5).elim

/-- The groups of Python code can be moved under their left neighbours. -/
theorem chainless_places {a b : Nat} {cs : List PNode} (ht : RangesTile a b cs)
    (hg : WellGrouped out [newline] cs)
    (he : ∀ c ∈ cs, c.ann = .split → ∀ d ∈ c.children, Element (pairs ++ [(indent, dedent)]) out d) :
    Chainless out (indent, dedent) cs := by
  have kids : ∀ c ∈ cs, c.children ≠ [] → ∃ hi, c.hi = some hi ∧ RangesTile c.lo hi c.children := by
    intro c hc hne
    obtain ⟨h1, -⟩ := tile_mem ht c hc
    obtain ⟨lo, hi, ann, ks⟩ := c
    cases h1 with
    | leaf _ => exact absurd rfl hne
    | inner _ h2 => exact ⟨_, rfl, h2⟩
  -- the block of a group comes first
  have first : ∀ c ∈ cs, c.ann = .split → (∀ d ∈ c.children.dropLast, ¬ CoversSplitter out [newline] d) →
      ∀ l' d r', c.children = l' ++ d :: r' → HasBrackets [(indent, dedent)] out d → l' = [] := by
    intro c hc ha hs l' d r' e hd
    obtain ⟨hi, -, h2⟩ := kids c hc (by rw [e]; simp)
    rw [e] at h2
    refine block_first hT hn hp h2 (fun x hx => he c hc ha x (by rw [e]; simp [hx])) (fun x hx => hs x ?_) hd
    rw [e, List.dropLast_append_of_ne_nil (by simp)]
    exact List.mem_append_left _ hx
  constructor
  · rintro p c l r rfl ⟨hpa, hca, d, hd, hb⟩
    rcases hg with hg | ⟨hg, -⟩
    · exact absurd hpa (hg p (by simp))
    · have hcm : c ∈ l ++ p :: c :: r := by simp
      obtain ⟨l', r', e⟩ := List.append_of_mem hd
      have hl := first c hcm hca (hg c hcm).2.2 l' d r' e hb
      subst hl
      refine ⟨[], d, r', e, fun x hx hbx => ?_⟩
      rw [List.nil_append] at hx
      obtain ⟨r1, r2, rfl⟩ := List.append_of_mem hx
      have := first c hcm hca (hg c hcm).2.2 (d :: r1) x r2 (by rw [e]; simp) hbx
      cases this
  · rintro p c d l r rfl ⟨hpa, hca, x, hx, hbx⟩ ⟨-, hda, y, hy, hby⟩
    rcases hg with hg | ⟨hg, hg'⟩
    · exact absurd hpa (hg p (by simp))
    · have hcm : c ∈ l ++ p :: c :: d :: r := by simp
      have hdm : d ∈ l ++ p :: c :: d :: r := by simp
      obtain ⟨l1, r1, e1⟩ := List.append_of_mem hx
      obtain rfl := first c hcm hca (hg c hcm).2.2 l1 x r1 e1 hbx
      obtain ⟨l2, r2, e2⟩ := List.append_of_mem hy
      obtain rfl := first d hdm hda (hg d hdm).2.2 l2 y r2 e2 hby
      rw [List.nil_append] at e1 e2
      obtain ⟨hi, hhi, hct⟩ := kids c hcm (by rw [e1]; simp)
      obtain ⟨hi2, -, hdt⟩ := kids d hdm (by rw [e2]; simp)
      have hcd : c.hi = some d.lo := by
        rw [show l ++ p :: c :: d :: r = (l ++ [p]) ++ c :: d :: r by simp] at ht
        exact tile_split ht
      obtain ⟨z, hz1, hz2, t, hz3, hz4⟩ := hg' c (by
        rw [show l ++ p :: c :: d :: r = (l ++ [p, c]) ++ d :: r by simp,
          List.dropLast_append_of_ne_nil (by simp)]
        simp)
      rw [List.mem_singleton] at hz4
      subst hz4
      -- the second group starts with an indent
      rw [e2] at hdt
      have hylo := (tile_shape _ _ hdt).1
      obtain ⟨hyi, -⟩ := brackets_ends hby (tile_mem hdt y (by simp)).1
      -- the first group ends with its newline
      have hzh : z.hi = some hi := by
        rw [e1] at hct hz1
        have := (tile_shape _ _ hct).2.1
        rw [hz1, Option.map_some, Option.some.injEq] at this
        exact this
      have hdlo : d.lo = z.lo + 1 := by
        rw [hz2] at hzh
        rw [hhi] at hcd
        have h1 := Option.some.inj hzh
        have h2 := Option.some.inj hcd
        omega
      rw [e1] at hct hz1
      obtain ⟨-, q, hq1, hq2⟩ := brackets_ends hbx (tile_mem hct x (by simp)).1
      have hel : ∀ k ∈ r1, Element (pairs ++ [(indent, dedent)]) out k :=
        fun k hk => he c hcm hca k (by rw [e1]; simp [hk])
      have hsp := (hg c hcm).2.2
      rw [e1] at hsp
      have hbefore : ∃ q', z.lo = q' + 1 ∧ out[q']? = some dedent := by
        cases r1 with
        | nil =>
          simp only [List.getLast?_singleton, Option.some.injEq] at hz1
          subst hz1
          rw [hq1] at hz2
          have : q = x.lo := by simpa using hz2
          rw [← this, hq2] at hz3
          cases hz3
          exact absurd (show dedent ∈ (pairs ++ [(indent, dedent)]).map Prod.snd by simp) hn.2
        | cons w ws =>
          rw [List.getLast?_cons_cons] at hz1
          rw [List.dropLast_cons_cons, List.forall_mem_cons] at hsp
          have hw := tile_hi_lo hct
          rw [hq1] at hw
          cases hct with
          | cons _ hct =>
            have := (tile_shape _ _ hct).1
            rw [← this, ← Option.some.inj hw] at hct
            exact block_end hT hn hp hct hq2 hel hsp.2 hz1
      obtain ⟨q', h1, h2⟩ := hbefore
      refine hp.apart q' h2 (by rw [← h1]; exact hz3) ?_
      rw [show q' + 2 = y.lo by omega]
      exact hyi

end

end RUSure.Lemmas
