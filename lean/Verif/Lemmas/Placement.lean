import Verif.Lemmas.Transforms

namespace RUSure
open Spec
variable {M : Type}

/-! ### early exits -/

/-- Recursive form of `ExitsPlaced`. -/
def GoodExits : Bool → List (Node M) → Prop
  | prev, [] => prev = false
  | prev, x :: xs => ((x = .exit) ↔ prev = true) ∧ GoodExits x.isTokOrGroup xs

theorem goodExits_placed : ∀ (l : List (Node M)) (prev : Bool), GoodExits prev l → ExitsPlaced prev l := by
  intro l
  induction l with
  | nil => intro prev h; simp only [GoodExits] at h; subst h; simp [ExitsPlaced]
  | cons x xs ih =>
    rintro prev ⟨h1, h2⟩
    obtain ⟨a, b, c⟩ := ih _ h2
    refine ⟨?_, ?_, ?_⟩
    · intro i n hi hn
      cases i with
      | zero => simp at hi; subst hi; simpa using c.2 hn
      | succ i => simpa using a i n (by simpa using hi) hn
    · intro i hi
      cases i with
      | zero => exact ⟨x, by simp, c.1 (by simpa using hi)⟩
      | succ i => simpa using b i (by simpa using hi)
    · simpa using h1

theorem exitFree_cons (n : Node M) (ns : List (Node M)) :
    ExitFree (n :: ns) ↔ n ≠ .exit ∧ (∀ cs mt, n = .group cs mt → ExitFree cs) ∧ ExitFree ns := by
  unfold ExitFree
  rw [occurs_cons]
  constructor
  · intro h
    refine ⟨?_, ?_, ?_⟩
    · rintro rfl; exact h (.inl rfl)
    · rintro cs mt rfl ho; exact h (.inr (.inl ⟨_, _, rfl, ho⟩))
    · intro ho; exact h (.inr (.inr ho))
  · rintro ⟨h1, h2, h3⟩ (h | ⟨cs, mt, rfl, h⟩ | h)
    · exact h1 h.symm
    · exact h2 _ _ rfl h
    · exact h3 h

theorem goodExits_loop (w : Bool) (l : List (Node M)) (h : ExitFree l) :
    GoodExits false (insertEarlyExitLoop w l) := by
  induction l with
  | nil => simp [insertEarlyExitLoop, GoodExits]
  | cons n ns ih =>
    rw [exitFree_cons] at h
    have ih := ih h.2.2
    cases n with
    | group cs mt =>
      cases w <;>
        simp [insertEarlyExitLoop, insertEarlyExitNode, GoodExits, Node.isTokOrGroup, ih]
    | exit => exact absurd rfl h.1
    | _ => simp [insertEarlyExitLoop, insertEarlyExitNode, GoodExits, Node.isTokOrGroup, ih]

/-- Groups of the result of the loop come from groups of the input. -/
theorem occurs_group_exitLoop :
    (∀ (n : Node M) (l : List (Node M)) (mt : M), ExitFree [n] →
      Occurs (insertEarlyExitNode true n) (.group l mt) →
        ∃ l0, ExitFree l0 ∧ l = insertEarlyExitLoop true l0) ∧
    (∀ (s l : List (Node M)) (mt : M), ExitFree s →
      Occurs (insertEarlyExitLoop true s) (.group l mt) →
        ∃ l0, ExitFree l0 ∧ l = insertEarlyExitLoop true l0) := by
  apply Node.induct
  case hg =>
    intro cs m ih l mt hf ho
    have hf := ((exitFree_cons ..).1 hf).2.1 _ _ rfl
    simp only [insertEarlyExitNode, if_true, occurs_cons] at ho
    rcases ho with ho | ⟨_, _, h, ho⟩ | ho
    · simp at ho; exact ⟨cs, hf, ho.1⟩
    · simp at h; obtain ⟨rfl, rfl⟩ := h; exact ih _ _ hf ho
    · simp [not_occurs_nil] at ho
  case hcons =>
    intro n ns h1 h2 l mt hf ho
    have hf := (exitFree_cons ..).1 hf
    rw [insertEarlyExitLoop, occurs_append] at ho
    rcases ho with ho | ho
    · exact h1 _ _ ((exitFree_cons ..).2 ⟨hf.1, hf.2.1, not_occurs_nil _⟩) ho
    · exact h2 _ _ hf.2.2 ho
  all_goals simp [insertEarlyExitNode, insertEarlyExitLoop, occurs_cons, not_occurs_nil]

theorem occurs_group_exitLoop_false (s l : List (Node M)) (mt : M)
    (ho : Occurs (insertEarlyExitLoop false s) (.group l mt)) : Occurs s (.group l mt) := by
  induction s with
  | nil => exact absurd ho (not_occurs_nil _)
  | cons n ns ih =>
    rw [insertEarlyExitLoop, occurs_append] at ho
    rw [occurs_cons]
    rcases ho with ho | ho
    · cases n with
      | group cs m =>
        rw [insertEarlyExitNode, if_neg (by simp), occurs_cons, occurs_cons] at ho
        simp [not_occurs_nil] at ho
        rcases ho with h | h
        · simp [h]
        · right; left; exact ⟨_, _, rfl, h⟩
      | _ => simp [insertEarlyExitNode, occurs_cons, not_occurs_nil] at ho
    · exact .inr (.inr (ih ho))

theorem removeExits_append (a b : List (Node M)) :
    removeExits (a ++ b) = removeExits a ++ removeExits b := by
  induction a with
  | nil => rfl
  | cons n ns ih => simp [removeExits, ih]

theorem removeExits_of_free :
    (∀ n : Node M, ExitFree [n] → removeExitsN n = [n]) ∧
    (∀ l : List (Node M), ExitFree l → removeExits l = l) := by
  apply Node.induct
  case hcons =>
    intro n ns ih1 ih2 h
    rw [exitFree_cons] at h
    rw [removeExits, ih2 h.2.2, ih1 ((exitFree_cons ..).2 ⟨h.1, h.2.1, not_occurs_nil _⟩)]
    rfl
  case hg =>
    intro cs mt ih h
    rw [exitFree_cons] at h
    rw [removeExitsN, ih (h.2.1 _ _ rfl)]
  all_goals intros
  all_goals simp_all [removeExits, removeExitsN, exitFree_cons]

theorem removeExits_insert :
    (∀ (n : Node M) (w : Bool), removeExits (insertEarlyExitNode w n) = removeExitsN n) ∧
    (∀ (l : List (Node M)) (w : Bool), removeExits (insertEarlyExitLoop w l) = removeExits l) := by
  apply Node.induct
  case hg =>
    intro cs mt ih w
    simp only [insertEarlyExitNode]
    split <;> simp [removeExits, removeExitsN, ih]
  case hcons =>
    intro n ns h1 h2 w
    rw [insertEarlyExitLoop, removeExits_append, h1, h2]; rfl
  all_goals intros
  all_goals simp_all [insertEarlyExitNode, insertEarlyExitLoop, removeExitsN, removeExits]

/-! ### singleton groups -/

theorem isTokOrGroup_flattenSingleton :
    (∀ n : Node M, (flattenSingletonNode n).isTokOrGroup = n.isTokOrGroup) ∧
    (∀ (l : List (Node M)) (c : Node M) (c' : Node (List M)), l = [c] →
      flattenSingletonGroups l = [c'] → c'.isTokOrGroup = c.isTokOrGroup) := by
  have hcm : ∀ (mt : M) (n : Node (List M)), (consMatchType mt n).isTokOrGroup = n.isTokOrGroup := by
    intro mt n; cases n <;> rfl
  apply Node.induct
  case hg =>
    intro cs mt ih
    simp only [flattenSingletonNode]
    split
    · rename_i c c' hc
      split
      · rw [hcm, ih c c' rfl hc]; simp_all [Node.isTokOrGroup]
      · rfl
    · rfl
  case hcons =>
    intro n ns h1 h2 c c' e e'
    simp at e; obtain ⟨rfl, rfl⟩ := e
    simp [flattenSingletonGroups] at e'; rw [← e']; exact h1
  all_goals intros
  all_goals first | rfl | simp_all

theorem occurs_consMatchType : ∀ (mt : M) (n : Node (List M)) (c : Node (List M)) (mts : List M), 
    Occurs [consMatchType mt n] (.group [c] mts) → ∃ mts', Occurs [n] (.group [c] mts') := by
  intro mt n c mts ho
  rw [occurs_cons] at ho
  simp only [not_occurs_nil, or_false] at ho
  cases n with
  | group cs m =>
    rcases ho with ho | ⟨_, _, h, ho⟩
    · simp [consMatchType] at ho; exact ⟨m, by rw [occurs_cons]; simp [ho]⟩
    · simp [consMatchType] at h; obtain ⟨rfl, rfl⟩ := h
      exact ⟨mts, by rw [occurs_cons]; right; left; exact ⟨_, _, rfl, ho⟩⟩
  | _ => simp [consMatchType] at ho

theorem no_singleton_left : (∀ (n : Node M) (c : Node (List M)) (mts : List M),
    Occurs [flattenSingletonNode n] (.group [c] mts) → c.isTokOrGroup = false) ∧
  (∀ (l : List (Node M)) (c : Node (List M)) (mts : List M),
    Occurs (flattenSingletonGroups l) (.group [c] mts) → c.isTokOrGroup = false) := by
  apply Node.induct
  case hg =>
    intro cs mt ih c mts ho
    simp only [flattenSingletonNode] at ho
    split at ho
    · rename_i d d' hd
      rw [hd] at ih
      split at ho
      · obtain ⟨mts', ho⟩ := occurs_consMatchType _ _ _ _ ho
        exact ih _ _ ho
      · rename_i hnt
        rw [occurs_cons] at ho
        simp only [not_occurs_nil, or_false] at ho
        rcases ho with ho | ⟨_, _, h, ho⟩
        · simp at ho
          have := isTokOrGroup_flattenSingleton.1 d
          simp [flattenSingletonGroups] at hd
          rw [hd] at this
          rw [ho.1, this]; simpa using hnt
        · simp at h; rw [← h.1] at ho; exact ih _ _ ho
    · rename_i cs _ _ hne
      rw [occurs_cons] at ho
      simp only [not_occurs_nil, or_false] at ho
      rcases ho with ho | ⟨_, _, h, ho⟩
      · simp at ho
        exfalso
        have hlen : ∀ l : List (Node M), (flattenSingletonGroups l).length = l.length := by
          intro l; induction l with
          | nil => rfl
          | cons a l ih => simp [flattenSingletonGroups, ih]
        have h1 := hlen cs
        rw [← ho.1] at h1
        obtain ⟨d, rfl⟩ := List.length_eq_one_iff.1 h1.symm
        exact hne d _ rfl ho.1.symm
      · simp at h; rw [← h.1] at ho; exact ih _ _ ho
  case hcons =>
    intro n ns h1 h2 c mts ho
    have e : flattenSingletonGroups (n :: ns)
        = [flattenSingletonNode n] ++ flattenSingletonGroups ns := rfl
    rw [e, occurs_append] at ho
    rcases ho with ho | ho
    · exact h1 _ _ ho
    · exact h2 _ _ ho
  all_goals intros
  all_goals
    rename_i ho
    simp [flattenSingletonNode, flattenSingletonGroups, occurs_cons, not_occurs_nil] at ho

/-! ### regions -/

theorem insertRegions_level (ae : Bool) (f : Node M → Bool) :
    (∀ (n : Node M) (l : List (Node M)) (mt : M), Occurs [n] (.group l mt) →
      Occurs (insertRegionsNode ae f n) (.group (insertRegions l ae f) mt)) ∧
    (∀ (s l : List (Node M)) (mt : M), Occurs s (.group l mt) →
      Occurs (insertRegionsLoop ae f s) (.group (insertRegions l ae f) mt)) := by
  have hw : ∀ (acc : Bool) (x y : Node M), Occurs [x] y → Occurs (wrapRegion ae acc x) y := by
    intro acc x y h
    cases ae <;> cases acc <;> simp_all [wrapRegion, occurs_cons, not_occurs_nil] <;> grind
  apply Node.induct
  case hg =>
    intro cs m ih l mt ho
    simp only [insertRegionsNode]
    apply hw
    simp only [occurs_cons, not_occurs_nil, or_false] at ho ⊢
    rcases ho with ho | ⟨_, _, h, ho⟩
    · left; simp at ho; simp [insertRegions, ho]
    · simp at h; obtain ⟨rfl, rfl⟩ := h
      right; refine ⟨_, _, rfl, ?_⟩
      rw [occurs_append]; exact .inl (ih _ _ ho)
  case hcons =>
    intro n ns h1 h2 l mt ho
    have : n :: ns = [n] ++ ns := rfl
    rw [this, occurs_append] at ho
    rw [insertRegionsLoop, occurs_append]
    rcases ho with ho | ho
    · exact .inl (h1 _ _ ho)
    · exact .inr (h2 _ _ ho)
  all_goals simp [insertRegionsNode, insertRegionsLoop, occurs_cons, not_occurs_nil]

theorem insertRegionsLoop_append (ae : Bool) (f : Node M → Bool) (a b : List (Node M)) :
    insertRegionsLoop ae f (a ++ b) = insertRegionsLoop ae f a ++ insertRegionsLoop ae f b := by
  induction a with
  | nil => rfl
  | cons n ns ih => simp [insertRegionsLoop, ih]

theorem insertRegionsNode_accepted (ae : Bool) (f : Node M → Bool) (n : Node M)
    (ht : n.isTokOrGroup = true) (hf : f n = true) :
    ∃ n', stripNode n' = stripNode n ∧
      insertRegionsNode ae f n =
        [.rstart] ++ (if ae = true then [.rend] else []) ++ [n', .rend] := by
  cases n with
  | tok t mt => exact ⟨.tok t mt, rfl, by simp [insertRegionsNode, hf, wrapRegion]⟩
  | group cs mt =>
    refine ⟨.group (insertRegionsLoop ae f cs ++ trailingRegion ae) mt, ?_, ?_⟩
    · simp [stripNode, strip_append, strip_trailing, (strip_insertRegions ae f).2]
    · simp [insertRegionsNode, hf, wrapRegion]
  | _ => simp [Node.isTokOrGroup] at ht

theorem count_insertRegionsLoop (ae : Bool) (f : Node M → Bool) (l : List (Node M))
    (h : ∀ n ∈ l, n.isDecision = false) :
    countStarts (insertRegionsLoop ae f l)
        = (l.filter (fun n => n.isTokOrGroup && f n)).length ∧
    countEnds (insertRegionsLoop ae f l)
        = (if ae = true then 2 else 1) * (l.filter (fun n => n.isTokOrGroup && f n)).length := by
  induction l with
  | nil => simp [insertRegionsLoop, countStarts, countEnds]
  | cons n ns ih =>
    obtain ⟨ih1, ih2⟩ := ih (fun x hx => h x (by simp [hx]))
    have hn := h n (by simp)
    simp only [countStarts, countEnds, insertRegionsLoop, List.filter_append,
      List.length_append] at ih1 ih2 ⊢
    rw [ih1, ih2]
    cases n with
    | tok t mt =>
      cases hf : f (.tok t mt) <;> cases ae <;>
        simp [insertRegionsNode, wrapRegion, hf, Node.isTokOrGroup] <;> omega
    | group cs mt =>
      cases hf : f (.group cs mt) <;> cases ae <;>
        simp [insertRegionsNode, wrapRegion, hf, Node.isTokOrGroup] <;> omega
    | deco t => simp [insertRegionsNode, Node.isTokOrGroup]
    | _ => simp [Node.isDecision] at hn

/-! ### walking -/

theorem walk_sound (b a : Bool) :
    (∀ (n : Node M) (path : List Nat), ∀ x ∈ walkNode b a path n,
      ∃ r, x.2.1 = path ++ r ∧ TagFor b a x.1 x.2.2 ∧
        (if r = [] then some n else match n with | .group cs _ => nodeAt cs r | _ => none)
          = some x.1) ∧
    (∀ (l : List (Node M)) (pre : List Nat) (i : Nat), ∀ x ∈ walkFrom b a pre i l,
      ∃ k r, x.2.1 = pre ++ (i + k) :: r ∧ TagFor b a x.1 x.2.2 ∧
        nodeAt l (k :: r) = some x.1) := by
  apply Node.induct
  case hg =>
    intro cs mt ih path x hx
    simp only [walkNode, List.mem_append] at hx
    rcases hx with (hx | hx) | hx
    · split at hx
      · simp at hx; subst hx; exact ⟨[], by simp, by simp [TagFor, Node.isGroup, *], by simp⟩
      · simp at hx
    · obtain ⟨k, r, h1, h2, h3⟩ := ih path 0 x hx
      exact ⟨k :: r, by simpa using h1, h2, by simpa using h3⟩
    · split at hx
      · simp at hx; subst hx; exact ⟨[], by simp, by simp [TagFor, Node.isGroup, *], by simp⟩
      · simp at hx
  case hcons =>
    intro n ns h1 h2 pre i x hx
    simp only [walkFrom, List.mem_append] at hx
    rcases hx with hx | hx
    · obtain ⟨r, e, t, h⟩ := h1 _ x hx
      exact ⟨0, r, by simp [e], t, by rw [nodeAt_zero_cons]; exact h⟩
    · obtain ⟨k, r, e, t, h⟩ := h2 pre (i+1) x hx
      refine ⟨k + 1, r, ?_, t, ?_⟩
      · rw [e]; congr 2; omega
      · rw [nodeAt_succ_cons]; exact h
  case hnil => intro pre i x hx; simp [walkFrom] at hx
  all_goals
    intros
    rename_i hx
    simp [walkNode] at hx
    subst hx
    exact ⟨[], by simp, by simp [TagFor, Node.isGroup], by simp⟩

theorem walk_complete (b a : Bool) :
    (∀ (n : Node M) (path r : List Nat) (m : Node M) (tag : WalkTag), TagFor b a m tag →
      (if r = [] then some n else match n with | .group cs _ => nodeAt cs r | _ => none)
          = some m → (m, path ++ r, tag) ∈ walkNode b a path n) ∧
    (∀ (l : List (Node M)) (pre : List Nat) (i k : Nat) (r : List Nat) (m : Node M)
      (tag : WalkTag), TagFor b a m tag → nodeAt l (k :: r) = some m →
        (m, pre ++ (i + k) :: r, tag) ∈ walkFrom b a pre i l) := by
  apply Node.induct
  case hg =>
    intro cs mt ih path r m tag ht h
    simp only [walkNode, List.mem_append]
    split at h
    · rename_i hr; subst hr
      simp at h; subst h
      cases tag with
      | leaf => simp [TagFor, Node.isGroup] at ht
      | groupBefore => left; left; simp [TagFor] at ht; simp [ht]
      | groupAfter => right; simp [TagFor] at ht; simp [ht]
    · left; right
      cases r with
      | nil => contradiction
      | cons k r => simpa using ih path 0 k r m tag ht h
  case hcons =>
    intro n ns h1 h2 pre i k r m tag ht h
    simp only [walkFrom, List.mem_append]
    cases k with
    | zero =>
      left
      rw [nodeAt_zero_cons] at h
      have := h1 (pre ++ [i]) r m tag ht h
      simpa using this
    | succ k =>
      right
      rw [nodeAt_succ_cons] at h
      have := h2 pre (i+1) k r m tag ht h
      rwa [show i + 1 + k = i + (k + 1) by omega] at this
  case hnil => intro pre i k r m tag ht h; rw [nodeAt_nil_seq] at h; cases h
  all_goals
    intros
    rename_i tag ht h
    split at h
    · rename_i hr; subst hr
      simp at h; subst h
      cases tag <;> simp_all [TagFor, Node.isGroup, walkNode]
    · cases h

theorem walk_pairwise (b a : Bool) :
    (∀ (n : Node M) (path : List Nat),
      ((walkNode b a path n).map (fun x => x.2)).Pairwise DocLt) ∧
    (∀ (l : List (Node M)) (pre : List Nat) (i : Nat),
      ((walkFrom b a pre i l).map (fun x => x.2)).Pairwise DocLt) := by
  apply Node.induct
  case hg =>
    intro cs mt ih path
    have hs := (walk_sound (M := M) b a).2 cs path 0
    have e : ∀ (b : Bool) (tag : WalkTag),
        List.map (fun x : Node M × List Nat × WalkTag => x.2)
          (if b = true then [(Node.group cs mt, path, tag)] else [])
        = if b = true then [(path, tag)] else [] := by
      intro b tag; cases b <;> rfl
    simp only [walkNode, List.map_append, e]
    rw [List.pairwise_append, List.pairwise_append]
    refine ⟨⟨?_, ih path 0, ?_⟩, ?_, ?_⟩
    · split <;> simp
    · intro x hx y hy
      split at hx
      · simp at hx; subst hx
        simp only [List.mem_map] at hy
        obtain ⟨z, hz, rfl⟩ := hy
        obtain ⟨k, r, h1, -, -⟩ := hs z hz
        exact .inr (.inl ⟨_, r, h1, rfl⟩)
      · simp at hx
    · split <;> simp
    · intro x hx y hy
      split at hy
      · simp at hy; subst hy
        rw [List.mem_append] at hx
        rcases hx with hx | hx
        · split at hx
          · simp at hx; subst hx; exact .inr (.inr (.inr ⟨rfl, rfl, rfl⟩))
          · simp at hx
        · simp only [List.mem_map] at hx
          obtain ⟨z, hz, rfl⟩ := hx
          obtain ⟨k, r, h1, -, -⟩ := hs z hz
          exact .inr (.inr (.inl ⟨_, r, h1, rfl⟩))
      · simp at hy
  case hcons =>
    intro n ns h1 h2 pre i
    simp only [walkFrom, List.map_append]
    rw [List.pairwise_append]
    refine ⟨h1 _, h2 _ _, ?_⟩
    intro x hx y hy
    simp only [List.mem_map] at hx hy
    obtain ⟨u, hu, rfl⟩ := hx
    obtain ⟨v, hv, rfl⟩ := hy
    obtain ⟨r, e, -, -⟩ := (walk_sound b a).1 n _ u hu
    obtain ⟨k, s, e', -, -⟩ := (walk_sound b a).2 ns pre (i+1) v hv
    exact .inl ⟨pre, i, i + 1 + k, r, s, by simp [e], e', by omega⟩
  all_goals intros
  all_goals simp [walkNode, walkFrom]

theorem append_cons_ne_self (p : List Nat) (i : Nat) (r : List Nat) : p ≠ p ++ i :: r := by
  intro h; have := congrArg List.length h; simp at this

theorem docLt_irrefl (x : List Nat × WalkTag) : ¬ DocLt x x := by
  obtain ⟨p, t⟩ := x
  rintro (⟨c, i, j, r, s, h1, h2, h3⟩ | ⟨i, r, h, -⟩ | ⟨i, r, h, -⟩ | ⟨-, h1, h2⟩)
  · simp only at h1 h2
    rw [h1] at h2
    have := List.append_cancel_left h2
    simp at this
    omega
  · exact append_cons_ne_self _ _ _ h
  · exact append_cons_ne_self _ _ _ h
  · simp only at h1 h2; rw [h1] at h2; cases h2

end RUSure
