import Verif.Spec.Truncation
import Verif.Lemmas.Desugar

/-!
# Which brackets belong together
-/

namespace RUSure.Lemmas
open RUSure RUSure.Spec
variable {T : Type} [DecidableEq T] {pairs : List (T × T)}

/-! ### The end of a bracket is determined -/

/-- While a balanced stream is read, the stack is never smaller than before. -/
theorem bal_prefix (hT : Table pairs) {ctx : Option T} {ts : List T} (h : Bal pairs true false ctx ts) :
    ∀ (p q S : List T), ts = p ++ q → (∀ o, ctx = some o → S.head? = some o) →
      ∃ X, run pairs true false S p = some (X ++ S) := by
  induction h with
  | nil =>
    intro p q S e _
    obtain ⟨rfl, -⟩ := List.append_eq_nil_iff.mp e.symm
    exact ⟨[], rfl⟩
  | plain hp _ ih =>
    intro p q S e h
    cases p with
    | nil => exact ⟨[], rfl⟩
    | cons t p =>
      rw [List.cons_append, List.cons.injEq] at e
      obtain ⟨rfl, e⟩ := e
      obtain ⟨h1, h2⟩ := plain_step hp
      simp only [run, runStep, h1, Bool.false_eq_true, ↓reduceIte, h2, Option.bind_some]
      exact ih p q S e h
  | @stray o o' c ts ht hm hne _ ih =>
    intro p q S e h
    cases p with
    | nil => exact ⟨[], rfl⟩
    | cons t p =>
      rw [List.cons_append, List.cons.injEq] at e
      obtain ⟨rfl, e⟩ := e
      have hS := h o rfl
      cases S with
      | nil => cases hS
      | cons o2 S =>
        obtain rfl := Option.some.inj hS
        simp only [run, runStep, closer_not_opener hT hm, Bool.false_eq_true, ↓reduceIte,
          openerOf_eq hT hm, hne.symm, Option.bind_some]
        exact ih p q _ e h
  | dropped hd => cases hd
  | @bracket ctx o c inner ts hm hb _ ih ih' =>
    intro p q S e h
    cases p with
    | nil => exact ⟨[], rfl⟩
    | cons t p =>
      rw [List.cons_append, List.cons.injEq] at e
      obtain ⟨rfl, e⟩ := e
      have ho : isOpener pairs o = true := isOpener_iff.mpr (mem_opener hm)
      simp only [run, runStep, ho, ↓reduceIte, Option.bind_some]
      rcases List.append_eq_append_iff.mp e with ⟨z, rfl, e2⟩ | ⟨z, rfl, e2⟩
      · cases z with
        | nil =>
          rw [List.append_nil]
          exact ⟨[o], by rw [bal_run hT hb (o :: S) (by simp) (by simp)]; rfl⟩
        | cons d z =>
          rw [List.cons_append, List.cons.injEq] at e2
          obtain ⟨rfl, e2⟩ := e2
          rw [run_append, bal_run hT hb (o :: S) (by simp) (by simp)]
          simp only [Option.bind_some, run, runStep, closer_not_opener hT hm, Bool.false_eq_true,
            ↓reduceIte, openerOf_eq hT hm]
          exact ih' z q S e2 h
      · obtain ⟨X, hX⟩ := ih p z (o :: S) rfl (by simp)
        exact ⟨X ++ [o], by rw [hX]; simp⟩

theorem balanced_first (hT : Table pairs) {o c c' : T} {inner inner' post post' : List T}
    (h : Balanced pairs (some o) inner) (h' : Balanced pairs (some o) inner') (hc : (o, c) ∈ pairs)
    (e : inner ++ c :: post = inner' ++ c' :: post') : ¬ inner.length < inner'.length := by
  intro hl
  have hp : inner' = (inner ++ [c]) ++ inner'.drop (inner.length + 1) := by
    have h1 : (inner ++ c :: post).take (inner.length + 1) = inner ++ [c] := by
      rw [List.take_append, List.take_of_length_le (by omega)]
      congr 1
      rw [show inner.length + 1 - inner.length = 1 by omega]
      rfl
    rw [e, List.take_append_of_le_length (by omega)] at h1
    rw [← h1, List.take_append_drop]
  obtain ⟨X, hX⟩ := bal_prefix hT (bal_balanced.mpr h') _ _ [o] hp (by simp)
  rw [run_append, bal_run hT (bal_balanced.mpr h) [o] (by simp) (by simp)] at hX
  simp only [Option.bind_some, run, runStep, closer_not_opener hT hc, Bool.false_eq_true,
    ↓reduceIte, openerOf_eq hT hc, Option.some.injEq] at hX
  have := congrArg List.length hX
  simp at this

theorem match_unique (hT : Table pairs) {tokens : List T} {lo hi hi' : Nat}
    (h : BracketsMatch pairs tokens lo hi) (h' : BracketsMatch pairs tokens lo hi') : hi = hi' := by
  obtain ⟨pre, o, inner, c, post, e1, e2, e3, e4, e5⟩ := h
  obtain ⟨pre', o', inner', c', post', d1, d2, d3, d4, d5⟩ := h'
  rw [e1] at d1
  have d6 := (List.append_inj d1 (e2.trans d2.symm)).2
  rw [List.cons.injEq] at d6
  obtain ⟨rfl, d7⟩ := d6
  have h1 := balanced_first hT e5 d5 e4 d7
  have h2 := balanced_first hT d5 e5 d4 d7.symm
  omega

/-! ### The brackets of a tree -/

mutual
/-- The positions of the brackets of a tree. -/
def bracketsIn : PNode → List (Nat × Nat)
  | .mk lo hi ann cs =>
    (if ann = .paired then
      match hi with
      | some (h + 1) => [(lo, h)]
      | _ => []
    else []) ++ bracketsAmong cs

/-- The positions of the brackets of several trees. -/
def bracketsAmong : List PNode → List (Nat × Nat)
  | [] => []
  | c :: cs => bracketsIn c ++ bracketsAmong cs
end

theorem bracketsIn_leaf (lo : Nat) (hi : Option Nat) {ann : PAnn} (h : ann ≠ .paired) :
    bracketsIn (.mk lo hi ann []) = [] := by
  simp [bracketsIn, bracketsAmong, h]

theorem bracketsIn_pair (i j : Nat) (ns : List PNode) :
    bracketsIn (.mk i (some (j + 1)) .paired [.mk i (some (i + 1)) .left [],
      .mk (i + 1) (some j) .middle ns, .mk j (some (j + 1)) .right []]) = (i, j) :: bracketsAmong ns := by
  simp [bracketsIn, bracketsAmong]

omit [DecidableEq T] in
theorem pairs_bounds {ctx : Option T} {i : Nat} {ts : List T} {ns : List PNode}
    (h : Forest pairs ctx i ts ns) : ∀ p ∈ bracketsAmong ns, i ≤ p.1 ∧ p.1 < p.2 ∧ p.2 < i + ts.length := by
  induction h with
  | nil => simp [bracketsAmong]
  | plain _ _ ih | stray _ _ _ ih =>
    intro p hp
    rw [bracketsAmong, bracketsIn_leaf _ _ (by simp), List.nil_append] at hp
    have := ih p hp
    rw [List.length_cons]
    omega
  | @bracket ctx o c i j inner ts ns ms hm hj _ _ ih ih' =>
    intro p hp
    rw [bracketsAmong, bracketsIn_pair, List.cons_append, List.mem_cons, List.mem_append] at hp
    simp only [List.length_cons, List.length_append]
    rcases hp with rfl | hp | hp
    · dsimp only
      omega
    · have := ih p hp
      omega
    · have := ih' p hp
      omega

/-- Two brackets are the same, or one is after the other, or one is within the other. -/
def Laminar (p q : Nat × Nat) : Prop :=
  p = q ∨ p.2 < q.1 ∨ q.2 < p.1 ∨ (p.1 < q.1 ∧ q.2 < p.2) ∨ (q.1 < p.1 ∧ p.2 < q.2)

omit [DecidableEq T] in
theorem pairs_laminar {ctx : Option T} {i : Nat} {ts : List T} {ns : List PNode}
    (h : Forest pairs ctx i ts ns) : ∀ p ∈ bracketsAmong ns, ∀ q ∈ bracketsAmong ns, Laminar p q := by
  induction h with
  | nil => simp [bracketsAmong]
  | plain _ _ ih | stray _ _ _ ih =>
    rw [bracketsAmong, bracketsIn_leaf _ _ (by simp), List.nil_append]
    exact ih
  | @bracket ctx o c i j inner ts ns ms hm hj h1 h2 ih ih' =>
    intro p hp q hq
    rw [bracketsAmong, bracketsIn_pair, List.cons_append, List.mem_cons, List.mem_append] at hp hq
    have b1 := pairs_bounds h1
    have b2 := pairs_bounds h2
    unfold Laminar
    rcases hp with rfl | hp | hp <;> rcases hq with rfl | hq | hq
    · exact .inl rfl
    · have := b1 q hq; dsimp only; omega
    · have := b2 q hq; dsimp only; omega
    · have := b1 p hp; dsimp only; omega
    · exact ih p hp q hq
    · have := b1 p hp; have := b2 q hq; omega
    · have := b2 p hp; dsimp only; omega
    · have := b2 p hp; have := b1 q hq; omega
    · exact ih' p hp q hq

omit [DecidableEq T] in
theorem pairs_nodup {ctx : Option T} {i : Nat} {ts : List T} {ns : List PNode}
    (h : Forest pairs ctx i ts ns) : (bracketsAmong ns).Nodup := by
  induction h with
  | nil => simp [bracketsAmong]
  | plain _ _ ih | stray _ _ _ ih =>
    rw [bracketsAmong, bracketsIn_leaf _ _ (by simp), List.nil_append]
    exact ih
  | @bracket ctx o c i j inner ts ns ms hm hj h1 h2 ih ih' =>
    have b1 := pairs_bounds h1
    have b2 := pairs_bounds h2
    rw [bracketsAmong, bracketsIn_pair, List.cons_append, List.nodup_cons, List.mem_append]
    refine ⟨?_, ih.append ih' fun p hp hp' => ?_⟩
    · rintro (hp | hp)
      · have := b1 _ hp; dsimp only at this; omega
      · have := b2 _ hp; dsimp only at this; omega
    · have := b1 _ hp; have := b2 _ hp'; omega

omit [DecidableEq T] in
theorem pairs_match {ctx : Option T} {i : Nat} {ts : List T} {ns : List PNode}
    (h : Forest pairs ctx i ts ns) : ∀ p ∈ bracketsAmong ns, ∃ pre o inner c post,
      ts = pre ++ o :: (inner ++ c :: post) ∧ i + pre.length = p.1 ∧ p.1 + 1 + inner.length = p.2
        ∧ (o, c) ∈ pairs ∧ Balanced pairs (some o) inner := by
  induction h with
  | nil => simp [bracketsAmong]
  | @plain ctx i t ts ns _ _ ih =>
    intro p hp
    rw [bracketsAmong, bracketsIn_leaf _ _ (by simp), List.nil_append] at hp
    obtain ⟨pre, o, inner, c, post, rfl, h1, h2⟩ := ih p hp
    exact ⟨t :: pre, o, inner, c, post, rfl, by rw [List.length_cons]; omega, h2⟩
  | @stray o o' t i ts ns _ _ _ ih =>
    intro p hp
    rw [bracketsAmong, bracketsIn_leaf _ _ (by simp), List.nil_append] at hp
    obtain ⟨pre, o, inner, c, post, rfl, h1, h2⟩ := ih p hp
    exact ⟨t :: pre, o, inner, c, post, rfl, by rw [List.length_cons]; omega, h2⟩
  | @bracket ctx o c i j inner ts ns ms hm hj h1 h2 ih ih' =>
    intro p hp
    rw [bracketsAmong, bracketsIn_pair, List.cons_append, List.mem_cons, List.mem_append] at hp
    rcases hp with rfl | hp | hp
    · exact ⟨[], o, inner, c, ts, rfl, rfl, hj.symm, hm, forest_balanced h1⟩
    · obtain ⟨pre, o2, inner2, c2, post, rfl, k1, k2⟩ := ih p hp
      exact ⟨o :: pre, o2, inner2, c2, post ++ c :: ts, by simp, by rw [List.length_cons]; omega, k2⟩
    · obtain ⟨pre, o2, inner2, c2, post, rfl, k1, k2⟩ := ih' p hp
      exact ⟨o :: (inner ++ c :: pre), o2, inner2, c2, post, by simp, by
        simp only [List.length_cons, List.length_append]; omega, k2⟩

omit [DecidableEq T] in
theorem opener_pair (hT : Table pairs) {ctx : Option T} {i : Nat} {ts : List T} {ns : List PNode}
    (h : Forest pairs ctx i ts ns) : ∀ k o, ts[k]? = some o → o ∈ pairs.map Prod.fst →
      ∃ hi, (i + k, hi) ∈ bracketsAmong ns := by
  induction h with
  | nil => simp
  | @plain ctx i t ts ns hp _ ih =>
    intro k o hk ho
    rw [bracketsAmong, bracketsIn_leaf _ _ (by simp), List.nil_append]
    cases k with
    | zero =>
      cases hk
      exact absurd ho hp.1
    | succ k =>
      obtain ⟨hi, h⟩ := ih k o hk ho
      exact ⟨hi, by rw [show i + (k + 1) = i + 1 + k by omega]; exact h⟩
  | @stray o o' t i ts ns hm _ _ ih =>
    intro k o hk ho
    rw [bracketsAmong, bracketsIn_leaf _ _ (by simp), List.nil_append]
    cases k with
    | zero =>
      cases hk
      exact absurd (List.mem_map.mpr ⟨_, hm, rfl⟩) (hT.disjoint _ ho)
    | succ k =>
      obtain ⟨hi, h⟩ := ih k o hk ho
      exact ⟨hi, by rw [show i + (k + 1) = i + 1 + k by omega]; exact h⟩
  | @bracket ctx o c i j inner ts ns ms hm hj h1 h2 ih ih' =>
    intro k o2 hk ho
    rw [bracketsAmong, bracketsIn_pair]
    cases k with
    | zero => exact ⟨j, by simp⟩
    | succ k =>
      rw [List.getElem?_cons_succ] at hk
      rcases lt_trichotomy k inner.length with hl | hl | hl
      · rw [List.getElem?_append_left hl] at hk
        obtain ⟨hi, h⟩ := ih k o2 hk ho
        refine ⟨hi, ?_⟩
        rw [show i + (k + 1) = i + 1 + k by omega]
        simp [h]
      · rw [List.getElem?_append_right (by omega), hl, Nat.sub_self] at hk
        cases hk
        exact absurd (List.mem_map.mpr ⟨_, hm, rfl⟩) (hT.disjoint _ ho)
      · rw [List.getElem?_append_right (by omega)] at hk
        obtain ⟨r, hr⟩ : ∃ r, k - inner.length = r + 1 := ⟨k - inner.length - 1, by omega⟩
        rw [hr, List.getElem?_cons_succ] at hk
        obtain ⟨hi, h⟩ := ih' r o2 hk ho
        refine ⟨hi, ?_⟩
        rw [show i + (k + 1) = j + 1 + r by omega]
        simp [h]

/-- The brackets of the tree are those that belong together. -/
theorem brackets_iff (hT : Table pairs) {tokens : List T} {ns : List PNode} (h : Forest pairs none 0 tokens ns)
    (lo hi : Nat) : (lo, hi) ∈ bracketsAmong ns ↔ BracketsMatch pairs tokens lo hi := by
  have h1 : ∀ lo hi, (lo, hi) ∈ bracketsAmong ns → BracketsMatch pairs tokens lo hi := by
    intro lo hi hp
    obtain ⟨pre, o, inner, c, post, e1, e2, e3, e4, e5⟩ := pairs_match h _ hp
    exact ⟨pre, o, inner, c, post, e1, by dsimp only at e2; omega, e3, e4, e5⟩
  refine ⟨h1 lo hi, fun hm => ?_⟩
  have hm' := hm
  obtain ⟨pre, o, inner, c, post, e1, e2, e3, e4, e5⟩ := hm
  obtain ⟨hi', hp⟩ := opener_pair hT h lo o (by rw [e1, ← e2]; simp) (List.mem_map.mpr ⟨_, e4, rfl⟩)
  rw [Nat.zero_add] at hp
  rw [match_unique hT hm' (h1 _ _ hp)]
  exact hp

end RUSure.Lemmas
