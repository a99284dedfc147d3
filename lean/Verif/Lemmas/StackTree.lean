import Verif.Lemmas.StackMatch

/-!
# Trees of bracket matching
-/

namespace RUSure.Lemmas
open RUSure RUSure.Spec
variable {T : Type} [DecidableEq T] {pairs : List (T × T)}

/-! ### Which streams are accepted -/

theorem matchLoop_run (tol : Bool) : ∀ (ts : List T) (i : Nat) (st : MatchState T),
    (∀ st', matchLoop pairs tol i ts st = .ok st' →
      run pairs tol true (st.stack.map OpenGroup.opener) ts = some (st'.stack.map OpenGroup.opener))
    ∧ (∀ e, matchLoop pairs tol i ts st = .error e →
      e = .parse ∧ tol = false ∧ run pairs tol true (st.stack.map OpenGroup.opener) ts = none)
  | [], i, st => by
    constructor
    · intro st' h
      simp only [matchLoop, Except.ok.injEq] at h
      subst h; rfl
    · intro e h; simp [matchLoop] at h
  | t :: ts, i, ⟨stack, cs⟩ => by
    simp only [matchLoop, matchStep, run, runStep]
    by_cases ho : isOpener pairs t = true
    · simp only [ho, ↓reduceIte, Option.bind_some]
      exact matchLoop_run tol ts (i + 1) ⟨⟨t, i, cs⟩ :: stack, []⟩
    · simp only [ho, Bool.false_eq_true, ↓reduceIte]
      cases hop : openerOf pairs t with
      | none =>
        simp only [Option.bind_some]
        exact matchLoop_run tol ts (i + 1) ⟨stack, cs ++ [leafNode i]⟩
      | some o =>
        cases stack with
        | nil =>
          simp only [List.map_nil, Option.bind_some]
          exact matchLoop_run tol ts (i + 1) ⟨[], cs⟩
        | cons g gs =>
          simp only [List.map_cons]
          by_cases hg : g.opener = o
          · simp only [hg, ↓reduceIte, Option.bind_some]
            exact matchLoop_run tol ts (i + 1) ⟨gs, g.before ++ [pairedNode g.lo i cs]⟩
          · simp only [hg, ↓reduceIte]
            cases tol with
            | true =>
              simp only [↓reduceIte, Option.bind_some]
              exact matchLoop_run true ts (i + 1) ⟨g :: gs, cs ++ [leafNode i]⟩
            | false => simp

theorem matchLoop_tolerant (i : Nat) (ts : List T) (st : MatchState T) :
    ∃ st', matchLoop pairs true i ts st = .ok st' := by
  cases h : matchLoop pairs true i ts st with
  | ok st' => exact ⟨st', rfl⟩
  | error e => exact absurd ((matchLoop_run true ts i st).2 e h).2.1 (by simp)

theorem bracketMatch_tolerant (ts : List T) : ∃ root, bracketMatch pairs true ts = .ok root := by
  obtain ⟨st, h⟩ := matchLoop_tolerant (pairs := pairs) 0 ts ⟨[], []⟩
  exact ⟨_, by simp only [bracketMatch, h]; simp; rfl⟩

omit [DecidableEq T] in
theorem besides_bal {ts : List T} :
    Bal pairs false true none ts ↔ BalancedBesidesClosers pairs ts := by
  constructor
  · intro h
    generalize hc : (none : Option T) = ctx at h
    induction h with
    | nil => exact .nil
    | plain h _ ih => exact .plain h (ih hc)
    | stray h => cases h
    | dropped _ h _ ih => exact .closer (mem_closer h) (ih hc)
    | bracket h hi _ _ ih' => exact .bracket h (bal_strict hi (.inr (by simp))) (ih' hc)
  · intro h
    induction h with
    | nil => exact .nil _
    | plain h _ ih => exact .plain h ih
    | closer h _ ih =>
      obtain ⟨⟨o, c⟩, hm, rfl⟩ := List.mem_map.mp h
      exact .dropped rfl hm ih
    | bracket h hi _ ih => exact .bracket h (strict_bal hi _) ih

theorem bracketMatch_strict (hT : Table pairs) (ts : List T) :
    (∃ root, bracketMatch pairs false ts = .ok root) ↔ BalancedBesidesClosers pairs ts := by
  rw [← besides_bal, bal_iff_run hT]
  obtain ⟨h1, h2⟩ := matchLoop_run (pairs := pairs) false ts 0 ⟨[], []⟩
  cases h : matchLoop pairs false 0 ts ⟨[], []⟩ with
  | error e =>
    simp only [bracketMatch, h]
    obtain ⟨rfl, -, h3⟩ := h2 e h
    simp only [List.map_nil] at h3
    simp [h3]
  | ok st =>
    have h3 := h1 st h
    simp only [List.map_nil] at h3
    simp only [bracketMatch, h, h3]
    cases hs : st.stack with
    | nil => simp
    | cons g gs => simp

/-! ### Trees -/

omit [DecidableEq T] in
theorem ranges_append {a b c : Nat} {ns ms : List PNode} (h : RangesTile a b ns)
    (h' : RangesTile b c ms) : RangesTile a c (ns ++ ms) := by
  induction ns generalizing a with
  | nil => cases h; exact h'
  | cons n ns ih =>
    cases h with
    | cons h1 h2 => exact .cons h1 (ih h2)

theorem ranges_le : ∀ (ns : List PNode) {a b : Nat}, RangesTile a b ns → a ≤ b
  | [], a, b, h => by cases h; exact Nat.le_refl _
  | [.mk _ _ _ cs], a, b, h => by
    cases h with
    | cons h1 h2 =>
      cases h2
      cases h1 with
      | leaf h => exact h
      | inner _ h => exact ranges_le cs h
  | .mk _ _ _ cs :: n' :: ns, a, b, h => by
    cases h with
    | cons h1 h2 =>
      refine Nat.le_trans ?_ (ranges_le (n' :: ns) h2)
      cases h1 with
      | leaf h => exact h
      | inner _ h => exact ranges_le cs h

theorem leafRangesList_append (ns ms : List PNode) :
    leafRangesList (ns ++ ms) = leafRangesList ns ++ leafRangesList ms := by
  induction ns with
  | nil => simp [leafRangesList]
  | cons n ns ih => simp [leafRangesList, ih]

/-- The leaves that cover some token, in several trees. -/
def tokenLeavesList (ns : List PNode) : List (Nat × Option Nat) :=
  (leafRangesList ns).filter fun r => r.2 != some r.1

theorem tokenLeavesList_append (ns ms : List PNode) :
    tokenLeavesList (ns ++ ms) = tokenLeavesList ns ++ tokenLeavesList ms := by
  simp [tokenLeavesList, leafRangesList_append]

/-- The leaves of consecutive tokens. -/
def singles (i n : Nat) : List (Nat × Option Nat) := (List.range' i n).map fun k => (k, some (k + 1))

theorem singles_append (i m n : Nat) : singles i (m + n) = singles i m ++ singles (i + m) n := by
  simp [singles, List.range'_append_1, ← List.map_append]

theorem singles_one (i : Nat) : singles i 1 = [(i, some (i + 1))] := rfl

/-- What is known about the trees for the tokens from position `i` on. -/
structure TreesOk (pairs : List (T × T)) (tokens : List T) (i n : Nat) (ns : List PNode) : Prop where
  tile : RangesTile i (i + n) ns
  leaves : tokenLeavesList ns = singles i n
  brackets : ∀ m, InTrees m ns → m.ann = .paired → IsBracket pairs tokens m
  long : ∀ m ∈ ns, ∃ h, m.hi = some h ∧ m.lo < h
  anns : ∀ m ∈ ns, m.ann = .paired ∨ m.ann = .sibling

omit [DecidableEq T] in
theorem inTrees_append {m : PNode} {ns ms : List PNode} :
    InTrees m (ns ++ ms) ↔ InTrees m ns ∨ InTrees m ms := by
  induction ns with
  | nil =>
    simp only [List.nil_append]
    exact ⟨.inr, fun h => h.elim (fun h => by cases h) id⟩
  | cons n ns ih =>
    constructor
    · intro h
      cases h with
      | here h => exact .inl (.here h)
      | there h => exact (ih.mp h).imp .there id
    · rintro (h | h)
      · cases h with
        | here h => exact .here h
        | there h => exact .there (ih.mpr (.inl h))
      · exact .there (ih.mpr (.inr h))

omit [DecidableEq T] in
theorem TreesOk.append {tokens : List T} {i m n : Nat} {ns ms : List PNode}
    (h : TreesOk pairs tokens i m ns) (h' : TreesOk pairs tokens (i + m) n ms) :
    TreesOk pairs tokens i (m + n) (ns ++ ms) where
  tile := by rw [← Nat.add_assoc]; exact ranges_append h.tile h'.tile
  leaves := by rw [tokenLeavesList_append, h.leaves, h'.leaves, singles_append]
  brackets x hx hp := (inTrees_append.mp hx).elim (h.brackets x · hp) (h'.brackets x · hp)
  long x hx := (List.mem_append.mp hx).elim (h.long x) (h'.long x)
  anns x hx := (List.mem_append.mp hx).elim (h.anns x) (h'.anns x)

omit [DecidableEq T] in
theorem TreesOk.nil {tokens : List T} {i : Nat} : TreesOk pairs tokens i 0 [] where
  tile := .nil _
  leaves := by simp [tokenLeavesList, leafRangesList, singles]
  brackets x hx := by cases hx
  long := by simp
  anns := by simp

omit [DecidableEq T] in
theorem inTree_leaf {m : PNode} {lo hi ann} (h : InTree m (.mk lo hi ann [])) :
    m = .mk lo hi ann [] := by
  cases h with
  | self => rfl
  | child h => cases h

omit [DecidableEq T] in
theorem TreesOk.leaf {tokens : List T} {i : Nat} : TreesOk pairs tokens i 1 [leafNode i] where
  tile := .cons (.leaf (Nat.le_succ i)) (.nil _)
  leaves := by simp [tokenLeavesList, leafRangesList, leafRanges, leafNode, singles_one]
  brackets x hx hp := by
    cases hx with
    | here h => rw [inTree_leaf h] at hp; cases hp
    | there h => cases h
  long := by simp [leafNode, PNode.hi, PNode.lo]
  anns := by simp [leafNode, PNode.ann]

omit [DecidableEq T] in
theorem TreesOk.paired {tokens : List T} {i n : Nat} {ns : List PNode} {o c : T}
    (h : TreesOk pairs tokens (i + 1) n ns) (ho : tokens[i]? = some o)
    (hc : tokens[i + 1 + n]? = some c) (hm : (o, c) ∈ pairs) :
    TreesOk pairs tokens i (n + 2) [pairedNode i (i + 1 + n) ns] where
  tile := by
    refine .cons (.inner (by simp) (.cons (.leaf (Nat.le_succ i)) ?_)) ?_
    · refine .cons (mid := i + 1 + n) ?_ (.cons (.leaf (Nat.le_succ _)) (.nil _))
      cases ns with
      | nil => exact .leaf (by omega)
      | cons m ns => exact .inner (by simp) h.tile
    · rw [show i + (n + 2) = i + 1 + n + 1 by omega]
      exact .nil _
  leaves := by
    have hl := h.leaves
    rw [show n + 2 = 1 + (n + 1) by omega, singles_append, singles_append, singles_one, singles_one,
      ← hl]
    unfold tokenLeavesList pairedNode
    cases ns with
    | nil =>
      have : n = 0 := by
        simp only [tokenLeavesList, leafRangesList, List.filter_nil, singles] at hl
        simpa using hl.symm
      subst this
      simp [leafRangesList, leafRanges]
    | cons m ns =>
      simp [leafRangesList, leafRanges]
  brackets x hx hp := by
    cases hx with
    | there h => cases h
    | here hx =>
      cases hx with
      | self => exact ⟨i, i + 1 + n, o, c, ns, rfl, ho, hc, hm⟩
      | child hx =>
        cases hx with
        | here h => rw [inTree_leaf h] at hp; cases hp
        | there hx =>
          cases hx with
          | here h' =>
            cases h' with
            | self => cases hp
            | child h' => exact h.brackets x h' hp
          | there hx =>
            cases hx with
            | here h => rw [inTree_leaf h] at hp; cases hp
            | there h => cases h
  long := by
    simp only [List.mem_singleton, forall_eq]
    exact ⟨_, rfl, by simp [pairedNode, PNode.lo]; omega⟩
  anns := by
    simp only [List.mem_singleton, forall_eq]
    exact .inl rfl

/-- Matching a balanced part of the stream. -/
theorem bal_match (hT : Table pairs) {tol : Bool} {ctx : Option T} {ts : List T}
    (h : Bal pairs tol false ctx ts) : ∀ (tokens pre r : List T) (st : MatchState T),
      tokens = pre ++ (ts ++ r) →
      (∀ o, ctx = some o → (st.stack.map OpenGroup.opener).head? = some o) →
      ∃ ns, matchLoop pairs tol pre.length (ts ++ r) st
          = matchLoop pairs tol (pre.length + ts.length) r ⟨st.stack, st.children ++ ns⟩
        ∧ TreesOk pairs tokens pre.length ts.length ns := by
  induction h with
  | nil =>
    intro tokens pre r st _ _
    exact ⟨[], by simp, .nil⟩
  | @plain ctx t ts hp _ ih =>
    intro tokens pre r st htk h
    obtain ⟨h1, h2⟩ := plain_step hp
    obtain ⟨ns, h3, h4⟩ := ih tokens (pre ++ [t]) r ⟨st.stack, st.children ++ [leafNode pre.length]⟩
      (by rw [htk]; simp) h
    refine ⟨leafNode pre.length :: ns, ?_, ?_⟩
    · simp only [List.cons_append, matchLoop, matchStep, h1, Bool.false_eq_true, ↓reduceIte, h2]
      simp only [List.length_append, List.length_cons, List.length_nil, List.append_assoc] at h3
      rw [show pre.length + (t :: ts).length = pre.length + (0 + 1) + ts.length by simp; omega]
      exact h3
    · have := TreesOk.append (pairs := pairs) (tokens := tokens) (i := pre.length) TreesOk.leaf
        (by simpa using h4)
      rw [List.length_cons, Nat.add_comm]
      exact this
  | @stray o o' c ts ht hm hne _ ih =>
    intro tokens pre r st htk h
    subst ht
    obtain ⟨stack, cs⟩ := st
    have hS := h o rfl
    cases stack with
    | nil => cases hS
    | cons g gs =>
      simp only [List.map_cons, List.head?_cons, Option.some.injEq] at hS
      obtain ⟨ns, h3, h4⟩ := ih tokens (pre ++ [c]) r ⟨g :: gs, cs ++ [leafNode pre.length]⟩
        (by rw [htk]; simp) h
      refine ⟨leafNode pre.length :: ns, ?_, ?_⟩
      · simp only [List.cons_append, matchLoop, matchStep, closer_not_opener hT hm,
          Bool.false_eq_true, ↓reduceIte, openerOf_eq hT hm, hS, hne.symm]
        simp only [List.length_append, List.length_cons, List.length_nil, List.append_assoc] at h3
        rw [show pre.length + (c :: ts).length = pre.length + (0 + 1) + ts.length by simp; omega]
        exact h3
      · have := TreesOk.append (pairs := pairs) (tokens := tokens) (i := pre.length) TreesOk.leaf
          (by simpa using h4)
        rw [List.length_cons, Nat.add_comm]
        exact this
  | dropped hd => cases hd
  | @bracket ctx o c inner ts hm _ _ ih ih' =>
    intro tokens pre r st htk h
    have ho : isOpener pairs o = true := isOpener_iff.mpr (mem_opener hm)
    obtain ⟨ns, h1, h2⟩ := ih tokens (pre ++ [o]) (c :: (ts ++ r))
      ⟨⟨o, pre.length, st.children⟩ :: st.stack, []⟩ (by rw [htk]; simp) (by simp)
    obtain ⟨ms, h3, h4⟩ := ih' tokens (pre ++ [o] ++ inner ++ [c]) r
      ⟨st.stack, st.children ++ [pairedNode pre.length (pre.length + 1 + inner.length) ns]⟩
      (by rw [htk]; simp) h
    refine ⟨pairedNode pre.length (pre.length + 1 + inner.length) ns :: ms, ?_, ?_⟩
    · simp only [List.cons_append, List.append_assoc, matchLoop, matchStep, ho, ↓reduceIte]
      simp only [List.length_append, List.length_cons, List.length_nil, Nat.zero_add,
        List.nil_append] at h1 h3
      rw [h1]
      simp only [matchLoop, matchStep, closer_not_opener hT hm, Bool.false_eq_true, ↓reduceIte,
        openerOf_eq hT hm]
      rw [h3]
      simp only [List.append_assoc, List.singleton_append, List.length_cons, List.length_append]
      congr 1
      omega
    · have h5 : TreesOk pairs tokens pre.length (inner.length + 2)
          [pairedNode pre.length (pre.length + 1 + inner.length) ns] := by
        refine TreesOk.paired (o := o) (c := c) (by simpa using h2) ?_ ?_ hm
        · rw [htk]; simp
        · rw [htk, show pre ++ (o :: (inner ++ c :: ts) ++ r) = (pre ++ o :: inner) ++ c :: (ts ++ r) by
            simp]
          rw [List.getElem?_append_right (by simp; omega)]
          simp only [List.length_append, List.length_cons]
          rw [show pre.length + 1 + inner.length - (pre.length + (inner.length + 1)) = 0 by omega]
          rfl
      have := h5.append (n := ts.length) (ms := ms) (by
        have h6 := h4
        simp only [List.length_append, List.length_cons, List.length_nil] at h6
        rw [show pre.length + (inner.length + 2) = pre.length + (0 + 1) + inner.length + (0 + 1) by omega]
        exact h6)
      rw [show (o :: (inner ++ c :: ts)).length = inner.length + 2 + ts.length by simp; omega]
      exact this

/-- Matching a balanced stream. -/
theorem bracketMatch_bal (hT : Table pairs) {tol : Bool} {ts : List T}
    (h : Bal pairs tol false none ts) : ∃ ns,
      bracketMatch pairs tol ts = .ok (.mk 0 (some ts.length) .root ns)
        ∧ TreesOk pairs ts 0 ts.length ns := by
  obtain ⟨ns, h1, h2⟩ := bal_match hT h ts [] [] ⟨[], []⟩ (by simp) (by simp)
  refine ⟨ns, ?_, by simpa using h2⟩
  simp only [List.append_nil, List.length_nil, matchLoop] at h1
  simp only [bracketMatch, h1]
  simp [closeUp]

/-- Matching a balanced part of the stream gives its trees. -/
theorem bal_forest (hT : Table pairs) {ctx : Option T} {ts : List T} (h : Balanced pairs ctx ts) :
    ∀ (i : Nat) (r : List T) (st : MatchState T),
      (∀ o, ctx = some o → (st.stack.map OpenGroup.opener).head? = some o) →
      ∃ ns, matchLoop pairs true i (ts ++ r) st
          = matchLoop pairs true (i + ts.length) r ⟨st.stack, st.children ++ ns⟩
        ∧ Forest pairs ctx i ts ns := by
  induction h with
  | nil =>
    intro i r st _
    exact ⟨[], by simp, .nil⟩
  | @plain ctx t ts hp _ ih =>
    intro i r st h
    obtain ⟨h1, h2⟩ := plain_step hp
    obtain ⟨ns, h3, h4⟩ := ih (i + 1) r ⟨st.stack, st.children ++ [leafNode i]⟩ h
    refine ⟨leafNode i :: ns, ?_, .plain hp h4⟩
    simp only [List.cons_append, matchLoop, matchStep, h1, Bool.false_eq_true, ↓reduceIte, h2]
    rw [h3]
    simp only [List.append_assoc, List.singleton_append, List.length_cons]
    congr 1
    omega
  | @stray o o' c ts hm hne _ ih =>
    intro i r st h
    obtain ⟨stack, cs⟩ := st
    have hS := h o rfl
    cases stack with
    | nil => cases hS
    | cons g gs =>
      simp only [List.map_cons, List.head?_cons, Option.some.injEq] at hS
      obtain ⟨ns, h3, h4⟩ := ih (i + 1) r ⟨g :: gs, cs ++ [leafNode i]⟩ h
      refine ⟨leafNode i :: ns, ?_, .stray hm hne h4⟩
      simp only [List.cons_append, matchLoop, matchStep, closer_not_opener hT hm,
        Bool.false_eq_true, ↓reduceIte, openerOf_eq hT hm, hS, hne.symm]
      rw [h3]
      simp only [List.append_assoc, List.singleton_append, List.length_cons]
      congr 1
      omega
  | @bracket ctx o c inner ts hm _ _ ih ih' =>
    intro i r st h
    have ho : isOpener pairs o = true := isOpener_iff.mpr (mem_opener hm)
    obtain ⟨ns, h1, h2⟩ := ih (i + 1) (c :: (ts ++ r)) ⟨⟨o, i, st.children⟩ :: st.stack, []⟩ (by simp)
    obtain ⟨ms, h3, h4⟩ := ih' (i + 1 + inner.length + 1) r
      ⟨st.stack, st.children ++ [pairedNode i (i + 1 + inner.length) ns]⟩ h
    refine ⟨pairedNode i (i + 1 + inner.length) ns :: ms, ?_, .bracket hm rfl h2 h4⟩
    simp only [List.cons_append, List.append_assoc, matchLoop, matchStep, ho, ↓reduceIte]
    rw [h1]
    simp only [matchLoop, matchStep, closer_not_opener hT hm, Bool.false_eq_true, ↓reduceIte,
      openerOf_eq hT hm, List.nil_append]
    rw [h3]
    simp only [List.append_assoc, List.singleton_append, List.length_cons, List.length_append]
    congr 1
    omega

theorem bracketMatch_forest (hT : Table pairs) {ts : List T} (h : Balanced pairs none ts) :
    ∃ ns, bracketMatch pairs true ts = .ok (.mk 0 (some ts.length) .root ns)
      ∧ Forest pairs none 0 ts ns := by
  obtain ⟨ns, h1, h2⟩ := bal_forest hT h 0 [] ⟨[], []⟩ (by simp)
  refine ⟨ns, ?_, h2⟩
  simp only [List.append_nil, matchLoop] at h1
  simp only [bracketMatch, h1]
  simp [closeUp]

/-! ### Range checks -/

theorem tile_shape : ∀ (ns : List PNode) (n : PNode) {a b : Nat}, RangesTile a b (n :: ns) →
    n.lo = a ∧ (n :: ns).getLast?.map PNode.hi = some (some b)
      ∧ (ns.map fun n => some n.lo) = (n :: ns).dropLast.map PNode.hi
  | [], .mk _ _ _ _, a, b, h => by
    cases h with
    | cons h1 h2 => cases h2; exact ⟨rfl, rfl, rfl⟩
  | m :: ns, .mk _ _ _ _, a, b, h => by
    cases h with
    | cons h1 h2 =>
      obtain ⟨h3, h4, h5⟩ := tile_shape ns m h2
      refine ⟨rfl, ?_, ?_⟩
      · rw [List.getLast?_cons_cons]; exact h4
      · rw [List.map_cons, h5, h3, List.dropLast_cons_cons, List.map_cons]
        rfl

mutual
theorem check_of_range : ∀ (n : PNode), RangeOk n → n.check = true
  | .mk lo hi ann cs, h => by
    have hr := fun a b => check_of_tile cs (a := a) (b := b)
    cases h with
    | leaf => simp [PNode.check]
    | @inner _ hi _ _ hne h3 =>
      match cs, hne, h3, hr with
      | c :: cs', _, h3, hr =>
        obtain ⟨h4, h5, h6⟩ := tile_shape cs' c h3
        simp only [PNode.check, Bool.and_eq_true, beq_iff_eq]
        exact ⟨⟨⟨⟨h4.symm, h5.symm⟩, rfl⟩, h6⟩, hr _ _ h3⟩

theorem check_of_tile : ∀ (ns : List PNode) {a b : Nat}, RangesTile a b ns →
    PNode.checkList ns = true
  | [], _, _, _ => by simp [PNode.checkList]
  | n :: ns, a, b, h => by
    have hr := check_of_range n
    have hr' := fun a b => check_of_tile ns (a := a) (b := b)
    simp only [PNode.checkList, Bool.and_eq_true]
    cases h with
    | cons h1 h2 => exact ⟨hr h1, hr' _ _ h2⟩
end

theorem valid_of_range {root : PNode} {n : Nat} (h : RangeOk root) (h0 : root.lo = 0)
    (hn : root.hi = some n) : validParseRanges root n = true := by
  simp [validParseRanges, h0, hn, check_of_range root h]

omit [DecidableEq T] in
theorem TreesOk.root {tokens : List T} {ns : List PNode} {ann : PAnn}
    (h : TreesOk pairs tokens 0 tokens.length ns) :
    RangeOk (.mk 0 (some tokens.length) ann ns) := by
  have := h.tile
  rw [Nat.zero_add] at this
  cases ns with
  | nil => exact .leaf (Nat.zero_le _)
  | cons n ns => exact .inner (by simp) this

end RUSure.Lemmas
