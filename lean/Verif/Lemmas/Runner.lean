import Verif.Lemmas.CallBaselines
import Verif.Props.CallSequence
import Verif.Props.Solution
import Verif.Props.Transforms
import Verif.Spec.Runner

/-!
# Lemmas about combining samples
-/

namespace RUSure.Lemmas
open RUSure RUSure.Spec RUSure.Props

variable {M : Type}

/-! ## Decisions in trees -/

theorem free_iff_leaves : (∀ n : Node M, DecisionFree [n] ↔ ∀ x ∈ leavesN n, x.isDecision = false)
    ∧ ∀ l : List (Node M), DecisionFree l ↔ ∀ x ∈ leaves l, x.isDecision = false := by
  apply Node.induct
  case hg =>
    intro cs mt ih
    simp [decisionFree_cons, decisionFree_nil, leavesN, ih, Node.isDecision]
  case hcons =>
    intro n ns h1 h2
    rw [← List.singleton_append, decisionFree_append, h1, h2]
    simp only [List.singleton_append, leaves, List.mem_append]
    exact ⟨fun h x hx => hx.elim (h.1 x) (h.2 x), fun h => ⟨fun x hx => h x (.inl hx), fun x hx => h x (.inr hx)⟩⟩
  case hnil => simp [leaves, decisionFree_nil]
  all_goals intros; simp [decisionFree_cons, decisionFree_nil, leavesN, Node.isDecision]

theorem exit_iff_leaves : (∀ n : Node M, Occurs [n] .exit ↔ .exit ∈ leavesN n)
    ∧ ∀ l : List (Node M), Occurs l .exit ↔ .exit ∈ leaves l := by
  apply Node.induct
  case hcons =>
    intro n ns h1 h2
    rw [← List.singleton_append, occurs_append, h1, h2]
    simp [leaves]
  case hnil => simp [leaves, not_occurs_nil]
  case hg =>
    intro cs mt ih
    simp [occurs_cons, not_occurs_nil, leavesN, ih]
  all_goals intros; simp [occurs_cons, not_occurs_nil, leavesN]

theorem mem_leaves_truncate {seq : List (Node M)} {n : Nat} {x : Node M}
    (hx : x ∈ leaves (truncatePrefix seq n)) :
    ∃ y ∈ leaves seq, x = y ∨ (IsTextLeaf y ∧ ∃ t, x = withText t y) := by
  rcases C09_truncate_leaves seq n with ⟨h, -⟩ | ⟨pre, y, rest, h1, h2, -, -, h5⟩
  · rw [h] at hx
    simp [leaves] at hx
  · rw [h5] at hx
    rcases List.mem_append.1 hx with hx | hx
    · split at hx
      · simp at hx
      · simp only [List.mem_singleton] at hx
        exact ⟨y, by rw [h1]; simp, .inr ⟨h2, _, hx⟩⟩
    · exact ⟨x, by rw [h1]; simp [hx], .inl rfl⟩

theorem truncate_free {seq : List (Node M)} (h : DecisionFree seq) (n : Nat) :
    DecisionFree (truncatePrefix seq n) := by
  rw [free_iff_leaves.2] at h ⊢
  intro x hx
  obtain ⟨y, hy, rfl | ⟨hy', t, rfl⟩⟩ := mem_leaves_truncate hx
  · exact h x hy
  · cases y <;> simp_all [IsTextLeaf, withText, Node.isDecision]

theorem truncate_noExit {seq : List (Node M)} (h : ¬ Occurs seq .exit) (n : Nat) :
    ¬ Occurs (truncatePrefix seq n) .exit := by
  rw [exit_iff_leaves.2] at h ⊢
  intro hx
  obtain ⟨y, hy, h1 | ⟨hy', t, h1⟩⟩ := mem_leaves_truncate hx
  · exact h (h1 ▸ hy)
  · cases y with
    | deco => cases h1
    | tok => cases h1
    | _ => exact hy'

theorem regions_noExit (ae : Bool) (f : Node M → Bool) :
    (∀ n : Node M, .exit ∉ leavesN n → .exit ∉ leaves (insertRegionsNode ae f n))
    ∧ ∀ l : List (Node M), .exit ∉ leaves l → .exit ∉ leaves (insertRegionsLoop ae f l) := by
  have hw : ∀ (acc : Bool) (n : Node M), .exit ∉ leavesN n → .exit ∉ leaves (wrapRegion ae acc n) := by
    intro acc n h
    unfold wrapRegion
    cases acc <;> cases ae <;> simp [leaves, leavesN, h]
  have ht : .exit ∉ leaves (trailingRegion ae : List (Node M)) := by
    unfold trailingRegion
    cases ae <;> simp [leaves, leavesN]
  apply Node.induct
  case hg =>
    intro cs mt ih h
    unfold insertRegionsNode
    apply hw
    simp only [leavesN, leaves_append, List.mem_append, not_or] at h ⊢
    exact ⟨ih h, ht⟩
  case hcons =>
    intro n ns h1 h2 h
    simp only [leaves, List.mem_append, not_or, insertRegionsLoop, leaves_append] at h ⊢
    exact ⟨h1 h.1, h2 h.2⟩
  case hnil => simp [leaves, insertRegionsLoop]
  case htok => intro t mt h; unfold insertRegionsNode; exact hw _ _ h
  all_goals intros; simp_all [leavesN, insertRegionsNode, leaves]

theorem free_noExit {seq : List (Node M)} (h : DecisionFree seq) : ¬ Occurs seq .exit :=
  fun ho => by simpa [Node.isDecision] using h _ ho

theorem insertRegions_noExit {seq : List (Node M)} (h : ¬ Occurs seq .exit) (ae : Bool) (f : Node M → Bool) :
    ¬ Occurs (insertRegions seq ae f) .exit := by
  rw [exit_iff_leaves.2] at h ⊢
  unfold insertRegions
  rw [leaves_append, List.mem_append, not_or]
  refine ⟨(regions_noExit ae f).2 seq h, ?_⟩
  unfold trailingRegion
  cases ae <;> simp [leaves, leavesN]

/-! ## Text of the nodes of a tree -/

theorem walk_leafText : (∀ (n : Node M) (p : List Nat),
      (walkNode true false p n).flatMap (fun x => leafText x.1) = (leavesN n).flatMap leafText)
    ∧ ∀ (l : List (Node M)) (p : List Nat) (i : Nat),
      (walkFrom true false p i l).flatMap (fun x => leafText x.1) = (leaves l).flatMap leafText := by
  apply Node.induct (Q := fun l => ∀ (p : List Nat) (i : Nat),
      (walkFrom true false p i l).flatMap (fun x => leafText x.1) = (leaves l).flatMap leafText)
  case hg =>
    intro cs mt ih p
    have := ih p 0
    simp only [walkNode, ↓reduceIte, Bool.false_eq_true, List.append_nil, List.singleton_append,
      List.flatMap_cons, leavesN, this]
    rfl
  case hcons => intro n ns h1 h2 p i; simp [walkFrom, leaves, h1, h2]
  case hnil => intros; rfl
  all_goals intros; simp [walkNode, leavesN, leafText]

theorem placed_leafText (proto : List (Node M)) :
    (placed proto).flatMap (fun x => x.text.getD []) = text proto := by
  have h : ∀ x : Placed M, x.text.getD [] = leafText x.node := by
    intro x
    unfold Placed.text
    cases x.node <;> rfl
  have h' : ∀ l : List (Node M × List Nat × WalkTag), ∀ k,
      ((l.zipIdx k).map fun x => (⟨x.2, x.1.2.1, x.1.1⟩ : Placed M)).flatMap (fun x => leafText x.node)
        = l.flatMap fun x => leafText x.1 := by
    intro l
    induction l with
    | nil => intro k; rfl
    | cons a l ih => intro k; simp [List.zipIdx_cons, ih]
  simp only [h]
  unfold placed text
  rw [h']
  exact walk_leafText.2 proto [] 0

theorem kept_text_prefix (proto : List (Node M)) (α : DecisionKey → DecisionValue) :
    (kept α proto).flatMap (fun x => x.text.getD []) <+: text proto := by
  rw [← placed_leafText]
  obtain ⟨r, hr⟩ := List.takeWhile_prefix (p := fun x : Placed M => !x.exits α) (l := placed proto)
  conv_rhs => rw [← hr, List.flatMap_append]
  exact List.prefix_append _ _

theorem placed_leaf {proto : List (Node M)} {x : Placed M} (hx : x ∈ placed proto)
    (he : x.node.isGroup = false) : x.node ∈ leaves proto := by
  have hw : (∀ (n : Node M) (p : List Nat), ∀ y ∈ walkNode true false p n, y.1.isGroup = false → y.1 ∈ leavesN n)
      ∧ ∀ (l : List (Node M)) (p : List Nat) (i : Nat), ∀ y ∈ walkFrom true false p i l,
        y.1.isGroup = false → y.1 ∈ leaves l := by
    apply Node.induct (Q := fun l => ∀ (p : List Nat) (i : Nat), ∀ y ∈ walkFrom true false p i l,
        y.1.isGroup = false → y.1 ∈ leaves l)
    case hg =>
      intro cs mt ih p y hy he
      simp only [walkNode, ↓reduceIte, Bool.false_eq_true, List.append_nil, List.singleton_append,
        List.mem_cons] at hy
      rcases hy with rfl | hy
      · cases he
      · exact ih p 0 y hy he
    case hcons =>
      intro n ns h1 h2 p i y hy he
      simp only [walkFrom, List.mem_append] at hy
      simp only [leaves, List.mem_append]
      rcases hy with hy | hy
      · exact .inl (h1 _ y hy he)
      · exact .inr (h2 p _ y hy he)
    case hnil => intro p i y hy; simp [walkFrom] at hy
    all_goals intros; simp_all [walkNode, leavesN]
  unfold placed at hx
  obtain ⟨⟨y, k⟩, hy, rfl⟩ := List.mem_map.1 hx
  exact hw.2 proto [] 0 y (List.fst_mem_of_mem_zipIdx hy) he

theorem placed_exit_leaf {proto : List (Node M)} {x : Placed M} (hx : x ∈ placed proto)
    (he : x.node = .exit) : .exit ∈ leaves proto := by
  have := placed_leaf hx (by rw [he]; rfl)
  rwa [he] at this

theorem exits_leaves : (∀ n : Node M, ∀ x ∈ leaves (insertEarlyExitNode true n), x = .exit ∨ x ∈ leavesN n)
    ∧ ∀ l : List (Node M), ∀ x ∈ leaves (insertEarlyExitLoop true l), x = .exit ∨ x ∈ leaves l := by
  apply Node.induct
  case hg =>
    intro cs mt ih x hx
    simp only [insertEarlyExitNode, ↓reduceIte, leaves, leavesN, List.append_nil, List.mem_append,
      List.mem_singleton] at hx
    rcases hx with hx | rfl
    · exact ih x hx
    · exact .inl rfl
  case hcons =>
    intro n ns h1 h2 x hx
    simp only [insertEarlyExitLoop, leaves_append, List.mem_append] at hx
    simp only [leaves, List.mem_append]
    rcases hx with hx | hx
    · rcases h1 x hx with h | h
      · exact .inl h
      · exact .inr (.inl h)
    · rcases h2 x hx with h | h
      · exact .inl h
      · exact .inr (.inr h)
  case hnil => intro x hx; simp [insertEarlyExitLoop, leaves] at hx
  all_goals intros; simp_all [insertEarlyExitNode, leaves, leavesN]
  all_goals grind

/-- If only early exits are inserted, there are no regions. -/
theorem onlyExits {seq : List (Node M)} (h : DecisionFree seq) (n : Nat) {x : Placed M}
    (hx : x ∈ placed (truncatePrefix (insertEarlyExit seq true true) n)) :
    x.node ≠ .rstart ∧ x.node ≠ .rend := by
  rw [free_iff_leaves.2] at h
  have key : ∀ m : Node M, m ∈ leaves (truncatePrefix (insertEarlyExit seq true true) n) →
      m.isDecision = true → m = .exit := by
    intro m hm hd
    obtain ⟨y, hy, e⟩ := mem_leaves_truncate hm
    have hy' : y = .exit ∨ y ∈ leaves seq := by
      unfold insertEarlyExit at hy
      rw [leaves_append, List.mem_append] at hy
      rcases hy with hy | hy
      · left
        simpa [leaves, leavesN] using hy
      · exact exits_leaves.2 seq y hy
    rcases e with rfl | ⟨e1, t, rfl⟩
    · rcases hy' with hy' | hy'
      · exact hy'
      · rw [h _ hy'] at hd; cases hd
    · cases y <;> simp_all [IsTextLeaf, withText, Node.isDecision]
  constructor <;>
  · intro e
    have := key _ (placed_leaf hx (by rw [e]; rfl)) (by rw [e]; rfl)
    rw [e] at this
    cases this

/-- Markers can be removed before or after truncating. -/
theorem strip_truncate (off : Int) :
    (∀ (n : Node M) (st : TruncState), (truncL off st (stripNode n)).1 = (truncNode off st n).1
      ∧ (truncL off st (stripNode n)).2 = stripDecisions (truncNode off st n).2)
    ∧ ∀ (l : List (Node M)) (st : TruncState), (truncL off st (stripDecisions l)).1 = (truncL off st l).1
      ∧ (truncL off st (stripDecisions l)).2 = stripDecisions (truncL off st l).2 := by
  have happ : ∀ (a b : List (Node M)) (st : TruncState),
      truncL off st (a ++ b) = ((truncL off (truncL off st a).1 b).1,
        (truncL off st a).2 ++ (truncL off (truncL off st a).1 b).2) := by
    intro a
    induction a with
    | nil => intro b st; simp [truncL]
    | cons n a ih => intro b st; simp [truncL, ih]
  have htext : ∀ (t : Text) (mk : Text → Node M), (∀ t, stripNode (mk t) = [mk t]) → ∀ st : TruncState,
      stripDecisions (truncText off st t mk).2 = (truncText off st t mk).2 := by
    intro t mk h st
    unfold truncText
    cases st with
    | none => simp [stripDecisions, h]
    | some k =>
      dsimp only
      split
      · simp [stripDecisions, h]
      · split <;> rfl
  apply Node.induct
  case hg =>
    intro cs mt ih st
    have h1 := (ih st).1
    have h2 := (ih st).2
    simp only [stripNode, truncL, truncNode, h1, h2]
    cases h3 : (truncL off st cs).1 <;> simp [stripDecisions, stripNode]
  case hcons =>
    intro n ns h1 h2 st
    simp only [stripDecisions, truncL]
    rw [happ, (h1 st).1, (h1 st).2, (h2 _).1, (h2 _).2, strip_append]
    exact ⟨rfl, rfl⟩
  case hnil => intro st; exact ⟨rfl, rfl⟩
  case htok =>
    intro t mt st
    have := htext t (fun t' => Node.tok t' mt) (fun _ => rfl) st
    simp [stripNode, truncL, truncNode, this]
  case hdeco =>
    intro t st
    have := htext t (fun t' => Node.deco t') (fun _ => rfl) st
    simp [stripNode, truncL, truncNode, this]
  all_goals intro st; cases st <;> simp [stripNode, truncL, truncNode, truncCtl, stripDecisions]

theorem strip_truncatePrefix (l : List (Node M)) (n : Nat) :
    stripDecisions (truncatePrefix l n) = truncatePrefix (stripDecisions l) n :=
  ((strip_truncate (n : Int)).2 l (some 0)).2.symm

theorem strip_prototype {nodes : List (Node MatchName)} (h : DecisionFree nodes) (regions exits : Bool) (n : Nat) :
    stripDecisions (processEditPrototype regions exits nodes n) = processEditTarget nodes n := by
  have h0 := strip_of_decisionFree.2 nodes h
  have h1 : stripDecisions (insertRegions nodes true allowRegionsAround) = nodes := by
    unfold insertRegions
    rw [strip_append, (strip_insertRegions _ _).2, strip_trailing, List.append_nil, h0]
  have h2 : ∀ ns : List (Node MatchName), stripDecisions (insertEarlyExit ns true true) = stripDecisions ns := by
    intro ns
    unfold insertEarlyExit
    rw [strip_append, (strip_insertEarlyExit).2]
    rfl
  unfold processEditPrototype processEditTarget
  dsimp only
  rw [strip_truncatePrefix]
  cases regions <;> cases exits <;> simp [h0, h1, h2]

theorem kept_noExit {proto : List (Node M)} (h : ¬ Occurs proto .exit) (α : DecisionKey → DecisionValue) :
    kept α proto = placed proto := by
  unfold kept
  rw [List.takeWhile_eq_self_iff]
  intro x hx
  have : x.node ≠ .exit := fun he => h ((exit_iff_leaves.2 proto).2 (placed_exit_leaf hx he))
  unfold Placed.exits
  cases hn : x.node <;> simp_all

theorem noExit_of_placed {proto : List (Node M)} (h : ∀ x ∈ placed proto, x.node ≠ .exit) :
    ¬ Occurs proto .exit := by
  rintro ⟨p, hp⟩
  have hw : (∀ (n : Node M) (p : List Nat), .exit ∈ leavesN n → ∃ y ∈ walkNode true false p n, y.1 = .exit)
      ∧ ∀ (l : List (Node M)) (p : List Nat) (i : Nat), .exit ∈ leaves l →
        ∃ y ∈ walkFrom true false p i l, y.1 = .exit := by
    apply Node.induct (Q := fun l => ∀ (p : List Nat) (i : Nat), .exit ∈ leaves l →
        ∃ y ∈ walkFrom true false p i l, y.1 = .exit)
    case hg =>
      intro cs mt ih p hy
      obtain ⟨y, hy, he⟩ := ih p 0 hy
      exact ⟨y, by simp [walkNode, hy], he⟩
    case hcons =>
      intro n ns h1 h2 p i hy
      simp only [leaves, List.mem_append] at hy
      rcases hy with hy | hy
      · obtain ⟨y, hy, he⟩ := h1 (p ++ [i]) hy
        exact ⟨y, by simp [walkFrom, hy], he⟩
      · obtain ⟨y, hy, he⟩ := h2 p (i + 1) hy
        exact ⟨y, by simp [walkFrom, hy], he⟩
    case hnil => intro p i hy; simp [leaves] at hy
    all_goals intros; simp_all [walkNode, leavesN]
  obtain ⟨y, hy, he⟩ := hw.2 proto [] 0 ((exit_iff_leaves.2 proto).1 ⟨p, hp⟩)
  obtain ⟨k, hk⟩ := List.mem_iff_getElem?.1 hy
  refine h ⟨k, y.2.1, y.1⟩ (List.mem_map.2 ⟨(y, k), ?_, rfl⟩) he
  rw [List.mem_iff_getElem?]
  exact ⟨k, by simpa [walkWithPaths] using hk⟩

/-! ## Parsed programs -/

section
variable {cc : CharClass} {tokens : List Text} {types : List TokenType} {deco sub : List NodeType}

theorem subtokens_free (cc : CharClass) (t : Text) : DecisionFree (subtokenizeToken cc t) := by
  unfold subtokenizeToken
  induction subtokenize cc t with
  | nil => exact decisionFree_nil
  | cons a l ih => simp [decisionFree_cons, Node.isDecision, ih]

mutual
theorem toSequence_free : ∀ (n : PNode) (m : Node MatchName),
    toSequenceNode cc tokens types deco sub n = .ok m → DecisionFree [m]
  | .mk lo hi ann cs, m, h => by
    unfold toSequenceNode at h
    obtain ⟨t, -, h⟩ := except_bind_ok h
    split at h
    · cases h; simp [decisionFree_cons, decisionFree_nil, Node.isDecision]
    · split at h
      · cases h
        simp [decisionFree_cons, decisionFree_nil, Node.isDecision, subtokens_free]
      · cases cs with
        | nil => cases h; simp [decisionFree_cons, decisionFree_nil, Node.isDecision]
        | cons c cs =>
          dsimp only at h
          split at h
          · cases h
          · obtain ⟨ns, h1, h⟩ := except_bind_ok h
            cases h
            have := toSequences_free (c :: cs) ns h1
            simp [decisionFree_cons, decisionFree_nil, Node.isDecision, this]
theorem toSequences_free : ∀ (ns : List PNode) (ms : List (Node MatchName)),
    toSequenceNodes cc tokens types deco sub ns = .ok ms → DecisionFree ms
  | [], ms, h => by
    unfold toSequenceNodes at h
    cases h
    exact decisionFree_nil
  | n :: ns, ms, h => by
    unfold toSequenceNodes at h
    obtain ⟨m, h1, h⟩ := except_bind_ok h
    obtain ⟨ms', h2, h⟩ := except_bind_ok h
    cases h
    have e1 := toSequence_free n m h1
    have e2 := toSequences_free ns ms' h2
    rw [← List.singleton_append, decisionFree_append]
    exact ⟨e1, e2⟩
end

theorem parsed_free {digit : Char → Bool} {lang : HelperLanguage} {code : Text}
    {nodes : List (Node MatchName)} (h : parseToNodes cc digit lang false code = .ok nodes) :
    DecisionFree nodes := by
  unfold parseToNodes at h
  cases lang with
  | rawSimpleTokens => cases h; exact subtokens_free cc code
  | parsed lang =>
    dsimp only at h
    split at h <;>
    · obtain ⟨s, -, h⟩ := except_bind_ok h
      obtain ⟨r, -, h⟩ := except_bind_ok h
      obtain ⟨m, hm, h⟩ := except_bind_ok h
      cases h
      exact toSequence_free _ _ hm

end

theorem parse_any {digit : Char → Bool} (hd : DigitSane digit) {cc : CharClass} (hb : BracketsVisible cc)
    (lang : HelperLanguage) {code : Text} (hc : lang = .parsed .python → code ≠ []) :
    ∃ nodes, parseToNodes cc digit lang false code = .ok nodes ∧ text nodes = code ∧ DecisionFree nodes := by
  cases lang with
  | rawSimpleTokens =>
    obtain ⟨nodes, h1, -, h2⟩ := C19_raw (digit := digit) cc false code
    exact ⟨nodes, h1, h2, parsed_free h1⟩
  | parsed lang =>
    cases lang with
    | python =>
      obtain ⟨nodes, _, h1, h2, -⟩ := C19_python hd hb false (hc rfl)
      exact ⟨nodes, h1, h2, parsed_free h1⟩
    | direct lang =>
      obtain ⟨nodes, _, h1, h2, -⟩ := C19_direct hd hb lang false code
      exact ⟨nodes, h1, h2, parsed_free h1⟩

/-! ## Mean costs -/

theorem mean_iff_total {T : Type} {L : T → ℚ → Prop} {ts : List T} {x : ℚ} :
    WeightedTotal L (ts.zip (targetWeights ts.length none)) x ↔ MeanCost L ts x := by
  have h : ∀ (s : ℚ) (ts : List T) (x : ℚ), WeightedTotal L (ts.zip (List.replicate ts.length s)) x
      ↔ ∃ costs, List.Forall₂ L ts costs ∧ x = costs.sum * s := by
    intro s ts
    induction ts with
    | nil =>
      intro x
      simp [WeightedTotal]
    | cons t ts ih =>
      intro x
      rw [List.length_cons, List.replicate_succ, List.zip_cons_cons]
      unfold WeightedTotal
      constructor
      · rintro ⟨c, y, h1, h2, rfl⟩
        obtain ⟨costs, h3, rfl⟩ := (ih y).1 h2
        exact ⟨c :: costs, .cons h1 h3, by rw [List.sum_cons]; ring⟩
      · rintro ⟨costs, h1, rfl⟩
        cases h1 with
        | @cons _ c _ costs h1 h2 =>
          exact ⟨c, _, h1, (ih _).2 ⟨costs, h2, rfl⟩, by rw [List.sum_cons]; ring⟩
  unfold MeanCost targetWeights
  rw [Option.getD_none, h]
  simp only [mul_one_div]

/-! ## Solving and extracting -/

section
variable {T E S I : Type} [DecidableEq S] {N : Type}
  {make : T → Except E (Dag S DecisionKey DecisionValue I)} {proto : List (Node N)}
  {inv : Cost} {targets : List T} {total : ℚ} {B : BuiltSystem S I}

theorem combine_built {E' : Type}
    (hb : Built inv make proto (targets.zip (targetWeights targets.length none)) total B) (invalid : Cost)
    {L : (DecisionKey → DecisionValue) → T → ℚ → Prop}
    (hL : ∀ α t c, LeastPath make (seqKeys 0 proto) α t c ↔ L α t c)
    (hC : ∀ α t w, CheapestPath make ((seqKeys 0 proto).map fun k => (k, α k)) t w →
      ∃ q : ℚ, weight Edge.cost w = (q : Cost) ∧ L α t q)
    (tol : ℚ) (htol : 0 < tol) (late : Nat → Bool) :
    ∃ n st, (∀ fuel, n ≤ fuel → B.system.data.solve tol late fuel = .ok st)
      ∧ ((seqKeys 0 proto).length ≤ 1 → combineSolved (E := E') invalid proto B st = .ok none)
      ∧ (2 ≤ (seqKeys 0 proto).length →
        ∃ sol α, combineSolved (E := E') invalid proto B st = .ok (some sol) ∧ Suggests L proto targets α sol) := by
  have hsys := hb.system
  have hgood := fun d hd => (hb.entries d hd).1
  have hT : ∀ α x, WeightedTotal (LeastPath make (seqKeys 0 proto) α)
      (targets.zip (targetWeights targets.length none)) x ↔ MeanCost (L α) targets x := by
    intro α x
    rw [mean_iff_total]
    have : LeastPath make (seqKeys 0 proto) α = L α := by
      funext t c
      exact propext (hL α t c)
    rw [this]
  have hterm : ∃ n st, ∀ fuel, n ≤ fuel → B.system.data.solve tol late fuel = .ok st := by
    by_cases hne : seqKeys 0 proto = []
    · have h0 : B.system.data.numKeys - 1 = 0 := by
        rw [(hb.same .start).2.2.1, hne]
        rfl
      have : ∀ fuel, ∃ st, B.system.data.solve tol late (fuel + 1) = .ok st
          ∧ ∀ fuel', B.system.data.solve tol late (fuel' + 1) = .ok st := by
        intro fuel
        unfold System.solve
        simp only [solveLoop, forwardVars, reverseVars, h0, List.range_zero, runSweep, List.range'_zero,
          List.reverse_nil, Bool.false_eq_true, ↓reduceIte]
        split <;> exact ⟨_, rfl, fun _ => rfl⟩
      obtain ⟨st, -, h⟩ := this 0
      refine ⟨1, st, fun fuel hf => ?_⟩
      obtain ⟨k, rfl⟩ : ∃ k, fuel = k + 1 := ⟨fuel - 1, by omega⟩
      exact h k
    · exact hb.terminates .start hne tol htol late
  obtain ⟨n, st, hst⟩ := hterm
  have he := hst n le_rfl
  have hkeys := (hb.same .start).1
  refine ⟨n, st, hst, fun hle => ?_, fun hge => ?_⟩
  · obtain ⟨-, h, -⟩ := C41_at_most_one_variable hsys hgood hb.weights (solver_reach .start) (by rw [hkeys]; exact hle) tol
      late n st he
    unfold combineSolved
    rw [h]
    rfl
  · obtain ⟨-, -, -, hlast, hlen, -⟩ := C41_sweeps hsys hgood hb.weights (solver_reach .start) tol late n st he
    obtain ⟨hord, -⟩ := C41_order hsys hgood hb.weights (solver_reach .start) tol late n st he
    have hne : st.objectiveAtStep ≠ [] := by
      intro h
      have := hord.length_le
      rw [hlen, h, hkeys] at this
      simp at this
      omega
    have hne' : seqKeys 0 proto ≠ [] := by
      intro h
      rw [h] at hge
      simp at hge
    have hr : SolverReach B.system { B.system with data := st.system } := .solve .start he
    obtain ⟨vec, α, x, g1, -, g3, g4, g5, g6⟩ := hb.greedy hr hne' .forward
    obtain ⟨ws, i1, i2⟩ := info_samples hb invalid (fun _ => ()) g4 (C60_all_recorded proto α)
    have hc : st.objectiveAtStep.getLast? = some (st.objectiveAtStep.getLast hne) :=
      List.getLast?_eq_some_getLast hne
    have hdual := hlast _ hc
    refine ⟨⟨dualValue st.system, x, vec, (seqKeys 0 proto).map fun k => (k, α k),
      ⟨annotated α [] [] (kept α proto), none, some (sampleInfo (ws.map (weight Edge.cost)) none)⟩⟩, α, ?_, ?_⟩
    · unfold combineSolved
      simp only [hc, hdual]
      simp only [g1]
      simp only [g3]
      simp only [i1]
    · have hfin : ws.map (weight Edge.cost)
          = (ws.map fun w => ((weight Edge.cost w).untopD 0)).map fun c : ℚ => (c : Cost) := by
        rw [List.map_map]
        refine List.map_congr_left fun w hw => ?_
        obtain ⟨ts, -, h⟩ := forall₂_mem_right' i2 hw
        obtain ⟨q, hq, -⟩ := hC _ _ _ h
        simp [hq]
      refine ⟨g4, rfl, ⟨x, rfl, (hT α x).1 g5⟩, fun β hβ y hy => hb.bound hr hβ ((hT β y).2 hy), rfl,
        ⟨_, ws.map fun w => ((weight Edge.cost w).untopD 0), rfl, ?_, ?_⟩⟩
      · have h1 : List.Forall₂ (fun ts c => L α ts.1 c) (targets.zip (targetWeights targets.length none))
            (ws.map fun w => ((weight Edge.cost w).untopD 0)) := by
          refine forall₂_exists_right (fun ts w h => ?_) i2
          obtain ⟨q, hq, h⟩ := hC _ _ _ h
          rw [hq]
          exact h
        have h2 : (targets.zip (targetWeights targets.length none)).map Prod.fst = targets := by
          rw [List.map_fst_zip]
          simp [targetWeights]
        rw [← h2]
        exact List.forall₂_map_left_iff.2 h1
      · rw [hfin]
        exact sampleInfo_describes _ none

end

/-! ## Parsing samples -/

theorem parseAll_ok {A : Type} {parse : Text → Except ParseFail (List (Node MatchName))}
    (process : List (Node MatchName) → A) {R : Text → A → Prop} :
    ∀ {ts : List Text}, (∀ t ∈ ts, ∃ nodes, parse t = .ok nodes ∧ R t (process nodes)) →
      ∃ as, parseAll parse process ts = .ok as ∧ List.Forall₂ R ts as
  | [], _ => ⟨[], rfl, .nil⟩
  | t :: ts, h => by
    obtain ⟨nodes, h1, h2⟩ := h t (by simp)
    obtain ⟨as, h3, h4⟩ := parseAll_ok process fun t ht => h t (List.mem_cons_of_mem _ ht)
    exact ⟨process nodes :: as, by simp [parseAll, h1, h3], .cons h2 h4⟩

theorem pyGet_map {A B : Type} (f : A → B) (l : List A) (i : Int) :
    pyGet (l.map f) i = (pyGet l i).map f := by
  unfold pyGet
  simp only [List.length_map]
  split
  · simp
  · split
    · simp
    · rfl

theorem parseAll_getElem {A : Type} {parse : Text → Except ParseFail (List (Node MatchName))}
    {process : List (Node MatchName) → A} : ∀ {ts : List Text} {as : List A},
      parseAll parse process ts = .ok as → as.length = ts.length
        ∧ ∀ (k : Nat) (t : Text) (nodes : List (Node MatchName)), ts[k]? = some t → parse t = .ok nodes → as[k]? = some (process nodes)
  | [], as, h => by
    cases h
    simp
  | t :: ts, as, h => by
    unfold parseAll at h
    split at h
    · cases h
    · rename_i nodes hn
      split at h
      · cases h
      · rename_i as' has
        cases h
        obtain ⟨i1, i2⟩ := parseAll_getElem has
        refine ⟨by simp [i1], fun k t' nodes' hk hn' => ?_⟩
        cases k with
        | zero =>
          simp only [List.getElem?_cons_zero, Option.some.injEq] at hk
          subst hk
          rw [hn] at hn'
          cases hn'
          rfl
        | succ k => exact i2 k t' nodes' (by simpa using hk) hn'

theorem parseAll_get {A : Type} {parse : Text → Except ParseFail (List (Node MatchName))}
    {process : List (Node MatchName) → A} {ts : List Text} {as : List A} {i : Int} {t : Text}
    {nodes : List (Node MatchName)} (h : parseAll parse process ts = .ok as) (hi : pyGet ts i = some t)
    (hn : parse t = .ok nodes) : pyGet as i = some (process nodes) := by
  obtain ⟨h1, h2⟩ := parseAll_getElem h
  unfold pyGet at hi ⊢
  rw [h1]
  split
  · rw [if_pos (by assumption)] at hi
    exact h2 _ t nodes hi hn
  · rw [if_neg (by assumption)] at hi
    split
    · rw [if_pos (by assumption)] at hi
      exact h2 _ t nodes hi hn
    · rw [if_neg (by assumption)] at hi
      cases hi

theorem pyGet_mem' {A : Type} {l : List A} {i : Int} {a : A} (h : pyGet l i = some a) : a ∈ l := by
  unfold pyGet at h
  split at h
  · exact List.mem_of_getElem? h
  · split at h
    · exact List.mem_of_getElem? h
    · cases h

/-! ## Baselines -/

theorem baselineInfos_ok {K : Type} {proto : List (Node M)} {out : K → Decisions → List MarkedToken → Prop} :
    ∀ {bs : List (K × Decisions)}, (∀ b d, (b, d) ∈ bs → ∃ parts,
        extractRegions (pack proto) (fun k => d.lookup k) [] = .ok parts ∧ out b d parts) →
      ∃ res, baselineInfos proto bs = .ok res
        ∧ List.Forall₂ (fun bd r => r.1 = bd.1 ∧ r.2.1 = bd.2 ∧ r.2.2.total = none ∧ r.2.2.samples = none
          ∧ out bd.1 bd.2 r.2.2.parts) bs res
  | [], _ => ⟨[], rfl, .nil⟩
  | (b, d) :: bs, h => by
    obtain ⟨parts, h1, h2⟩ := h b d (by simp)
    obtain ⟨res, h3, h4⟩ := baselineInfos_ok fun b' d' hb => h b' d' (List.mem_cons_of_mem _ hb)
    refine ⟨(b, d, ⟨parts, none, none⟩) :: res, ?_, .cons ⟨rfl, rfl, rfl, rfl, h2⟩ h4⟩
    have : solutionInfo (S := Unit) (I := Unit) (C := Unit) ⊤ (fun _ => ()) proto d none none
        = .ok ⟨parts, none, none⟩ := by
      unfold solutionInfo
      simp only [h1]
      rfl
    simp only [baselineInfos, this, h3]

theorem prefixResults_nodup {S : Storage M} {aligned : List (Int × LogProb)} {exp : LogProb → ℚ} :
    ∀ (bs : List PrefixBaseline) {acc res : List (PrefixBaseline × Decisions)}, (acc.map Prod.fst).Nodup →
      prefixResults S aligned exp bs acc = .ok res → (res.map Prod.fst).Nodup
  | [], acc, res, h, he => by
    simp only [prefixResults, Except.ok.injEq] at he
    rwa [← he]
  | b :: bs, acc, res, h, he => by
    unfold prefixResults at he
    obtain ⟨d, -, he⟩ := except_bind_ok he
    exact prefixResults_nodup bs (dictSet_nodup b d acc h).1 he

theorem prefixBaselines_nodup {c : PrefixConfig} {S : Storage M} {exp : LogProb → ℚ}
    {tokens : List (Text × LogProb)} {res : List (PrefixBaseline × Decisions)}
    (h : prefixBaselines c exp S tokens = .ok res) : (res.map Prod.fst).Nodup := by
  unfold prefixBaselines at h
  split at h
  · cases h; exact List.nodup_nil
  · split at h
    · cases h
    · exact prefixResults_nodup _ (acc := []) List.nodup_nil h

theorem lookup_mem_nodup {K V : Type} [BEq K] [LawfulBEq K] {k : K} {v : V} : ∀ {d : List (K × V)},
    (d.map Prod.fst).Nodup → (k, v) ∈ d → d.lookup k = some v
  | [], _, h => by simp at h
  | (a, b) :: d, hn, h => by
    rw [List.map_cons, List.nodup_cons] at hn
    rw [List.lookup_cons]
    rcases List.mem_cons.1 h with h' | h'
    · cases h'
      simp
    · have : k ≠ a := by
        rintro rfl
        exact hn.1 (List.mem_map.2 ⟨(k, v), h', rfl⟩)
      rw [beq_eq_false_iff_ne.2 this]
      exact lookup_mem_nodup hn.2 h'

theorem any_white {digit : Char → Bool} (hd : DigitSane digit) {cc : CharClass} {lang : HelperLanguage}
    {code : Text} {nodes : List (Node MatchName)} (h : parseToNodes cc digit lang false code = .ok nodes) :
    WhiteDecos cc (leaves nodes) := by
  cases lang with
  | parsed lang => exact parsed_white hd lang false h
  | rawSimpleTokens =>
    cases h
    intro l t r hl
    exfalso
    have : Node.deco t ∈ leaves (subtokenizeToken cc code) := by rw [hl]; simp
    unfold subtokenizeToken at this
    revert this
    clear hl
    induction subtokenize cc code with
    | nil => simp [leaves]
    | cons a l ih => simpa [leaves, leavesN] using ih

end RUSure.Lemmas
