import Verif.Lemmas.StackTree
import Verif.Spec.Desugar

/-!
# Lines, indents and dedents
-/

namespace RUSure.Lemmas
open RUSure RUSure.Spec
variable {T : Type} [DecidableEq T] {pairs : List (T × T)}

/-- The slices of lines, from position `a` on. -/
def segments (a : Nat) : List (List T) → List (Nat × Nat)
  | [] => []
  | b :: bs => (a, a + b.length + 1) :: segments (a + b.length + 1) bs

omit [DecidableEq T] in
theorem lineBody_append {newline : T} {a b : List T} (h : LineBody pairs newline a)
    (h' : LineBody pairs newline b) : LineBody pairs newline (a ++ b) := by
  induction h with
  | nil => exact h'
  | plain h1 h2 _ ih => exact .plain h1 h2 ih
  | @bracket o c inner ts h1 h2 _ ih =>
    rw [List.cons_append, List.append_assoc, List.cons_append]
    exact .bracket h1 h2 ih

omit [DecidableEq T] in
theorem forest_balanced {ctx : Option T} {i : Nat} {ts : List T} {ns : List PNode}
    (h : Forest pairs ctx i ts ns) : Balanced pairs ctx ts := by
  induction h with
  | nil => exact .nil _
  | plain h1 _ ih => exact .plain h1 ih
  | stray h1 h2 _ ih => exact .stray h1 h2 ih
  | bracket h1 _ _ _ ih ih' => exact .bracket h1 ih ih'

theorem firstOfLine_some {f c : PNode} {hi : Nat} (h : f.hi = some hi) (hl : f.lo < hi) :
    firstOfLine (some f) c = .ok f := by
  unfold firstOfLine PNode.len
  simp only [h, if_neg (show ¬ hi < f.lo by omega), bind, Except.bind, pure, Except.pure]
  rw [if_neg (by omega)]

/-- The state of the loop over the children: `first` is the node at position `a` where the line
starts, or there is none and the line starts here. -/
def LineStart (first : Option PNode) (a i : Nat) : Prop :=
  match first with
  | none => a = i
  | some f => f.lo = a ∧ a < i ∧ ∃ hi, f.hi = some hi ∧ a < hi

theorem firstOfLine_start {first : Option PNode} {c : PNode} {a i : Nat} (h : LineStart first a i)
    (hc : c.lo = i) : ∃ f, firstOfLine first c = .ok f ∧ f.lo = a
      ∧ (∀ hi, c.hi = some hi → i < hi → ∃ hi', f.hi = some hi' ∧ a < hi') := by
  cases first with
  | none =>
    obtain rfl : a = i := h
    exact ⟨c, rfl, hc, fun hi h1 h2 => ⟨hi, h1, h2⟩⟩
  | some f =>
    obtain ⟨h1, -, hi, h3, h4⟩ := h
    exact ⟨f, firstOfLine_some h3 (by omega), h1, fun _ _ _ => ⟨hi, h3, h4⟩⟩

theorem lineSlices_forest {newline : T} (hnl : PlainTok pairs newline) {ctx : Option T} {i : Nat}
    {ts : List T} {ns : List PNode} (h : Forest pairs ctx i ts ns) : ctx = none →
    ∀ (encoded pre b0 : List T) (a : Nat) (first : Option PNode),
      encoded = pre ++ b0 ++ ts → pre.length = a → a + b0.length = i →
      LineBody pairs newline b0 → LineStart first a i →
      (ts.getLast? = some newline ∨ (ts = [] ∧ first = none)) →
      ∃ bodies, lineSlices encoded newline ns first = .ok (segments a bodies)
        ∧ b0 ++ ts = joinLines newline bodies ∧ ∀ b ∈ bodies, LineBody pairs newline b := by
  induction h with
  | @nil ctx i =>
    intro _ encoded pre b0 a first _ _ hb0 _ hs hl
    rcases hl with hl | ⟨-, rfl⟩
    · cases hl
    · have : a = i := hs
      have : b0 = [] := List.eq_nil_of_length_eq_zero (by omega)
      subst this
      exact ⟨[], rfl, rfl, by simp⟩
  | @plain ctx i t ts ns hp hf ih =>
    intro hctx encoded pre b0 a first he hpre hb0 hlb hs hl
    have hl' : (t :: ts).getLast? = some newline := by
      rcases hl with hl | ⟨h, -⟩
      · exact hl
      · cases h
    obtain ⟨f, hf1, hf2, hf3⟩ := firstOfLine_start (c := .mk i (some (i + 1)) .sibling []) hs rfl
    have hget : tokenBefore encoded (some (i + 1)) = .ok t := by
      have : encoded[i]? = some t := by
        rw [he, List.getElem?_append_right (by simp; omega)]
        simp only [List.length_append]
        rw [show i - (pre.length + b0.length) = 0 by omega]
        rfl
      simp [tokenBefore, tokenAt, this]
    by_cases ht : t = newline
    · subst ht
      have hrest : ts.getLast? = some t ∨ (ts = [] ∧ (none : Option PNode) = none) := by
        cases ts with
        | nil => exact .inr ⟨rfl, rfl⟩
        | cons x xs => left; rw [List.getLast?_cons_cons] at hl'; exact hl'
      obtain ⟨bodies, h1, h2, h3⟩ := ih hctx encoded (pre ++ b0 ++ [t]) [] (i + 1) none
        (by rw [he]; simp) (by simp; omega) (by simp) .nil rfl hrest
      refine ⟨b0 :: bodies, ?_, ?_, ?_⟩
      · unfold lineSlices
        simp only [hf1, PNode.hi, hget, h1, bind, Except.bind, if_true, pure, Except.pure, segments,
          hf2]
        rw [show a + b0.length + 1 = i + 1 by omega]
      · rw [List.nil_append] at h2
        rw [h2]; simp [joinLines]
      · rw [List.forall_mem_cons]; exact ⟨hlb, h3⟩
    · have hrest : ts.getLast? = some newline := by
        cases ts with
        | nil => simp at hl'; exact absurd hl' ht
        | cons x xs => rw [List.getLast?_cons_cons] at hl'; exact hl'
      obtain ⟨bodies, h1, h2, h3⟩ := ih hctx encoded pre (b0 ++ [t]) a (some f)
        (by rw [he]; simp) hpre (by simp; omega)
        (lineBody_append hlb (.plain hp ht .nil))
        ⟨hf2, by omega, hf3 (i + 1) rfl (by omega)⟩ (.inl hrest)
      refine ⟨bodies, ?_, by rw [← h2]; simp, h3⟩
      rw [lineSlices]
      simp only [hf1, PNode.hi, hget, bind, Except.bind, if_neg ht]
      exact h1
  | stray => intro h; cases h
  | @bracket ctx o c i j inner ts ns ms hm hj h1 h2 _ ih =>
    intro hctx encoded pre b0 a first he hpre hb0 hlb hs hl
    have hc : c ≠ newline := by
      rintro rfl
      exact hnl.2 (mem_closer hm)
    have hrest : ts.getLast? = some newline := by
      rcases hl with hl | ⟨h, -⟩
      · cases ts with
        | nil =>
          rw [show o :: (inner ++ [c]) = (o :: inner) ++ [c] by simp, List.getLast?_append] at hl
          simp at hl
          exact absurd hl hc
        | cons x xs =>
          rw [show o :: (inner ++ c :: x :: xs) = (o :: inner ++ [c]) ++ x :: xs by simp,
            List.getLast?_append] at hl
          rw [List.getLast?_eq_getLast_of_ne_nil (by simp)] at hl ⊢
          simpa using hl
      · cases h
    obtain ⟨f, hf1, hf2, hf3⟩ := firstOfLine_start (c := .mk i (some (j + 1)) .paired
      [.mk i (some (i + 1)) .left [], .mk (i + 1) (some j) .middle ns,
        .mk j (some (j + 1)) .right []]) hs rfl
    have hget : tokenBefore encoded (some (j + 1)) = .ok c := by
      have : encoded[j]? = some c := by
        rw [he, show pre ++ b0 ++ (o :: (inner ++ c :: ts)) = (pre ++ b0 ++ o :: inner) ++ c :: ts by
          simp, List.getElem?_append_right (by simp; omega)]
        simp only [List.length_append, List.length_cons]
        rw [show j - (pre.length + b0.length + (inner.length + 1)) = 0 by omega]
        rfl
      simp [tokenBefore, tokenAt, this]
    obtain ⟨bodies, h3, h4, h5⟩ := ih hctx encoded pre (b0 ++ o :: (inner ++ [c])) a (some f)
      (by rw [he]; simp) hpre (by simp; omega)
      (lineBody_append hlb (.bracket hm (forest_balanced h1) .nil))
      ⟨hf2, by omega, hf3 (j + 1) rfl (by omega)⟩ (.inl hrest)
    refine ⟨bodies, ?_, by rw [← h4]; simp, h5⟩
    rw [lineSlices]
    simp only [hf1, PNode.hi, hget, bind, Except.bind, if_neg hc]
    exact h3

/-! ### The loop over the lines -/

theorem lineIndent_eq {cc : CharClass} {spaces : Nat} (hs : 0 < spaces) {line : Text}
    (hl : line ≠ []) : lineIndent cc spaces line = .ok (indentation cc spaces line) := by
  unfold lineIndent indentation
  by_cases h : line.all cc.isSpace = true
  · rw [if_pos ⟨hl, h⟩, if_pos h]
  · rw [if_neg (fun h' => h h'.2), if_neg (by omega), if_neg h]

omit [DecidableEq T] in
theorem slice_segment {α : Type} (pre b r : List α) :
    sliceOf (pre ++ (b ++ r)) (pre.length, pre.length + b.length) = b := by
  unfold sliceOf
  rw [← List.append_assoc, List.take_left' (by simp), List.drop_left' rfl]

theorem changeDepth_newline (indent dedent newline : T) (current depth : Nat) (out : List T) :
    changeDepth indent dedent newline current depth (out ++ [newline])
      = .ok (out ++ List.replicate (current - depth) dedent ++ [newline]
          ++ List.replicate (depth - current) indent) := by
  unfold changeDepth
  by_cases h1 : current < depth
  · rw [if_pos h1, show current - depth = 0 by omega]; simp
  · rw [if_neg h1]
    by_cases h2 : depth < current
    · rw [if_pos h2, show depth - current = 0 by omega]; simp
    · rw [if_neg h2, show depth = current by omega]; simp

theorem desugarLoop_eq {cc : CharClass} {spaces : Nat} (hs : 0 < spaces) {indent dedent newline : T}
    {text : T → Text} (hnl : text newline ≠ []) : ∀ (bodies : List (List T)) (pre : List T)
    (encoded : List T) (current : Nat) (out : List T), encoded = pre ++ joinLines newline bodies →
    (out = [] ∧ current = 0 →
      desugarLoop cc (encoded.map text) encoded indent dedent newline spaces
          (segments pre.length bodies) current out
        = .ok (markLines indent dedent newline 0 (withIndentation cc spaces newline text bodies)))
    ∧ ∀ out', out = out' ++ [newline] →
      desugarLoop cc (encoded.map text) encoded indent dedent newline spaces
          (segments pre.length bodies) current out
        = .ok (out' ++ List.replicate (current - depthAfter current
            (withIndentation cc spaces newline text bodies)) dedent ++ [newline]
            ++ markLines indent dedent newline current
              (withIndentation cc spaces newline text bodies))
  | [], pre, encoded, current, out, he => by
    constructor
    · rintro ⟨rfl, rfl⟩
      simp [segments, desugarLoop, changeDepth, withIndentation, markLines]
    · rintro out' rfl
      simp only [segments, desugarLoop, changeDepth, withIndentation, markLines, List.map_nil,
        depthAfter, Nat.not_lt_zero, if_false, Nat.sub_zero, List.append_nil]
      by_cases hc : 0 < current
      · rw [if_pos hc]
        simp
      · rw [if_neg hc, show current = 0 by omega]
        simp
  | b :: bodies, pre, encoded, current, out, he => by
    have he' : encoded = (pre ++ (b ++ [newline])) ++ joinLines newline bodies := by
      rw [he]; simp [joinLines]
    have hslice : sliceOf encoded (pre.length, pre.length + b.length + 1) = b ++ [newline] := by
      have := slice_segment pre (b ++ [newline]) (joinLines newline bodies)
      rw [← List.append_assoc, ← he'] at this
      simpa [Nat.add_assoc] using this
    have htext : (sliceOf (encoded.map text) (pre.length, pre.length + b.length + 1)).flatten
        = (b ++ [newline]).flatMap text := by
      have : sliceOf (encoded.map text) (pre.length, pre.length + b.length + 1)
          = (sliceOf encoded (pre.length, pre.length + b.length + 1)).map text := by
        simp [sliceOf, List.map_drop, List.map_take]
      rw [this, hslice, List.flatMap_def]
    have hne : (b ++ [newline]).flatMap text ≠ [] := by
      simp [hnl]
    have hloop : ∀ o, desugarLoop cc (encoded.map text) encoded indent dedent newline spaces
        (segments pre.length (b :: bodies)) current o
        = (changeDepth indent dedent newline current
            ((indentation cc spaces ((b ++ [newline]).flatMap text)).getD current) o).bind fun o' =>
          desugarLoop cc (encoded.map text) encoded indent dedent newline spaces
            (segments (pre ++ (b ++ [newline])).length bodies)
            ((indentation cc spaces ((b ++ [newline]).flatMap text)).getD current)
            (o' ++ (b ++ [newline])) := by
      intro o
      rw [segments, desugarLoop, htext, lineIndent_eq hs hne, hslice]
      simp only [bind, Except.bind, List.length_append, List.length_cons, List.length_nil,
        Nat.zero_add, Nat.add_assoc]
    have hw : withIndentation cc spaces newline text (b :: bodies)
        = (b, indentation cc spaces ((b ++ [newline]).flatMap text))
          :: withIndentation cc spaces newline text bodies := rfl
    generalize hd : indentation cc spaces ((b ++ [newline]).flatMap text) = d at *
    have ih := fun o => (desugarLoop_eq (cc := cc) (indent := indent) (dedent := dedent) hs hnl bodies
      (pre ++ (b ++ [newline])) encoded (d.getD current) o he').2
    constructor
    · rintro ⟨rfl, rfl⟩
      have hc : changeDepth indent dedent newline 0 (d.getD 0) []
          = .ok (List.replicate (d.getD 0) indent) := by
        unfold changeDepth
        by_cases h0 : 0 < d.getD 0
        · rw [if_pos h0]; simp
        · rw [if_neg h0, if_neg (by omega), show d.getD 0 = 0 by omega]; rfl
      rw [hloop, hc]
      simp only [Except.bind]
      rw [ih _ (List.replicate (d.getD 0) indent ++ b) (by simp), hw, markLines]
      simp
    · rintro out' rfl
      rw [hloop, changeDepth_newline]
      simp only [Except.bind]
      rw [ih _ (out' ++ List.replicate (current - d.getD current) dedent ++ [newline]
        ++ List.replicate (d.getD current - current) indent ++ b) (by simp), hw, markLines, depthAfter]
      simp

theorem desugar_eq (hT : Table pairs) {cc : CharClass} {spaces : Nat} (hs : 0 < spaces)
    {indent dedent newline : T} {text : T → Text} (hnl : text newline ≠ [])
    (hpl : PlainTok pairs newline) {encoded : List T} (hb : Balanced pairs none encoded)
    (hl : encoded.getLast? = some newline) {root : PNode}
    (hr : bracketMatch pairs true encoded = .ok root) :
    ∃ bodies, encoded = joinLines newline bodies ∧ (∀ b ∈ bodies, LineBody pairs newline b)
      ∧ desugar cc root (encoded.map text) encoded indent dedent newline spaces
        = .ok (markLines indent dedent newline 0 (withIndentation cc spaces newline text bodies)) := by
  obtain ⟨ns, h1, h2⟩ := bracketMatch_forest hT hb
  rw [h1] at hr
  cases hr
  obtain ⟨bodies, h3, h4, h5⟩ := lineSlices_forest hpl h2 rfl encoded [] [] 0 none (by simp) rfl rfl
    .nil rfl (.inl hl)
  rw [List.nil_append] at h4
  refine ⟨bodies, h4, h5, ?_⟩
  unfold desugar
  simp only [PNode.children, h3, bind, Except.bind]
  exact (desugarLoop_eq hs hnl bodies [] encoded 0 [] (by simpa using h4)).1 ⟨rfl, rfl⟩

/-! ### Properties of marked lines -/

section
variable {indent dedent newline : T}

omit [DecidableEq T] in
theorem filter_replicate_not {p : T → Bool} {t : T} (n : Nat) (h : p t = false) :
    (List.replicate n t).filter p = [] := by
  rw [List.filter_replicate]; simp [h]

theorem markLines_filter (hn : newline ≠ indent ∧ newline ≠ dedent) :
    ∀ (ls : List (List T × Option Nat)) (current : Nat),
    (∀ l ∈ ls, indent ∉ l.1 ∧ dedent ∉ l.1) →
    (markLines indent dedent newline current ls).filter (fun t => t ≠ indent ∧ t ≠ dedent)
      = joinLines newline (ls.map Prod.fst)
  | [], _, _ => by simp [markLines, joinLines]
  | (b, d) :: ls, current, h => by
    rw [List.forall_mem_cons] at h
    have ih := markLines_filter hn ls (d.getD current) h.2
    have hb : b.filter (fun t => decide (t ≠ indent ∧ t ≠ dedent)) = b := by
      rw [List.filter_eq_self]
      intro t ht
      simp only [ne_eq, decide_eq_true_eq]
      exact ⟨fun e => h.1.1 (e ▸ ht), fun e => h.1.2 (e ▸ ht)⟩
    simp only [markLines, List.filter_append, ih, hb]
    rw [filter_replicate_not _ (by simp), filter_replicate_not _ (by simp)]
    simp [joinLines, hn.1, hn.2]

/-! #### Nesting -/

omit [DecidableEq T] in
theorem balanced_markers {ctx : Option T} {ts : List T} (h : Balanced pairs ctx ts) :
    indent ∉ ts → dedent ∉ ts → Balanced (pairs ++ [(indent, dedent)]) ctx ts := by
  induction h with
  | nil => exact fun _ _ => .nil _
  | plain h1 _ ih =>
    intro hi hd
    rw [List.mem_cons, not_or] at hi hd
    refine .plain ⟨?_, ?_⟩ (ih hi.2 hd.2)
    · simp only [List.map_append, List.mem_append, not_or]
      exact ⟨h1.1, by simpa using fun e => hi.1 e.symm⟩
    · simp only [List.map_append, List.mem_append, not_or]
      exact ⟨h1.2, by simpa using fun e => hd.1 e.symm⟩
  | stray h1 h2 _ ih =>
    intro hi hd
    rw [List.mem_cons, not_or] at hi hd
    exact .stray (List.mem_append_left _ h1) h2 (ih hi.2 hd.2)
  | bracket h1 _ _ ih ih' =>
    intro hi hd
    simp only [List.mem_cons, List.mem_append, not_or] at hi hd
    exact .bracket (List.mem_append_left _ h1) (ih hi.2.1 hd.2.1) (ih' hi.2.2.2 hd.2.2.2)

omit [DecidableEq T] in
theorem lineBody_balanced {ts : List T} (h : LineBody pairs newline ts) (ctx : Option T) :
    Balanced pairs ctx ts := by
  induction h with
  | nil => exact .nil _
  | plain h1 _ _ ih => exact .plain h1 ih
  | bracket h1 h2 _ ih => exact .bracket h1 h2 ih

omit [DecidableEq T] in
theorem table_markers (hT : Table pairs) (h1 : indent ∉ pairs.map Prod.snd)
    (h2 : dedent ∉ pairs.map Prod.fst) (h3 : dedent ∉ pairs.map Prod.snd) (h4 : indent ≠ dedent) :
    Table (pairs ++ [(indent, dedent)]) where
  closers := by
    rw [List.map_append, List.nodup_append]
    refine ⟨hT.closers, by simp, ?_⟩
    intro a ha b hb
    simp only [List.map_cons, List.map_nil, List.mem_singleton] at hb
    subst hb
    exact fun e => h3 (e ▸ ha)
  disjoint := by
    intro t ht
    simp only [List.map_append, List.mem_append, List.map_cons, List.map_nil,
      List.mem_singleton] at ht ⊢
    rw [not_or]
    rcases ht with ht | rfl
    · exact ⟨hT.disjoint t ht, fun e => h2 (e ▸ ht)⟩
    · exact ⟨h1, h4⟩

theorem run_replicate_open {tol drop : Bool} (hT : Table (pairs ++ [(indent, dedent)])) :
    ∀ (k : Nat) (S : List T), run (pairs ++ [(indent, dedent)]) tol drop S (List.replicate k indent)
      = some (List.replicate k indent ++ S)
  | 0, S => rfl
  | k + 1, S => by
    have ho : isOpener (pairs ++ [(indent, dedent)]) indent = true := isOpener_iff.mpr (by simp)
    simp only [List.replicate_succ, run, runStep, ho, if_true, Option.bind_some]
    rw [run_replicate_open hT k, ← List.replicate_succ, List.replicate_succ', List.append_assoc]
    rfl

theorem run_replicate_close {tol drop : Bool} (hT : Table (pairs ++ [(indent, dedent)])) :
    ∀ (k : Nat) (S : List T), run (pairs ++ [(indent, dedent)]) tol drop
      (List.replicate k indent ++ S) (List.replicate k dedent) = some S
  | 0, S => rfl
  | k + 1, S => by
    have hm : (indent, dedent) ∈ pairs ++ [(indent, dedent)] := by simp
    simp only [List.replicate_succ, List.cons_append, run, runStep, closer_not_opener hT hm,
      openerOf_eq hT hm, Bool.false_eq_true, if_false, if_true, Option.bind_some]
    exact run_replicate_close hT k S

omit [DecidableEq T] in
theorem depthAfter_cons (current : Nat) (b : List T) (d : Option Nat)
    (ls : List (List T × Option Nat)) : depthAfter current ((b, d) :: ls) = d.getD current := rfl

theorem run_markLines (hT : Table (pairs ++ [(indent, dedent)]))
    (hn : PlainTok (pairs ++ [(indent, dedent)]) newline) :
    ∀ (ls : List (List T × Option Nat)) (current : Nat),
    (∀ l ∈ ls, LineBody pairs newline l.1 ∧ indent ∉ l.1 ∧ dedent ∉ l.1) →
    run (pairs ++ [(indent, dedent)]) true false
      (List.replicate (min current (depthAfter current ls)) indent)
      (markLines indent dedent newline current ls) = some []
  | [], current, _ => by simp [markLines, run, depthAfter]
  | (b, d) :: ls, current, h => by
    rw [List.forall_mem_cons] at h
    have ih := run_markLines hT hn ls (d.getD current) h.2
    simp only [markLines, depthAfter_cons]
    generalize d.getD current = e at ih ⊢
    have hbody : ∀ S, (S : List T) = List.replicate e indent →
        run (pairs ++ [(indent, dedent)]) true false S b = some S := by
      intro S _
      have hb := bal_balanced.mpr (balanced_markers (lineBody_balanced h.1.1 none) h.1.2.1 h.1.2.2)
      exact bal_run hT hb S (by simp) (by simp)
    rw [List.append_assoc, List.append_assoc, List.append_assoc, run_append, run_replicate_open hT,
      Option.bind_some, ← List.replicate_add, show e - current + min current e = e by omega, run_append,
      hbody _ rfl, Option.bind_some, run_append]
    have hsplit : List.replicate e indent = List.replicate (e - depthAfter e ls) indent
        ++ List.replicate (min e (depthAfter e ls)) indent := by
      rw [← List.replicate_add]; congr 1; omega
    rw [hsplit, run_replicate_close hT, Option.bind_some]
    obtain ⟨h1, h2⟩ := plain_step hn
    simp only [List.singleton_append, run, runStep, h1, h2, Bool.false_eq_true, if_false,
      Option.bind_some]
    exact ih

/-! #### Depths of lines -/

theorem count_markLines (hid : indent ≠ dedent) (hn : newline ≠ indent ∧ newline ≠ dedent) :
    ∀ (l1 : List (List T × Option Nat)) (b : List T) (d : Option Nat)
      (l2 : List (List T × Option Nat)) (current : Nat),
    (∀ l ∈ l1, indent ∉ l.1 ∧ dedent ∉ l.1) →
    ∃ pre post, markLines indent dedent newline current (l1 ++ (b, d) :: l2) = pre ++ b ++ post
      ∧ (∀ n, d = some n → pre.count indent + min current (depthAfter current (l1 ++ (b, d) :: l2))
          = pre.count dedent + n)
      ∧ (pre = [] ∨ pre.getLast? = some newline ∨ pre.getLast? = some indent)
      ∧ (pre.filter (fun t => t ≠ indent ∧ t ≠ dedent)) = joinLines newline (l1.map Prod.fst)
  | [], b, d, l2, current, _ => by
    refine ⟨List.replicate (d.getD current - current) indent,
      List.replicate (d.getD current - depthAfter (d.getD current) l2) dedent ++ ([newline]
        ++ markLines indent dedent newline (d.getD current) l2), ?_, ?_, ?_, ?_⟩
    · simp only [List.nil_append, markLines, List.append_assoc]
    · intro n hn
      subst hn
      simp only [List.nil_append, depthAfter, Option.getD_some, List.count_replicate_self]
      rw [List.count_replicate, if_neg (by simpa using hid)]
      omega
    · cases hk : d.getD current - current with
      | zero => left; rfl
      | succ k => right; right; rw [List.replicate_succ']; simp
    · rw [filter_replicate_not _ (by simp)]; rfl
  | (b', d') :: l1, b, d, l2, current, h => by
    rw [List.forall_mem_cons] at h
    obtain ⟨pre, post, h1, h2, h3, h4⟩ := count_markLines hid hn l1 b d l2 (d'.getD current) h.2
    simp only [List.cons_append, markLines, depthAfter_cons]
    generalize d'.getD current = e at h1 h2 h3 h4 ⊢
    refine ⟨List.replicate (e - current) indent ++ b' ++ List.replicate
      (e - depthAfter e (l1 ++ (b, d) :: l2)) dedent ++ [newline] ++ pre, post, ?_, ?_, ?_, ?_⟩
    · rw [h1]; simp
    · intro n hn'
      have := h2 n hn'
      simp only [List.count_append, List.count_replicate_self, List.count_eq_zero_of_not_mem h.1.1,
        List.count_eq_zero_of_not_mem h.1.2]
      rw [List.count_replicate, List.count_replicate, if_neg (by simpa using hid.symm),
        if_neg (by simpa using hid), List.count_singleton, List.count_singleton,
        if_neg (by simpa using hn.1), if_neg (by simpa using hn.2)]
      omega
    · right
      rcases h3 with rfl | h3 | h3
      · left; simp
      · left; rw [List.getLast?_append, h3]; rfl
      · right; rw [List.getLast?_append, h3]; rfl
    · have hb : b'.filter (fun t => decide (t ≠ indent ∧ t ≠ dedent)) = b' := by
        rw [List.filter_eq_self]
        intro t ht
        simp only [ne_eq, decide_eq_true_eq]
        exact ⟨fun e => h.1.1 (e ▸ ht), fun e => h.1.2 (e ▸ ht)⟩
      simp only [List.filter_append, h4, hb]
      rw [filter_replicate_not _ (by simp), filter_replicate_not _ (by simp)]
      simp [joinLines, hn.1, hn.2]

/-! #### Neighbours of markers -/

/-- Where markers may be, after the tokens `prev2` and `prev`. -/
def Place (indent dedent newline : T) (prev2 prev : Option T) : List T → Prop
  | [] => prev ≠ some dedent
  | t :: ts =>
    (t = indent → prev = none ∨ prev = some indent ∨ (prev = some newline ∧ prev2 ≠ some dedent))
    ∧ (prev = some dedent → t = dedent ∨ t = newline) ∧ Place indent dedent newline prev (some t) ts

omit [DecidableEq T] in
theorem place_body : ∀ (b r : List T) (p2 p : Option T), p ≠ some dedent → indent ∉ b → dedent ∉ b →
    (∀ q2 q, q ≠ some dedent → (b = [] → q2 = p2 ∧ q = p) → Place indent dedent newline q2 q r) →
    Place indent dedent newline p2 p (b ++ r)
  | [], r, p2, p, hp, _, _, h => h p2 p hp (fun _ => ⟨rfl, rfl⟩)
  | t :: b, r, p2, p, hp, hi, hd, h => by
    rw [List.mem_cons, not_or] at hi hd
    refine ⟨fun e => absurd e.symm hi.1, fun e => absurd e hp, ?_⟩
    refine place_body b r p (some t) (by simpa using fun e => hd.1 e.symm) hi.2 hd.2 ?_
    intro q2 q hq _
    exact h q2 q hq (by simp)

omit [DecidableEq T] in
theorem place_indents (hid : indent ≠ dedent) : ∀ (k : Nat) (r : List T) (p2 p : Option T),
    (p = none ∨ p = some indent ∨ (p = some newline ∧ (0 < k → p2 ≠ some dedent))) →
    newline ≠ dedent →
    (∀ q2 q, q ≠ some dedent → Place indent dedent newline q2 q r) →
    Place indent dedent newline p2 p (List.replicate k indent ++ r)
  | 0, r, p2, p, hp, hnd, h => by
    refine h p2 p ?_
    rcases hp with rfl | rfl | ⟨rfl, -⟩
    · simp
    · simpa using hid
    · simpa using hnd
  | k + 1, r, p2, p, hp, hnd, h => by
    rw [List.replicate_succ, List.cons_append]
    refine ⟨fun _ => ?_, ?_, ?_⟩
    · rcases hp with rfl | rfl | ⟨rfl, h2⟩
      · exact .inl rfl
      · exact .inr (.inl rfl)
      · exact .inr (.inr ⟨rfl, h2 (by omega)⟩)
    · intro e
      rcases hp with rfl | rfl | ⟨rfl, -⟩
      · cases e
      · exact absurd (Option.some.inj e) hid
      · exact absurd (Option.some.inj e) hnd
    · exact place_indents hid k r p (some indent) (.inr (.inl rfl)) hnd h

omit [DecidableEq T] in
theorem place_dedents (hid : indent ≠ dedent) : ∀ (k : Nat) (r : List T) (p2 p : Option T),
    p ≠ some dedent ∨ p = some dedent → 
    (∀ q2 q, (k = 0 → q = p) → (0 < k → q = some dedent) → Place indent dedent newline q2 q r) →
    Place indent dedent newline p2 p (List.replicate k dedent ++ r)
  | 0, r, p2, p, _, h => h p2 p (fun _ => rfl) (fun h => absurd h (by omega))
  | k + 1, r, p2, p, _, h => by
    rw [List.replicate_succ, List.cons_append]
    refine ⟨fun e => absurd e.symm hid, fun _ => .inl rfl, ?_⟩
    refine place_dedents hid k r p (some dedent) (.inr rfl) ?_
    intro q2 q h1 h2
    refine h q2 q (by omega) (fun _ => ?_)
    cases k with
    | zero => exact h1 rfl
    | succ k => exact h2 (by omega)

omit [DecidableEq T] in
theorem place_markLines (hid : indent ≠ dedent) (hn : newline ≠ indent ∧ newline ≠ dedent) :
    ∀ (ls : List (List T × Option Nat)) (current : Nat) (p2 p : Option T),
    (∀ l ∈ ls, indent ∉ l.1 ∧ dedent ∉ l.1) →
    (p = none ∨ (p = some newline ∧ (p2 = some dedent → depthAfter current ls ≤ current))) →
    Place indent dedent newline p2 p (markLines indent dedent newline current ls)
  | [], current, p2, p, _, hp => by
    rw [markLines]
    rcases hp with rfl | ⟨rfl, -⟩
    · exact fun h => by cases h
    · exact fun h => hn.2 (Option.some.inj h)
  | (b, d) :: ls, current, p2, p, h, hp => by
    rw [List.forall_mem_cons] at h
    simp only [markLines]
    rw [depthAfter_cons] at hp
    have ih := place_markLines hid hn ls (d.getD current)
    generalize d.getD current = e at ih hp ⊢
    rw [List.append_assoc, List.append_assoc, List.append_assoc]
    refine place_indents hid _ _ p2 p ?_ hn.2 ?_
    · rcases hp with rfl | ⟨rfl, h2⟩
      · exact .inl rfl
      · refine .inr (.inr ⟨rfl, fun hk e2 => ?_⟩)
        have := h2 e2
        omega
    · intro q2 q hq
      refine place_body b _ q2 q hq h.1.1 h.1.2 ?_
      intro r2 r hr _
      refine place_dedents hid _ _ r2 r (Classical.em _).symm ?_
      intro s2 s hs1 hs2
      rw [List.singleton_append]
      refine ⟨fun e => absurd e hn.1, fun _ => .inr rfl, ?_⟩
      refine ih s (some newline) h.2 (.inr ⟨rfl, fun hs => ?_⟩)
      by_contra hlt
      have : s = r := hs1 (by omega)
      rw [this] at hs
      exact hr hs

omit [DecidableEq T] in
theorem place_at (hni : newline ≠ indent) : ∀ (ts : List T) (p2 p : Option T), Place indent dedent newline p2 p ts →
    ∀ pre t post, ts = pre ++ t :: post →
      (t = indent → pre = [] ∧ (p = none ∨ p = some indent ∨ p = some newline)
        ∨ pre.getLast? = some indent ∨ pre.getLast? = some newline)
      ∧ (t = dedent → post.head? = some dedent ∨ post.head? = some newline)
      ∧ (t = dedent → ∀ post', post = newline :: post' → post'.head? = some indent → False)
  | [], _, _, _, pre, t, post, e => by simp at e
  | x :: ts, p2, p, h, [], t, post, e => by
    simp only [List.nil_append, List.cons.injEq] at e
    obtain ⟨rfl, rfl⟩ := e
    obtain ⟨h1, h2, h3⟩ := h
    refine ⟨fun e => .inl ⟨rfl, ?_⟩, fun e => ?_, fun e post' e' hh => ?_⟩
    · rcases h1 e with h | h | ⟨h, -⟩
      · exact .inl h
      · exact .inr (.inl h)
      · exact .inr (.inr h)
    · subst e
      cases ts with
      | nil => exact absurd rfl h3
      | cons y ts =>
        rcases h3.2.1 rfl with rfl | rfl
        · exact .inl rfl
        · exact .inr rfl
    · subst e e'
      cases post' with
      | nil => cases hh
      | cons y ts =>
        obtain rfl : y = indent := Option.some.inj hh
        obtain ⟨-, -, h5, -⟩ := h3
        rcases h5 rfl with h | h | ⟨-, h⟩
        · cases h
        · exact hni (Option.some.inj h)
        · exact h rfl
  | x :: ts, p2, p, h, y :: pre, t, post, e => by
    simp only [List.cons_append, List.cons.injEq] at e
    obtain ⟨rfl, rfl⟩ := e
    obtain ⟨-, -, h3⟩ := h
    obtain ⟨h4, h5, h6⟩ := place_at hni _ _ _ h3 pre t post rfl
    refine ⟨fun e => .inr ?_, h5, h6⟩
    rcases h4 e with ⟨rfl, h | h | h⟩ | h | h
    · cases h
    · left; simpa using h
    · right; simpa using h
    · left; cases pre with
      | nil => cases h
      | cons z pre => rw [List.getLast?_cons_cons]; exact h
    · right; cases pre with
      | nil => cases h
      | cons z pre => rw [List.getLast?_cons_cons]; exact h

/-! #### Counters -/

theorem nest_indents (k n : Nat) (r : List T) : MarkersNest indent dedent k (List.replicate n indent ++ r)
    ↔ MarkersNest indent dedent (k + n) r := by
  induction n generalizing k with
  | zero => rfl
  | succ n ih =>
    rw [List.replicate_succ, List.cons_append, MarkersNest, if_pos rfl, ih]
    rw [show k + 1 + n = k + (n + 1) by omega]

theorem nest_dedents (hid : indent ≠ dedent) (k n : Nat) (r : List T)
    (h : MarkersNest indent dedent k r) :
    MarkersNest indent dedent (k + n) (List.replicate n dedent ++ r) := by
  induction n with
  | zero => exact h
  | succ n ih =>
    rw [List.replicate_succ, List.cons_append, MarkersNest, if_neg hid.symm, if_pos rfl]
    exact ⟨by omega, ih⟩

theorem nest_body (k : Nat) (b r : List T) (hi : indent ∉ b) (hd : dedent ∉ b) :
    MarkersNest indent dedent k (b ++ r) ↔ MarkersNest indent dedent k r := by
  induction b with
  | nil => rfl
  | cons t b ih =>
    rw [List.mem_cons, not_or] at hi hd
    rw [List.cons_append, MarkersNest, if_neg (fun e => hi.1 e.symm), if_neg (fun e => hd.1 e.symm),
      ih hi.2 hd.2]

theorem nest_markLines (hid : indent ≠ dedent) (hn : newline ≠ indent ∧ newline ≠ dedent) :
    ∀ (ls : List (List T × Option Nat)) (current : Nat),
    (∀ l ∈ ls, indent ∉ l.1 ∧ dedent ∉ l.1) →
    MarkersNest indent dedent (min current (depthAfter current ls))
      (markLines indent dedent newline current ls)
  | [], current, _ => by simp [markLines, depthAfter, MarkersNest]
  | (b, d) :: ls, current, h => by
    rw [List.forall_mem_cons] at h
    have ih := nest_markLines hid hn ls (d.getD current) h.2
    simp only [markLines, depthAfter_cons]
    generalize d.getD current = e at ih ⊢
    rw [List.append_assoc, List.append_assoc, List.append_assoc, nest_indents, nest_body _ _ _ h.1.1 h.1.2,
      show min current e + (e - current) = min e (depthAfter e ls) + (e - depthAfter e ls) by omega]
    refine nest_dedents hid _ _ _ ?_
    rw [List.singleton_append, MarkersNest, if_neg hn.1, if_neg hn.2]
    exact ih

end

end RUSure.Lemmas
