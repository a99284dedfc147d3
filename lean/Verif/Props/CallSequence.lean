import Verif.Lemmas.CallGrammar
import Verif.Lemmas.CallBaselines
import Verif.Lemmas.WhiteDecos

/-!
# C51: extraction of calls and its baselines
-/

namespace RUSure.Props
open RUSure RUSure.Spec RUSure.Lemmas

/-! ### The context -/

theorem walk_leaves {M : Type} : (∀ (n : Node M) (path : List Nat), (walkNode false false path n).map Prod.fst = leavesN n)
    ∧ ∀ (ns : List (Node M)) (pp : List Nat) (c : Nat), (walkFrom false false pp c ns).map Prod.fst = leaves ns := by
  apply Node.induct
  case hg =>
    intro cs mt ih path
    simp [walkNode, leavesN, ih]
  case hcons =>
    intro n ns h1 h2 pp c
    rw [walkFrom, List.map_append, h1, h2, leaves]
  all_goals intros
  all_goals rfl

theorem contextTokens_mem {M : Type} (location : Nat) (t : Text) : ∀ (ws : List (Node M × List Nat × WalkTag))
    (pre : List (Node M)) (seen : List Text), (∀ n, ws.map Prod.fst = n → ∀ cs mt, .group cs mt ∉ n) →
    ((pre.flatMap leafText).length < location ∨ ∀ y ∈ pre, ¬ IsTextLeaf y) →
    (t ∈ contextTokensLoop location ws (pre.flatMap leafText).length seen ↔ t ∈ seen
      ∨ ∃ l mt r, ws.map Prod.fst = l ++ .tok t mt :: r
        ∧ (((pre ++ l).flatMap leafText).length < location ∨ ∀ y ∈ pre ++ l, ¬ IsTextLeaf y)) := by
  intro ws
  induction ws with
  | nil => intro pre seen _ _; simp [contextTokensLoop]
  | cons w ws ih =>
    intro pre seen hg hpre
    obtain ⟨n, path, tag⟩ := w
    have hg' : ∀ n, ws.map Prod.fst = n → ∀ cs mt, .group cs mt ∉ n := by
      rintro _ rfl cs mt hm
      exact hg _ rfl cs mt (by rw [List.map_cons]; exact List.mem_cons_of_mem _ hm)
    have hlen : ((pre ++ [n]).flatMap leafText).length = (pre.flatMap leafText).length + (leafText n).length := by
      simp
    have hsplit : ∀ (Q : List (Node M) → Prop), (∃ l mt r, n :: ws.map Prod.fst = l ++ .tok t mt :: r ∧ Q (pre ++ l))
        ↔ ((∃ mt, n = .tok t mt) ∧ Q pre)
          ∨ ∃ l mt r, ws.map Prod.fst = l ++ .tok t mt :: r ∧ Q (pre ++ [n] ++ l) := by
      intro Q
      constructor
      · rintro ⟨l, mt, r, h1, h2⟩
        cases l with
        | nil =>
          simp only [List.nil_append, List.cons.injEq] at h1
          exact .inl ⟨⟨mt, h1.1⟩, by simpa using h2⟩
        | cons y l =>
          simp only [List.cons_append, List.cons.injEq] at h1
          obtain ⟨rfl, h1⟩ := h1
          exact .inr ⟨l, mt, r, h1, by simpa using h2⟩
      · rintro (⟨⟨mt, rfl⟩, h⟩ | ⟨l, mt, r, h1, h2⟩)
        · exact ⟨[], mt, _, rfl, by simpa using h⟩
        · exact ⟨n :: l, mt, r, by rw [h1]; rfl, by simpa using h2⟩
    have stop : IsTextLeaf n → location ≤ ((pre ++ [n]).flatMap leafText).length →
        ¬ ∃ l mt r, ws.map Prod.fst = l ++ .tok t mt :: r
          ∧ (((pre ++ [n] ++ l).flatMap leafText).length < location ∨ ∀ y ∈ pre ++ [n] ++ l, ¬ IsTextLeaf y) := by
      rintro hn hle ⟨l, mt, r, -, h | h⟩
      · rw [List.flatMap_append, List.length_append] at h
        omega
      · exact h n (by simp) hn
    rw [List.map_cons]
    dsimp only
    rw [hsplit fun x => (x.flatMap leafText).length < location ∨ ∀ y ∈ x, ¬ IsTextLeaf y]
    cases n with
    | tok u mu =>
      rw [contextTokensLoop]
      have e : (∃ mt, Node.tok u mu = Node.tok t mt) ↔ t = u := by simp [eq_comm]
      rw [e]
      split
      · rename_i hle
        have := stop trivial (by rw [hlen]; exact hle)
        rw [iff_false_intro this, or_false, and_iff_left hpre, List.mem_append, List.mem_singleton]
      · rename_i hle
        have hpre' : ((pre ++ [Node.tok u mu]).flatMap leafText).length < location := by
          rw [hlen]
          simpa [leafText] using hle
        rw [show (pre.flatMap leafText).length + u.length = ((pre ++ [Node.tok u mu]).flatMap leafText).length from hlen.symm,
          ih (pre ++ [Node.tok u mu]) (seen ++ [u]) hg' (.inl hpre')]
        simp only [and_iff_left hpre, List.mem_append, List.mem_singleton, or_assoc]
    | deco u =>
      rw [contextTokensLoop]
      have e : (∃ mt, Node.deco (M := M) u = Node.tok t mt) ↔ False := by simp
      rw [e, false_and, false_or]
      split
      · rename_i hle
        have := stop trivial (by rw [hlen]; exact hle)
        simp only [this, or_false]
      · rename_i hle
        have hpre' : ((pre ++ [Node.deco (M := M) u]).flatMap leafText).length < location := by
          rw [hlen]
          simpa [leafText] using hle
        rw [show (pre.flatMap leafText).length + u.length = ((pre ++ [Node.deco (M := M) u]).flatMap leafText).length
            from hlen.symm, ih (pre ++ [Node.deco u]) seen hg' (.inl hpre')]
    | group cs mt => exact absurd List.mem_cons_self (hg _ rfl cs mt)
    | rstart =>
      have e : (∃ mt, Node.rstart (M := M) = Node.tok t mt) ↔ False := by simp
      rw [contextTokensLoop, e, false_and, false_or]
      · have h := ih (pre ++ [Node.rstart]) seen hg' (by
          rcases hpre with h | h
          · left
            rw [hlen]
            simpa [leafText] using h
          · right
            intro y hy
            rw [List.mem_append, List.mem_singleton] at hy
            rcases hy with hy | rfl
            · exact h y hy
            · exact fun h => h)
        rw [hlen] at h
        exact h
      all_goals simp
    | rend =>
      have e : (∃ mt, Node.rend (M := M) = Node.tok t mt) ↔ False := by simp
      rw [contextTokensLoop, e, false_and, false_or]
      · have h := ih (pre ++ [Node.rend]) seen hg' (by
          rcases hpre with h | h
          · left
            rw [hlen]
            simpa [leafText] using h
          · right
            intro y hy
            rw [List.mem_append, List.mem_singleton] at hy
            rcases hy with hy | rfl
            · exact h y hy
            · exact fun h => h)
        rw [hlen] at h
        exact h
      all_goals simp
    | exit =>
      have e : (∃ mt, Node.exit (M := M) = Node.tok t mt) ↔ False := by simp
      rw [contextTokensLoop, e, false_and, false_or]
      · have h := ih (pre ++ [Node.exit]) seen hg' (by
          rcases hpre with h | h
          · left
            rw [hlen]
            simpa [leafText] using h
          · right
            intro y hy
            rw [List.mem_append, List.mem_singleton] at hy
            rcases hy with hy | rfl
            · exact h y hy
            · exact fun h => h)
        rw [hlen] at h
        exact h
      all_goals simp

theorem leaves_noGroup {M : Type} : (∀ n : Node M, ∀ cs mt, .group cs mt ∉ leavesN n)
    ∧ ∀ ns : List (Node M), ∀ cs mt, .group cs mt ∉ leaves ns := by
  apply Node.induct
  case hg =>
    intro cs mt ih cs' mt'
    exact ih cs' mt'
  case hcons =>
    intro n ns h1 h2 cs mt
    rw [leaves, List.mem_append, not_or]
    exact ⟨h1 cs mt, h2 cs mt⟩
  all_goals intros
  all_goals simp [leavesN, leaves]

/-- **C51.** The tokens of the context are those that start before the location (or that have no text
before them). -/
theorem C51_context {M : Type} (nodes : List (Node M)) (location : Nat) (t : Text) :
    t ∈ extractContextTokens nodes location ↔ ∃ l mt r, leaves nodes = l ++ .tok t mt :: r
      ∧ ((l.flatMap leafText).length < location ∨ ∀ y ∈ l, ¬ IsTextLeaf y) := by
  unfold extractContextTokens walkWithPaths
  have hl := walk_leaves.2 nodes [] 0
  have := contextTokens_mem location t (walkFrom false false [] 0 nodes) [] [] (by
    rintro _ rfl cs mt hm
    rw [hl] at hm
    exact leaves_noGroup.2 nodes cs mt hm) (.inr (by simp))
  rw [hl] at this
  simpa using this

/-! ### The calls -/

/-- **C51.** The calls of a sibling list exist and are determined, and they are what is extracted. -/
theorem C51_calls (nodes : List (Node MatchName)) :
    ∃ fs, CallsIn nodes fs ∧ (∀ fs', CallsIn nodes fs' → fs' = fs)
      ∧ ∀ cc expected, extractAllFrom cc expected nodes = fs.map (callNodes cc expected) := by
  obtain ⟨fs, h1, h2⟩ := extracts_all nodes
  exact ⟨fs, h1, fun fs' h => unique_all nodes _ _ h h1, h2⟩

theorem lastNewline_at : ∀ (t : Text) (pre : Text) (k : Nat), LastNewlineAt pre k →
    LastNewlineAt (pre ++ t) (lastNewline t pre.length k)
  | [], pre, k, h => by simpa [lastNewline] using h
  | c :: t, pre, k, h => by
    have e : pre ++ c :: t = (pre ++ [c]) ++ t := by simp
    rw [lastNewline, e, show pre.length + 1 = (pre ++ [c]).length by simp]
    refine lastNewline_at t (pre ++ [c]) _ ?_
    by_cases hc : c = '\n'
    · rw [if_pos hc]
      left
      refine ⟨by simp [hc], fun j hj => ?_⟩
      rw [List.getElem?_eq_none (by simp; omega)]
      simp
    · rw [if_neg hc]
      have hne : ∀ j : Nat, (pre ++ [c])[j]? = some '\n' ↔ pre[j]? = some '\n' := by
        intro j
        rcases Nat.lt_trichotomy j pre.length with hj | rfl | hj
        · rw [List.getElem?_append_left hj]
        · simp [hc]
        · rw [List.getElem?_eq_none (by simp; omega), List.getElem?_eq_none (by omega)]
      rcases h with ⟨h1, h2⟩ | ⟨h1, h2⟩
      · exact .inl ⟨(hne k).mpr h1, fun j hj h => h2 j hj ((hne j).mp h)⟩
      · refine .inr ⟨h1, ?_⟩
        simp only [List.mem_append, List.mem_singleton, not_or]
        exact ⟨h2, fun h => hc h.symm⟩

/-- **C51.** The tree of a program has the calls of what comes after the last newline before the location.
Tokens of the context and built-in ones are expected. -/
theorem C51_tree (cc : CharClass) (builtin : List Text) (nodes : List (Node MatchName)) (location : Nat) :
    ∃ k fs, LastNewlineAt ((text nodes).take location) k ∧ CallsIn (truncatePrefix nodes k) fs
      ∧ makeCallseqTree cc builtin nodes location
        = callTree cc (extractContextTokens nodes location ++ builtin) fs := by
  obtain ⟨fs, h1, -, h2⟩ := C51_calls (truncatePrefix nodes (lastNewline ((text nodes).take location) 0 0 : Nat))
  refine ⟨_, fs, ?_, h1, ?_⟩
  · have := lastNewline_at ((text nodes).take location) [] 0 (.inr ⟨rfl, by simp⟩)
    simpa using this
  · unfold makeCallseqTree
    rw [C06_render_is_text]
    dsimp only
    rw [h2, List.flatMap_map]
    rfl

theorem text_flatMap {A : Type} {M : Type} (f : A → List (Node M)) (l : List A) :
    text (l.flatMap f) = l.flatMap fun x => text (f x) := by
  induction l with
  | nil => rfl
  | cons x l ih => rw [List.flatMap_cons, List.flatMap_cons, ← ih, text, leaves_append, List.flatMap_append]; rfl

mutual
theorem callsIn_flat : ∀ {cs fs}, CallsIn cs fs → ∀ f ∈ fs, ∀ n ∈ f.name, ∀ cs mt, n ≠ .group cs mt
  | _, _, .call h hb, f, hf => by
    rw [List.mem_cons] at hf
    rcases hf with rfl | hf
    · exact h.flat
    · exact callsBelow_flat hb f hf
  | _, _, .other _ hb, f, hf => callsBelow_flat hb f hf

theorem callsBelow_flat : ∀ {cs fs}, CallsBelow cs fs → ∀ f ∈ fs, ∀ n ∈ f.name, ∀ cs mt, n ≠ .group cs mt
  | _, _, .nil, f, hf => by cases hf
  | _, _, .leaf _ hb, f, hf => callsBelow_flat hb f hf
  | _, _, .group h hb, f, hf => by
    rw [List.mem_append] at hf
    rcases hf with hf | hf
    · exact callsIn_flat h f hf
    · exact callsBelow_flat hb f hf
end

theorem callPart_text (cc : CharClass) (ex : List Text) {n : Node MatchName} (h : ∀ cs mt, n ≠ .group cs mt) :
    text (callPart cc ex n) = text [n] := by
  cases n with
  | tok t mt =>
    simp only [callPart]
    split
    · rename_i h
      rw [h.1]
      rfl
    · rfl
  | deco t =>
    simp only [callPart]
    split <;> simp [text, leaves, leavesN, leafText]
  | group cs mt => exact absurd rfl (h cs mt)
  | _ => rfl

theorem callParts_text (cc : CharClass) (ex : List Text) : ∀ {ns : List (Node MatchName)},
    (∀ n ∈ ns, ∀ cs mt, n ≠ .group cs mt) → text (ns.flatMap (callPart cc ex)) = text ns
  | [], _ => rfl
  | n :: ns, h => by
    have h1 := callPart_text cc ex (h n (by simp))
    have h2 := callParts_text cc ex (ns := ns) fun m hm => h m (by simp [hm])
    rw [List.flatMap_cons]
    unfold text at h1 h2 ⊢
    rw [leaves_append, List.flatMap_append, h1, h2]
    simp [leaves]

/-- **C51.** The texts of the prototype and of the target are those of the calls, one per line: the name, and
the arguments between parentheses. The target has no markers. -/
theorem C51_text (cc : CharClass) (builtin : List Text) (nodes : List (Node MatchName)) (location : Nat) :
    ∃ k fs, LastNewlineAt ((text nodes).take location) k ∧ CallsIn (truncatePrefix nodes k) fs
      ∧ text (makeCallseqTree cc builtin nodes location)
        = (fs.flatMap fun f => text f.name ++ ['('] ++ text [f.args] ++ [')', '\n'])
      ∧ processCallPrototype cc builtin nodes location = pack (makeCallseqTree cc builtin nodes location)
      ∧ ∃ target, processCallTarget cc builtin nodes location = pack target ∧ DecisionFree target
        ∧ text target = text (makeCallseqTree cc builtin nodes location) := by
  obtain ⟨k, fs, h1, h2, h3⟩ := C51_tree cc builtin nodes location
  refine ⟨k, fs, h1, h2, ?_, rfl, _, rfl, (C07_strip_idempotent _).2, ?_⟩
  · rw [h3, callTree, text_flatMap]
    have hf := callsIn_flat h2
    clear h1 h2 h3
    induction fs with
    | nil => rfl
    | cons f fs ih =>
      rw [List.flatMap_cons, List.flatMap_cons, ih fun g hg => hf g (by simp [hg])]
      congr 1
      have := callParts_text cc (extractContextTokens nodes location ++ builtin) (hf f (by simp))
      rw [← this]
      simp [text, leaves, leavesN, leafText, callNodes, leaves_append]
  · exact (C06_transforms_preserve_text _).2.2.2.2.2

/-! ### The baselines -/

/-- **C51.** If the decorations in the names are white space, the baselines are found. Each can be completed
in exactly one way, and then: all of each call is in a region; or only what comes after the last white space up
to the opening parenthesis; or only that, and only for calls with a novel token in it. -/
theorem C51_baselines (cc : CharClass) (expected : List Text) {fs : List FoundCall} (hw : WhiteNames cc fs) :
    ∃ b, callBaselines (pack (callTree cc expected fs)) = .ok b
      ∧ Determines (callTree cc expected fs) b.full (fs.flatMap FoundCall.showFull)
      ∧ Determines (callTree cc expected fs) b.shorter (fs.flatMap FoundCall.showShorter)
      ∧ Determines (callTree cc expected fs) b.novel
        (fs.flatMap fun f => if f.isNovel expected then f.showShorter else f.showNone) :=
  callBaselines_ok hw

/-- **C51.** For programs of every language: whatever the code and the location, the calls after the last
newline before the location are found, and so are the baselines, each of which can be completed in exactly one
way. -/
theorem C51_programs {digit : Char → Bool} (hd : DigitSane digit) {cc : CharClass} (hb : BracketsVisible cc)
    (lang : SourceLanguage) (flatten : Bool) {code : Text} {nodes : List (Node MatchName)}
    (h : parseToNodes cc digit (.parsed lang) flatten code = .ok nodes) (builtin : List Text) (location : Nat) :
    ∃ k fs b, LastNewlineAt (code.take location) k ∧ CallsIn (truncatePrefix nodes k) fs
      ∧ processCallPrototype cc builtin nodes location
        = pack (callTree cc (extractContextTokens nodes location ++ builtin) fs)
      ∧ callBaselines (processCallPrototype cc builtin nodes location) = .ok b
      ∧ Determines (makeCallseqTree cc builtin nodes location) b.full (fs.flatMap FoundCall.showFull)
      ∧ Determines (makeCallseqTree cc builtin nodes location) b.shorter (fs.flatMap FoundCall.showShorter)
      ∧ Determines (makeCallseqTree cc builtin nodes location) b.novel
        (fs.flatMap fun f => if f.isNovel (extractContextTokens nodes location ++ builtin) then f.showShorter
          else f.showNone) := by
  obtain ⟨k, fs, h1, h2, h3⟩ := C51_tree cc builtin nodes location
  have hw := white_calls _ fs h2 (truncate_white (parsed_white hd lang flatten h) k)
  obtain ⟨b, h4⟩ := C51_baselines cc (extractContextTokens nodes location ++ builtin) hw
  unfold processCallPrototype
  rw [h3]
  refine ⟨k, fs, b, ?_, h2, rfl, h4⟩
  rwa [parsed_text hd hb lang flatten h] at h1

-- A program with a context and one call, `y = b.f(g(1))`, whose last token is novel: the call is shown from `b`
-- to the parenthesis.
example : (do
    let nodes ← parseToNodes asciiClass asciiDigit (.parsed .python) false
      ['b', '\n', 'y', ' ', '=', ' ', 'b', '.', 'f', '(', 'g', '(', '1', ')', ')']
    let S := processCallPrototype asciiClass [] nodes 3
    match callBaselines S with
    | .ok b =>
      return (renderTextL (makeCallseqTree asciiClass [] nodes 3), extractContextTokens nodes 3,
        b.novel = b.shorter && b.shorter.filter (·.2 = .yes) = [(⟨7, .start⟩, .yes), (⟨13, .stop⟩, .yes)])
    | .error _ => .error .assertion : Except ParseFail _)
    = .ok (['y', ' ', '=', ' ', 'b', '.', 'f', '(', 'g', '(', '1', ')', ')', '\n'], [['b'], ['y']], true) := by
  decide +kernel

/-- **C51** (disagreement). For other trees the baselines can fail: here a decoration in the name has no text,
no region can start after it, and an assertion fails. -/
theorem C51_empty_decoration : ∃ fs, CallsIn
      [.tok ['f'] (.nodeType .contentLeaf), .deco [], .tok ['g'] (.nodeType .contentLeaf),
        .group [.tok ['('] (.nodeType .matchLeft), .tok [] (.nodeType .matchInner),
          .tok [')'] (.nodeType .matchRight)] (.nodeType .matched)] fs
    ∧ callBaselines (pack (callTree asciiClass [] fs)) = .error .assertion := by
  refine ⟨[⟨[.tok ['f'] (.nodeType .contentLeaf), .deco [], .tok ['g'] (.nodeType .contentLeaf)],
    .tok [] (.nodeType .matchInner)⟩], .call (after := []) ?_ .nil, rfl⟩
  refine ⟨⟨[], .tok [')'] (.nodeType .matchRight), rfl, by simp⟩, by simp, ?_, ⟨['g'], _, rfl⟩⟩
  intro n hn
  cases hn
  simp

end RUSure.Props
