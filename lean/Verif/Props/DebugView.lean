import Verif.Lemmas.DebugView
import Verif.Lemmas.Svg

/-!
# C74: debug views have a line for each node, and tell trees of short texts apart
-/

namespace RUSure.Props
open RUSure.Debug

section
variable {M : Type}

/-- C74: the `repr` of a string is a literal of that string, and all its characters are printable. -/
theorem C74_repr (printable : Char → Bool) (t : Text) : Literal (pyRepr printable t) t
    ∧ ∀ c ∈ pyRepr printable t, 32 ≤ c.toNat ∧ c.toNat < 127 ∨ printable c = true :=
  ⟨repr_literal printable t, repr_plain printable t⟩

/-- C74: a debug view consists of a line for each node, parents before children and from left to right,
indented by two spaces for each group around the node. -/
theorem C74_lines (printable : Char → Bool) (names : M → Option Text) (ns : List (Node M)) :
    renderDebug printable names ns = List.intercalate ['\n']
      ((rows 0 ns).map fun r => List.replicate (2 * r.1) ' ' ++ line printable names r.2) := by
  rw [renderDebug, debugNodes_lines]
  refine congrArg _ (List.map_congr_left fun r _ => ?_)
  rw [line_eq_said]
  rfl

theorem split_line (l r : Text) (h : '\n' ∉ l) : Draw.splitLines (l ++ '\n' :: r) = l :: Draw.splitLines r := by
  induction l with
  | nil => simp [Draw.splitLines]
  | cons c l ih =>
    rw [List.cons_append, Draw.splitLines, if_neg (fun e : c = '\n' => h (e ▸ List.mem_cons_self ..)),
      ih fun m => h (List.mem_cons_of_mem _ m)]

theorem split_last (l : Text) (h : '\n' ∉ l) : Draw.splitLines l = [l] := by
  induction l with
  | nil => simp [Draw.splitLines]
  | cons c l ih =>
    rw [Draw.splitLines, if_neg (fun e : c = '\n' => h (e ▸ List.mem_cons_self ..)),
      ih fun m => h (List.mem_cons_of_mem _ m)]

theorem split_lines (ls : List Text) (h0 : ls ≠ []) (h : ∀ l ∈ ls, '\n' ∉ l) :
    Draw.splitLines (List.intercalate ['\n'] ls) = ls := by
  induction ls with
  | nil => exact (h0 rfl).elim
  | cons l ls ih =>
    by_cases e : ls = []
    · subst e
      rw [show List.intercalate ['\n'] [l] = l by simp [List.intercalate]]
      exact split_last l (h l (List.mem_cons_self ..))
    · rw [intercalate_cons l e, split_line _ _ (h l (List.mem_cons_self ..)),
        ih e fun x hx => h x (List.mem_cons_of_mem _ hx)]

/-- C74: whatever the texts are, the lines of a debug view are those of the nodes: newlines in texts do
not break lines. -/
theorem C74_one_line_each (printable : Char → Bool) (names : M → Option Text)
    (hn : ∀ m t, names m = some t → '\n' ∉ t) (ns : List (Node M)) (h0 : ns ≠ []) :
    Draw.splitLines (renderDebug printable names ns)
        = (rows 0 ns).map (fun r => List.replicate (2 * r.1) ' ' ++ line printable names r.2)
      ∧ (Draw.splitLines (renderDebug printable names ns)).length = (rows 0 ns).length := by
  have key : Draw.splitLines (renderDebug printable names ns)
      = (rows 0 ns).map (fun r => List.replicate (2 * r.1) ' ' ++ line printable names r.2) := by
    rw [C74_lines]
    apply split_lines
    · cases ns with
      | nil => exact (h0 rfl).elim
      | cons n ns =>
        rw [rows.eq_def]
        simp
    · intro l hl
      obtain ⟨r, -, rfl⟩ := List.mem_map.mp hl
      rw [line_eq_said]
      intro hm
      rcases List.mem_append.mp hm with hm | hm
      · exact absurd (List.eq_of_mem_replicate hm) (by decide)
      · exact line_newline printable names hn r.2 hm
  exact ⟨key, by rw [key, List.length_map]⟩

/-- C74: sequences whose tokens and decorations have at most 80 characters have the same debug view only
if they are the same. -/
theorem C74_injective (printable : Char → Bool) (names : M → Option Text) (hi : Function.Injective names)
    (hn : ∀ m t, names m = some t → ')' ∉ t ∧ '\n' ∉ t) (ns ns' : List (Node M)) (h1 : Short ns) (h2 : Short ns')
    (h : renderDebug printable names ns = renderDebug printable names ns') : ns = ns' := by
  have fine : ∀ (ms : List (Node M)), ∀ l ∈ (rows 0 ms).map (rowText printable names), '\n' ∉ l ∧ l ≠ [] := by
    intro ms l hl
    obtain ⟨r, -, rfl⟩ := List.mem_map.mp hl
    constructor
    · intro hm
      rcases List.mem_append.mp hm with hm | hm
      · exact absurd (List.eq_of_mem_replicate hm) (by decide)
      · exact line_newline printable names (fun m t e => (hn m t e).2) r.2 hm
    · obtain ⟨c, s, e, -, -⟩ := line_head printable names r.2
      unfold rowText
      rw [e]
      simp
  rw [renderDebug, renderDebug, debugNodes_lines, debugNodes_lines] at h
  have h3 := intercalate_inj (fine ns) (fine ns') h
  refine (rows_inj ns ns' 0 [] [] (fun _ e => by cases e) (fun _ e => by cases e) ?_).1
  rw [List.append_nil, List.append_nil]
  have short : ∀ {ms : List (Node M)}, Short ms → ∀ r ∈ rows 0 ms, ShortNode r.2 := by
    intro ms hs r hr
    have := hs r hr
    obtain ⟨d, n⟩ := r
    cases n <;> exact this
  have s1 := short h1
  have s2 := short h2
  generalize rows 0 ns = a at h3 s1
  generalize rows 0 ns' = b at h3 s2
  induction a generalizing b with
  | nil =>
    cases b with
    | nil => rfl
    | cons y b => cases h3
  | cons x a ih =>
    cases b with
    | nil => cases h3
    | cons y b =>
      simp only [List.map_cons, List.cons.injEq] at h3
      obtain ⟨e1, e2⟩ := row_inj printable names hi (fun m t e => (hn m t e).1) (s1 x (List.mem_cons_self ..))
        (s2 y (List.mem_cons_self ..)) h3.1
      rw [List.map_cons, List.map_cons, e1, e2,
        ih (fun r hr => s1 r (List.mem_cons_of_mem _ hr)) b h3.2 fun r hr => s2 r (List.mem_cons_of_mem _ hr)]

/-- C74: longer tokens are not told apart: the view of a token of more than 80 characters is that of any
other one with the same first 77 characters. -/
theorem C74_ambiguous (printable : Char → Bool) (names : M → Option Text) (m : M) (t t' : Text)
    (h1 : 80 < t.length) (h2 : 80 < t'.length) (h : t.take 77 = t'.take 77) :
    renderDebug printable names [.tok t m] = renderDebug printable names [.tok t' m] := by
  rw [renderDebug, renderDebug]
  simp only [debugNodes, debugNode]
  rw [summarize, summarize, if_pos h1, if_pos h2, h]

end

namespace DebugExamples

/-- Match types are `None` or strings. -/
def names : Option Text → Option Text := id

/-- The tree of `sequence_node_helpers_test.py:27-43`. -/
def sample : List (Node (Option Text)) :=
  [.group [.tok ['a'] (some "token type".toList), .deco [' '], .tok ['b'] none, .exit, .deco [' '],
    .group [.rstart, .tok ['('] none, .tok ['c'] none, .deco [' '], .tok ['d'] none, .tok [')'] none, .rend]
      (some "group type".toList)] none]

-- The view of `sequence_node_helpers_test.py:66-84`.
example : renderDebug (fun _ => false) names sample = List.intercalate ['\n']
    ["GROUP: 'a b (c d)'".toList, "  TOK(token type): 'a'".toList, "  DEC: ' '".toList, "  TOK: 'b'".toList,
      "  EarlyExitNode()".toList, "  DEC: ' '".toList, "  GROUP(group type): '(c d)'".toList,
      "    RegionStartNode()".toList, "    TOK: '('".toList, "    TOK: 'c'".toList, "    DEC: ' '".toList,
      "    TOK: 'd'".toList, "    TOK: ')'".toList, "    RegionEndNode()".toList] := by
  rw [C74_lines]
  simp only [sample, rows, List.map_cons, List.map_nil, List.append_nil, List.cons_append, List.nil_append]
  decide +kernel

-- Newlines and quotation marks are escaped.
example : pyRepr (fun _ => false) "a\n'b'".toList = "\"a\\n'b'\"".toList := by decide +kernel
example : pyRepr (fun _ => false) "it's \"é\"".toList = "'it\\'s \"\\xe9\"'".toList := by decide +kernel
example : pyRepr (fun c => c = 'é') "é\x01".toList = "'é\\x01'".toList := by decide +kernel

-- The texts of the sample are short.
example : Short sample := by
  simp only [Short, sample, rows, List.append_nil, List.cons_append, List.nil_append, List.forall_mem_cons,
    List.length_cons, List.length_nil]
  refine ⟨trivial, by decide, by decide, by decide, trivial, by decide, trivial, trivial, by decide, by decide,
    by decide, by decide, by decide, trivial, ?_⟩
  intro x hx
  cases hx

/-- Match types without brackets and newlines. -/
abbrev Plain : Type := Option {t : Text // ')' ∉ t ∧ '\n' ∉ t}

-- The hypotheses of `C74_injective` on match types hold of these.
example (ns ns' : List (Node Plain)) (h1 : Short ns) (h2 : Short ns')
    (h : renderDebug (fun _ => false) (Option.map Subtype.val) ns
      = renderDebug (fun _ => false) (Option.map Subtype.val) ns') : ns = ns' :=
  C74_injective _ _ (Option.map_injective Subtype.val_injective) (fun m t e => by
    obtain ⟨x, -, rfl⟩ := Option.map_eq_some_iff.mp e
    exact x.2) ns ns' h1 h2 h

-- Two tokens that differ at the end look the same.
example : renderDebug (fun _ => false) names [.tok (List.replicate 80 'a' ++ ['b']) none]
    = renderDebug (fun _ => false) names [.tok (List.replicate 80 'a' ++ ['c']) none] :=
  C74_ambiguous _ _ _ _ _ (by decide) (by decide) (by decide)

end DebugExamples

end RUSure.Props
