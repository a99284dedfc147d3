import Verif.Lemmas.Desugar
import Verif.Props.StackParser
import Verif.Props.Subtokenizer

/-!
# C18: indents and dedents of Python code
-/

namespace RUSure.Props
open RUSure RUSure.Spec RUSure.Lemmas
variable {T : Type} [DecidableEq T]

/-- The situation in which the indentation pass is used: a balanced token stream that ends with a
newline, its tree, and two markers that are new tokens. -/
structure Desugarable (pairs : List (T × T)) (indent dedent newline : T) (text : T → Text)
    (encoded : List T) (root : PNode) : Prop where
  table : Table pairs
  balanced : Balanced pairs none encoded
  parsed : bracketMatch pairs true encoded = .ok root
  last : encoded.getLast? = some newline
  plain : PlainTok pairs newline
  newline_text : text newline ≠ []
  markers : indent ≠ dedent
  indent_new : indent ∉ encoded ∧ indent ∉ pairs.map Prod.fst ∧ indent ∉ pairs.map Prod.snd
  dedent_new : dedent ∉ encoded ∧ dedent ∉ pairs.map Prod.fst ∧ dedent ∉ pairs.map Prod.snd

section
variable {pairs : List (T × T)} {indent dedent newline : T} {text : T → Text} {encoded : List T}
  {root : PNode} {cc : CharClass} {spaces : Nat}

/-- **C18.** The pass never fails. The stream is divided into lines at the newlines outside of
brackets, and the result is the stream with markers as in `markLines`: indents before each line that
is deeper than the one before, dedents before the newline in front of each line that is less deep
and before the last newline. The depth of a line is its leading white space in units of `spaces`
characters; blank lines do not change it. -/
theorem C18_lines (h : Desugarable pairs indent dedent newline text encoded root) (hs : 0 < spaces) :
    ∃ bodies, encoded = joinLines newline bodies ∧ (∀ b ∈ bodies, LineBody pairs newline b)
      ∧ desugar cc root (encoded.map text) encoded indent dedent newline spaces
        = .ok (markLines indent dedent newline 0 (withIndentation cc spaces newline text bodies)) :=
  desugar_eq h.table hs h.newline_text h.plain h.balanced h.last h.parsed

theorem desugar_bodies (h : Desugarable pairs indent dedent newline text encoded root) (hs : 0 < spaces)
    {out : List T}
    (ho : desugar cc root (encoded.map text) encoded indent dedent newline spaces = .ok out) :
    ∃ bodies, encoded = joinLines newline bodies ∧ (∀ b ∈ bodies, LineBody pairs newline b)
      ∧ (∀ l ∈ withIndentation cc spaces newline text bodies,
          LineBody pairs newline l.1 ∧ indent ∉ l.1 ∧ dedent ∉ l.1)
      ∧ out = markLines indent dedent newline 0 (withIndentation cc spaces newline text bodies)
      ∧ (newline ≠ indent ∧ newline ≠ dedent) := by
  obtain ⟨bodies, h1, h2, h3⟩ := C18_lines (cc := cc) h hs
  rw [h3] at ho
  have hm : ∀ b ∈ bodies, ∀ t ∈ b, t ∈ encoded := by
    intro b hb t ht
    rw [h1, joinLines, List.mem_flatten]
    exact ⟨b ++ [newline], List.mem_map.mpr ⟨b, hb, rfl⟩, List.mem_append_left _ ht⟩
  refine ⟨bodies, h1, h2, ?_, (Except.ok.inj ho).symm, ?_, ?_⟩
  · intro l hl
    obtain ⟨b, hb, rfl⟩ := List.mem_map.mp hl
    exact ⟨h2 b hb, fun e => h.indent_new.1 (hm b hb _ e), fun e => h.dedent_new.1 (hm b hb _ e)⟩
  · rintro rfl
    exact h.indent_new.1 (List.mem_of_getLast? h.last)
  · rintro rfl
    exact h.dedent_new.1 (List.mem_of_getLast? h.last)

/-- **C18.** Removing the markers gives back the token stream. -/
theorem C18_erase (h : Desugarable pairs indent dedent newline text encoded root) (hs : 0 < spaces)
    {out : List T}
    (ho : desugar cc root (encoded.map text) encoded indent dedent newline spaces = .ok out) :
    out.filter (fun t => t ≠ indent ∧ t ≠ dedent) = encoded := by
  obtain ⟨bodies, h1, h2, h3, rfl, h5⟩ := desugar_bodies h hs ho
  rw [markLines_filter h5 _ _ (fun l hl => (h3 l hl).2), h1, withIndentation, List.map_map]
  congr 1
  exact List.map_id _

/-- **C18.** Indents and dedents are nested: no prefix has more dedents than indents, and there are
as many of the one as of the other in all. -/
theorem C18_nested (h : Desugarable pairs indent dedent newline text encoded root) (hs : 0 < spaces)
    {out : List T}
    (ho : desugar cc root (encoded.map text) encoded indent dedent newline spaces = .ok out) :
    MarkersNest indent dedent 0 out := by
  obtain ⟨bodies, h1, h2, h3, rfl, h5⟩ := desugar_bodies h hs ho
  have := nest_markLines h.markers h5 _ 0 (fun l hl => (h3 l hl).2)
  rwa [Nat.zero_min] at this

/-- **C18.** Indents and dedents are nested with the other brackets too: with them as one more kind
of bracket the stream is balanced, and needs no correction. -/
theorem C18_balanced (h : Desugarable pairs indent dedent newline text encoded root) (hs : 0 < spaces)
    {out : List T}
    (ho : desugar cc root (encoded.map text) encoded indent dedent newline spaces = .ok out) :
    Table (pairs ++ [(indent, dedent)]) ∧ Balanced (pairs ++ [(indent, dedent)]) none out := by
  obtain ⟨bodies, h1, h2, h3, rfl, h5⟩ := desugar_bodies h hs ho
  have hT := table_markers h.table h.indent_new.2.2 h.dedent_new.2.1 h.dedent_new.2.2 h.markers
  refine ⟨hT, ?_⟩
  have hn : PlainTok (pairs ++ [(indent, dedent)]) newline := by
    constructor
    · simp only [List.map_append, List.mem_append, not_or]
      exact ⟨h.plain.1, by simpa using h5.1⟩
    · simp only [List.map_append, List.mem_append, not_or]
      exact ⟨h.plain.2, by simpa using h5.2⟩
  have := run_markLines hT hn _ 0 h3
  rw [Nat.zero_min] at this
  exact bal_balanced.mp ((bal_iff_run hT).mpr this)

/-- **C18.** The number of open indents at each line that is not blank is the indentation of the
line: its leading white space divided by `spaces`. The markers in front of a line are at the start
of the line or before the newline of an earlier line. -/
theorem C18_depth (h : Desugarable pairs indent dedent newline text encoded root) (hs : 0 < spaces)
    {out : List T}
    (ho : desugar cc root (encoded.map text) encoded indent dedent newline spaces = .ok out) :
    ∃ bodies, encoded = joinLines newline bodies ∧ (∀ b ∈ bodies, LineBody pairs newline b)
      ∧ ∀ before line after, bodies = before ++ line :: after →
        ∃ pre post, out = pre ++ line ++ post
          ∧ pre.filter (fun t => t ≠ indent ∧ t ≠ dedent) = joinLines newline before
          ∧ (pre = [] ∨ pre.getLast? = some newline ∨ pre.getLast? = some indent)
          ∧ ∀ d, indentation cc spaces ((line ++ [newline]).flatMap text) = some d →
            pre.count indent = pre.count dedent + d := by
  obtain ⟨bodies, h1, h2, h3, rfl, h5⟩ := desugar_bodies h hs ho
  refine ⟨bodies, h1, h2, ?_⟩
  rintro before line after rfl
  rw [withIndentation, List.map_append, List.map_cons]
  rw [withIndentation, List.map_append, List.map_cons] at h3
  obtain ⟨pre, post, h6, h7, h8, h9⟩ := count_markLines h.markers h5
    (before.map fun b => (b, indentation cc spaces ((b ++ [newline]).flatMap text))) line
    (indentation cc spaces ((line ++ [newline]).flatMap text))
    (after.map fun b => (b, indentation cc spaces ((b ++ [newline]).flatMap text))) 0
    (fun l hl => (h3 l (List.mem_append_left _ hl)).2)
  refine ⟨pre, post, h6, ?_, h8, ?_⟩
  · rw [h9, List.map_map]
    congr 1
    exact List.map_id _
  · intro d hd
    have := h7 d hd
    rwa [Nat.zero_min, Nat.add_zero] at this

/-- **C18.** Indents come at the start or after a newline or another indent. After a dedent comes
another dedent or a newline, and a line whose newline has dedents before it is not followed by
indents. -/
theorem C18_neighbours (h : Desugarable pairs indent dedent newline text encoded root) (hs : 0 < spaces)
    {out : List T}
    (ho : desugar cc root (encoded.map text) encoded indent dedent newline spaces = .ok out) :
    (∀ pre post, out = pre ++ indent :: post →
        pre = [] ∨ pre.getLast? = some indent ∨ pre.getLast? = some newline)
      ∧ (∀ pre post, out = pre ++ dedent :: post →
        post.head? = some dedent ∨ post.head? = some newline)
      ∧ ∀ pre post, out = pre ++ dedent :: newline :: post → post.head? ≠ some indent := by
  obtain ⟨bodies, h1, h2, h3, rfl, h5⟩ := desugar_bodies h hs ho
  have hp := place_markLines h.markers h5 _ 0 none none (fun l hl => (h3 l hl).2) (.inl rfl)
  refine ⟨fun pre post e => ?_, fun pre post e => ?_, fun pre post e hh => ?_⟩
  · rcases (place_at h5.1 _ _ _ hp pre _ post e).1 rfl with ⟨h, -⟩ | h
    · exact .inl h
    · exact .inr h
  · exact (place_at h5.1 _ _ _ hp pre _ post e).2.1 rfl
  · exact (place_at h5.1 _ _ _ hp pre _ _ e).2.2 rfl post rfl hh

end

/-! #### Examples -/

-- The characters `>` and `<` serve as indent and dedent in the examples.
example : Desugarable presetPairs '>' '<' '\n' (fun t => [t])
    ['a', '\n', ' ', 'b', '\n', ' ', ' ', 'c', '(', '\n', ')', '\n', '\n', 'd', '\n']
    (.mk 0 (some 15) .root [leafNode 0, leafNode 1, leafNode 2, leafNode 3, leafNode 4, leafNode 5,
      leafNode 6, leafNode 7, pairedNode 8 10 [leafNode 9], leafNode 11, leafNode 12, leafNode 13,
      leafNode 14]) where
  table := preset_table
  balanced := by rw [← C15_empty preset_table]; decide
  parsed := rfl
  last := rfl
  plain := by constructor <;> decide
  newline_text := by simp
  markers := by decide
  indent_new := by decide
  dedent_new := by decide

-- Two levels, a line break within brackets and a blank line.
example : (bracketMatch presetPairs true
      ['a', '\n', ' ', 'b', '\n', ' ', ' ', 'c', '(', '\n', ')', '\n', '\n', 'd', '\n'] >>= fun root =>
    desugar asciiClass root
      (['a', '\n', ' ', 'b', '\n', ' ', ' ', 'c', '(', '\n', ')', '\n', '\n', 'd', '\n'].map fun t => [t])
      ['a', '\n', ' ', 'b', '\n', ' ', ' ', 'c', '(', '\n', ')', '\n', '\n', 'd', '\n'] '>' '<' '\n' 1)
    = .ok ['a', '\n', '>', ' ', 'b', '\n', '>', ' ', ' ', 'c', '(', '\n', ')', '\n', '<', '<', '\n',
      'd', '\n'] := by rfl

-- Indentation that is not a multiple of the unit is rounded down.
example : (bracketMatch presetPairs true ['a', '\n', ' ', ' ', ' ', 'b', '\n'] >>= fun root =>
    desugar asciiClass root (['a', '\n', ' ', ' ', ' ', 'b', '\n'].map fun t => [t])
      ['a', '\n', ' ', ' ', ' ', 'b', '\n'] '>' '<' '\n' 2)
    = .ok ['a', '\n', '>', ' ', ' ', ' ', 'b', '<', '\n'] := by rfl

/-- **C18** (disagreement). Without a newline at the end, the last line loses all tokens but its
first. -/
theorem C18_newline_needed :
    (bracketMatch presetPairs true ['a', '\n', 'b', '+', 'c'] >>= fun root =>
      desugar asciiClass root (['a', '\n', 'b', '+', 'c'].map fun t => [t]) ['a', '\n', 'b', '+', 'c']
        '>' '<' '\n' 1) = .ok ['a', '\n', 'b'] := by rfl

/-- **C18** (disagreement). If the text before the missing newline is indented, the pass raises. -/
theorem C18_newline_needed_raises :
    (bracketMatch presetPairs true ['a', '\n', ' ', 'b', '\n', ' '] >>= fun root =>
      desugar asciiClass root (['a', '\n', ' ', 'b', '\n', ' '].map fun t => [t])
        ['a', '\n', ' ', 'b', '\n', ' '] '>' '<' '\n' 1) = .error .assertion := by rfl

/-- **C18** (disagreement). With zero spaces per indent the pass raises, unless all lines are blank. -/
theorem C18_zero_raises :
    (bracketMatch presetPairs true ['a', '\n'] >>= fun root =>
      desugar asciiClass root (['a', '\n'].map fun t => [t]) ['a', '\n'] '>' '<' '\n' 0)
      = .error .zeroDivision := by rfl

end RUSure.Props
