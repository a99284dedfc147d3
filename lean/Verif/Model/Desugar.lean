import Verif.Model.StackParser
import Verif.Model.Subtokenizer

/-!
# Model of `python_indent_dedent_desugar` (`stack_parser.py:692-773`)

Encoded tokens range over any type `T` with decidable equality; the text of tokens is `Text`.
-/

namespace RUSure
variable {T : Type} [DecidableEq T]

/-- Python's `l[lo:hi]` for `0 ≤ lo`, `0 ≤ hi`. -/
def sliceOf {α : Type} (l : List α) (s : Nat × Nat) : List α := (l.take s.2).drop s.1

/-- `stack_parser.py:730-731`: the first node of the line of the node `c`. A node counts as false if
its length is zero. -/
def firstOfLine (first : Option PNode) (c : PNode) : Except ParseFail PNode :=
  match first with
  | none => .ok c
  | some f => do if (← f.len) = 0 then return c else return f

/-- `stack_parser.py:728-736` `_top_level_line_slices`: `first` is `first_node_of_line`. After the last newline only the first node of the last line is
yielded. -/
def lineSlices (encoded : List T) (newline : T) :
    List PNode → Option PNode → Except ParseFail (List (Nat × Nat))
  | [], none => .ok []
  | [], some f => do
    if (← f.len) = 0 then return []
    match f.hi with
    | none => .error .type
    | some hi => return [(f.lo, hi)]
  | c :: cs, first => do
    let f ← firstOfLine first c
    let t ← tokenBefore encoded c.hi
    if t = newline then
      match c.hi with
      | none => .error .type
      | some hi => return (f.lo, hi) :: (← lineSlices encoded newline cs none)
    else lineSlices encoded newline cs (some f)

/-- `stack_parser.py:738-745` `_line_indent`: `none` for a line of white space. (Simplification:
`spaces_per_indent` is not negative.) -/
def lineIndent (cc : CharClass) (spaces : Nat) (line : Text) : Except ParseFail (Option Nat) :=
  if line ≠ [] ∧ line.all cc.isSpace then .ok none
  else if spaces = 0 then .error .zeroDivision
  else .ok (some ((line.takeWhile cc.isSpace).length / spaces))

/-- `stack_parser.py:752-761`, `764-771`: change the depth from `current` to `depth`: indents at the
end of the output, dedents before its last newline. -/
def changeDepth (indent dedent newline : T) (current depth : Nat) (out : List T) :
    Except ParseFail (List T) :=
  if current < depth then .ok (out ++ List.replicate (depth - current) indent)
  else if depth < current then
    match out.getLast? with
    | none => .error .index
    | some popped =>
      if popped = newline then
        .ok (out.dropLast ++ List.replicate (current - depth) dedent ++ [popped])
      else .error .assertion
  else .ok out

/-- `stack_parser.py:747-773`: the loop over the lines, and the dedents at the end. -/
def desugarLoop (cc : CharClass) (tokens : List Text) (encoded : List T) (indent dedent newline : T)
    (spaces : Nat) : List (Nat × Nat) → Nat → List T → Except ParseFail (List T)
  | [], current, out => changeDepth indent dedent newline current 0 out
  | s :: ss, current, out => do
    let depth ← lineIndent cc spaces (sliceOf tokens s).flatten
    let out' ← changeDepth indent dedent newline current (depth.getD current) out
    desugarLoop cc tokens encoded indent dedent newline spaces ss (depth.getD current)
      (out' ++ sliceOf encoded s)

/-- `stack_parser.py:692-773` `python_indent_dedent_desugar`. (The slices are computed lazily in the
code; here they are computed first, so if both raise, the errors may differ.) -/
def desugar (cc : CharClass) (root : PNode) (tokens : List Text) (encoded : List T)
    (indent dedent newline : T) (spaces : Nat) : Except ParseFail (List T) := do
  let slices ← lineSlices encoded newline root.children none
  desugarLoop cc tokens encoded indent dedent newline spaces slices 0 []

end RUSure
