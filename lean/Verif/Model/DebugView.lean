import Verif.Model.Tree

/-!
# Model of `render_debug` (`sequence_node_helpers.py:65-132`)

With Python's `repr` of strings. Which characters outside of ASCII are printable is a parameter.
-/

namespace RUSure.Debug

/-- A hexadecimal digit. -/
def hexDigit (n : Nat) : Char := if n < 10 then Char.ofNat (48 + n) else Char.ofNat (87 + n)

/-- The last `w` hexadecimal digits of a number. -/
def hex : Nat → Nat → Text
  | 0, _ => []
  | w + 1, n => hex w (n / 16) ++ [hexDigit (n % 16)]

/-- A character in Python's `repr` of a string with quotation mark `q`. -/
def escape (printable : Char → Bool) (q c : Char) : Text :=
  if c = q ∨ c = '\\' then ['\\', c]
  else if c = '\t' then ['\\', 't']
  else if c = '\n' then ['\\', 'n']
  else if c = '\r' then ['\\', 'r']
  else if 32 ≤ c.toNat ∧ c.toNat < 127 then [c]
  else if 128 ≤ c.toNat ∧ printable c = true then [c]
  else if c.toNat < 256 then '\\' :: 'x' :: hex 2 c.toNat
  else if c.toNat < 65536 then '\\' :: 'u' :: hex 4 c.toNat
  else '\\' :: 'U' :: hex 8 c.toNat

/-- The quotation marks of Python's `repr`: single ones, unless there are single ones and no double ones
in the string. -/
def quote (t : Text) : Char := if '\'' ∈ t ∧ '"' ∉ t then '"' else '\''

/-- Python's `repr` of a string. -/
def pyRepr (printable : Char → Bool) (t : Text) : Text :=
  quote t :: (t.flatMap (escape printable (quote t)) ++ [quote t])

/-- `sequence_node_helpers.py:128-132` `_summarize_contents`. -/
def summarize (printable : Char → Bool) (t : Text) : Text :=
  if 80 < t.length then pyRepr printable (t.take 77) ++ ['.', '.', '.'] else pyRepr printable t

/-- `sequence_node_helpers.py:101, 117-118`: headers; `none` is a match type that is `None`. -/
def header (kind : Text) : Option Text → Text
  | none => kind ++ [':', ' ']
  | some m => kind ++ '(' :: m ++ [')', ':', ' ']

section
variable {M : Type} (printable : Char → Bool) (names : M → Option Text)

mutual
/-- `sequence_node_helpers.py:86-125` `_render_debug_helper`. `names` is the `str` of match types,
`none` for `None`. -/
def debugNode : Node M → Text × List Text
  | .deco t => (t, ["DEC: ".toList ++ summarize printable t])
  | .tok t m => (t, [header "TOK".toList (names m) ++ summarize printable t])
  | .group cs m =>
    ((debugNodes cs).1, (header "GROUP".toList (names m) ++ summarize printable (debugNodes cs).1)
      :: (debugNodes cs).2.map fun l => ' ' :: ' ' :: l)
  | .rstart => ([], ["RegionStartNode()".toList])
  | .rend => ([], ["RegionEndNode()".toList])
  | .exit => ([], ["EarlyExitNode()".toList])

/-- `sequence_node_helpers.py:76-80, 112-120`: the loops over nodes. -/
def debugNodes : List (Node M) → Text × List Text
  | [] => ([], [])
  | n :: ns => ((debugNode n).1 ++ (debugNodes ns).1, (debugNode n).2 ++ (debugNodes ns).2)
end

/-- `sequence_node_helpers.py:65-83` `render_debug` on a list; on a node it is that on the list of
the node. -/
def renderDebug (ns : List (Node M)) : Text := List.intercalate ['\n'] (debugNodes printable names ns).2

end

end RUSure.Debug
