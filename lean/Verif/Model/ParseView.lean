import Verif.Model.StackParser
import Verif.Model.DebugView

/-!
# Model of `Node.human_readable_string` (`stack_parser.py:270-322`)

The view of a pseudo parse tree as a table. Tokens are strings (in the code also integers, whose `str` needs no
escapes). Which characters are white space (`str.strip`) or printable (`repr`) are parameters.
-/

namespace RUSure.ParseView
open RUSure.Debug

/-- `stack_parser.py:539-622, 663-721`: the annotations of nodes. -/
def annotation : PAnn → Text
  | .root => "root".toList
  | .sibling => "sibling".toList
  | .paired => "paired".toList
  | .left => "left".toList
  | .right => "right".toList
  | .middle => "middle".toList
  | .split => "split".toList

/-- Python's `str` of a number or `None`. -/
def numberText : Option Nat → Text
  | none => "None".toList
  | some n => (Nat.repr n).toList

/-- `stack_parser.py:270-272` `Node.__repr__`. -/
def nodeRepr (n : PNode) : Text :=
  ['N', 'o', 'd', 'e', '('] ++ numberText (some n.lo) ++ ['-'] ++ numberText n.hi ++ [',', ' '] ++ annotation n.ann
    ++ [')']

/-- `replace('\\\\', '\\')`: two backslashes become one. -/
def collapse : Text → Text
  | '\\' :: '\\' :: t => '\\' :: collapse t
  | c :: t => c :: collapse t
  | [] => []

/-- `stack_parser.py:289-293` `unquoted_string_repr`. -/
def unquoted (printable : Char → Bool) (t : Text) : Text := collapse (pyRepr printable t).tail.dropLast

/-- `stack_parser.py:295-305` `mask_view`. A `hi` that is `None` or zero counts as `lo + 1`. -/
def maskView (printable : Char → Bool) (tokens : List Text) (n : PNode) : Text :=
  let hi := match n.hi with
    | none => n.lo + 1
    | some 0 => n.lo + 1
    | some h => h
  if tokens = [] then []
  else unquoted printable (tokens.zipIdx.flatMap fun x =>
    if n.lo ≤ x.2 ∧ x.2 < hi then unquoted printable x.1
    else List.replicate (unquoted printable x.1).length '_')

mutual
/-- `stack_parser.py:307-311` `_f`: the rows of the two columns. -/
def viewNode (printable : Char → Bool) (tokens : List Text) (depth : Nat) : PNode → List (Text × Text)
  | .mk lo hi ann cs =>
    (maskView printable tokens (.mk lo hi ann cs),
        (List.replicate depth [' ', ' ', ' ']).flatten ++ nodeRepr (.mk lo hi ann cs))
      :: viewNodes printable tokens (depth + 1) cs

/-- `stack_parser.py:310-311`: the loop over children. -/
def viewNodes (printable : Char → Bool) (tokens : List Text) (depth : Nat) : List PNode → List (Text × Text)
  | [] => []
  | n :: ns => viewNode printable tokens depth n ++ viewNodes printable tokens depth ns
end

/-- `str.ljust`. -/
def ljust (t : Text) (w : Nat) : Text := t ++ List.replicate (w - t.length) ' '

/-- `stack_parser.py:315`: the length of the longest item. -/
def maxLen (ts : List Text) : Nat := ts.foldl (fun m t => max m t.length) 0

/-- `str.strip`. -/
def strip (space : Char → Bool) (t : Text) : Text := ((t.dropWhile space).reverse.dropWhile space).reverse

/-- `stack_parser.py:274-322` `human_readable_string`. -/
def humanReadable (space printable : Char → Bool) (tokens : List Text) (root : PNode) : Text :=
  let rows := viewNode printable tokens 0 root
  let w := maxLen (rows.map Prod.fst)
  let v := maxLen (rows.map Prod.snd)
  strip space (rows.flatMap fun r => ['|', ' '] ++ ljust r.1 w ++ [' ', '|', ' '] ++ ljust r.2 v ++ ['\n'])

end RUSure.ParseView
