import Verif.Model.Desugar
import Verif.Spec.StackParser

/-!
# Specification of indents and dedents
-/

namespace RUSure.Spec
open RUSure
variable {T : Type}

/-- The tokens of a line without its newline: no newline outside of brackets. -/
inductive LineBody (pairs : List (T × T)) (newline : T) : List T → Prop
  | nil : LineBody pairs newline []
  | plain {t ts} : PlainTok pairs t → t ≠ newline → LineBody pairs newline ts →
      LineBody pairs newline (t :: ts)
  | bracket {o c inner ts} : (o, c) ∈ pairs → Balanced pairs (some o) inner →
      LineBody pairs newline ts → LineBody pairs newline (o :: (inner ++ c :: ts))

/-- The indentation of a line of text in units of `spaces` white space characters, rounded down;
`none` for lines of white space. -/
def indentation (cc : CharClass) (spaces : Nat) (line : Text) : Option Nat :=
  if line.all cc.isSpace then none else some ((line.takeWhile cc.isSpace).length / spaces)

/-- The depth after the end of a line: that of the next line if it is not blank, the same depth as
before if it is blank, and zero at the end. -/
def depthAfter (current : Nat) : List (List T × Option Nat) → Nat
  | [] => 0
  | (_, depth) :: _ => depth.getD current

/-- Lines with indents before each line that is deeper than the previous one, and dedents directly
before the newline in front of each line that is less deep. Each line comes with its indentation
(`none` if blank); `current` is the depth so far. -/
def markLines (indent dedent newline : T) : Nat → List (List T × Option Nat) → List T
  | _, [] => []
  | current, (body, depth) :: rest =>
    let d := depth.getD current
    List.replicate (d - current) indent ++ body ++ List.replicate (d - depthAfter d rest) dedent
      ++ [newline] ++ markLines indent dedent newline d rest

/-- The tokens of lines. -/
def joinLines (newline : T) (bodies : List (List T)) : List T :=
  (bodies.map fun b => b ++ [newline]).flatten

/-- Lines with their indentation. -/
def withIndentation (cc : CharClass) (spaces : Nat) (newline : T) (text : T → Text)
    (bodies : List (List T)) : List (List T × Option Nat) :=
  bodies.map fun b => (b, indentation cc spaces ((b ++ [newline]).flatMap text))

/-- Markers are nested: with `k` indents open at the start, no dedent comes without an open indent,
and none is open at the end. -/
def MarkersNest [DecidableEq T] (indent dedent : T) : Nat → List T → Prop
  | k, [] => k = 0
  | k, t :: ts =>
    if t = indent then MarkersNest indent dedent (k + 1) ts
    else if t = dedent then 0 < k ∧ MarkersNest indent dedent (k - 1) ts
    else MarkersNest indent dedent k ts

end RUSure.Spec
