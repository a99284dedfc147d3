import Verif.Model.Tree

/-!
# Model of the part of Python's `re` that `stack_parser.py` uses

Regular expressions with captures and backreferences, matched by backtracking: the list of all ways
to match, in the order in which Python tries them.
-/

namespace RUSure

/-- Regular expressions (with `re.DOTALL`). -/
inductive Rx where
  /-- One character: a literal, a character class, or `.`. -/
  | chr (p : Char → Bool)
  /-- `ab` -/
  | seq (a b : Rx)
  /-- `a|b` -/
  | alt (a b : Rx)
  /-- `a?` -/
  | opt (a : Rx)
  /-- `a*`, or `a*?` if `lazy`. -/
  | star (lazy : Bool) (a : Rx)
  /-- `(a)`, which captures. -/
  | cap (a : Rx)
  /-- `\n` -/
  | ref (n : Nat)
  /-- `(?<!c)` for one character -/
  | notAfter (c : Char)
  /-- `$` -/
  | atEnd

/-- The state of the matcher: the previous character, the text that follows, and what the groups have
captured. -/
structure RxState where
  prev : Option Char
  rest : Text
  groups : List (Nat × Text)
  deriving DecidableEq, Repr

namespace Rx

/-- The number of capturing groups. -/
def caps : Rx → Nat
  | chr _ => 0
  | seq a b => a.caps + b.caps
  | alt a b => a.caps + b.caps
  | opt a => a.caps
  | star _ a => a.caps
  | cap a => a.caps + 1
  | ref _ => 0
  | notAfter _ => 0
  | atEnd => 0

/-- Repetition, at most `n` times. (Simplification: a repetition that consumes nothing ends the loop;
no expression in use repeats something that can be empty.) -/
def repeat_ (lazy : Bool) (f : RxState → List RxState) : Nat → RxState → List RxState
  | 0, s => [s]
  | n + 1, s =>
    let more := ((f s).filter fun t => t.rest.length < s.rest.length).flatMap (repeat_ lazy f n)
    if lazy then s :: more else more ++ [s]

/-- The text between two states. -/
def between (s t : RxState) : Text := s.rest.take (s.rest.length - t.rest.length)

/-- All ways to match, in Python's order of preference. `k` is the number of capturing groups that
open before this expression: groups are numbered from left to right. -/
def run (k : Nat) : Rx → RxState → List RxState
  | chr p, s =>
    match s.rest with
    | [] => []
    | c :: cs => if p c then [⟨some c, cs, s.groups⟩] else []
  | seq a b, s => (a.run k s).flatMap (b.run (k + a.caps))
  | alt a b, s => a.run k s ++ b.run (k + a.caps) s
  | opt a, s => a.run k s ++ [s]
  | star lazy a, s => repeat_ lazy (a.run k) s.rest.length s
  | cap a, s => (a.run (k + 1) s).map fun t => { t with groups := (k + 1, between s t) :: t.groups }
  | ref n, s =>
    match s.groups.lookup n with
    | none => []
    | some w =>
      if w.isPrefixOf s.rest then
        [⟨if w.isEmpty then s.prev else w.getLast?, s.rest.drop w.length, s.groups⟩]
      else []
  | notAfter c, s => if s.prev = some c then [] else [s]
  | atEnd, s => if s.rest = [] ∨ s.rest = ['\n'] then [s] else []

/-- A literal. -/
def lit : List Char → Rx
  | [] => .star false (.chr fun _ => false)
  | [c] => .chr (· == c)
  | c :: cs => .seq (.chr (· == c)) (lit cs)

/-- Any character. -/
def any : Rx := .chr fun _ => true

/-- One of the characters. -/
def oneOf (cs : List Char) : Rx := .chr fun c => cs.contains c

/-- None of the characters. -/
def noneOf (cs : List Char) : Rx := .chr fun c => !cs.contains c

/-- `a+` -/
def plus (a : Rx) : Rx := .seq a (.star false a)

end Rx

/-- `stack_parser.py:52-71` `TokenType`. -/
inductive TokenType where
  | number
  | id
  | op
  | punc
  | brace
  | newline
  | tab
  | whiteSpace
  | other
  | string
  | commentHash
  | commentSlashSlash
  | commentSlashStar
  | cPreprocessor
  | nonContent
  | pythonIndent
  | pythonDedent
  deriving DecidableEq, Repr

/-- `stack_parser.py:77-90`: a token specification, in order. -/
abbrev LexSpec := List (TokenType × Rx)

/-- `stack_parser.py:84-85`, `127-130`: `tok_regex` is the alternation of named groups; the name of
the last group that is closed is that of the alternative that matches. `k` counts the groups before.
(Simplification: an empty match counts as no match; no specification in use has one.) -/
def matchSpec (k : Nat) : LexSpec → Option Char → Text → Option (TokenType × Text)
  | [], _, _ => none
  | (ty, r) :: spec, prev, text =>
    match (r.run (k + 1) ⟨prev, text, []⟩).find? fun t => t.rest.length < text.length with
    | some t => some (ty, t.rest)
    | none => matchSpec (k + 1 + r.caps) spec prev text

/-- `stack_parser.py:127-130`, `re.finditer(…)`: the tokens and their types; characters at which
nothing matches are skipped. `n` bounds the number of steps. -/
def lexLoop (spec : LexSpec) : Nat → Option Char → Text → List (TokenType × Text)
  | _, _, [] => []
  | 0, _, _ :: _ => []
  | n + 1, prev, c :: cs =>
    match matchSpec 0 spec prev (c :: cs) with
    | none => lexLoop spec n (some c) cs
    | some (ty, rest) =>
      let token := (c :: cs).take ((c :: cs).length - rest.length)
      (ty, token) :: lexLoop spec n token.getLast? rest

/-- All tokens of a text. -/
def lex (spec : LexSpec) (code : Text) : List (TokenType × Text) := lexLoop spec code.length none code

/-! ### `stack_parser.py:142-208` `RegexCodec.preset` -/

section
open Rx

/-- `stack_parser.py:155-165` `basic`; `digit` is `\d`: a Unicode decimal digit. -/
def basicSpec (digit : Char → Bool) : LexSpec := [
  (.number, .seq (plus (.chr digit)) (.opt (.cap (.seq (lit ['.']) (.star false (.chr digit)))))),
  (.id, plus (.chr fun c => ('A' ≤ c && c ≤ 'Z') || ('a' ≤ c && c ≤ 'z') || ('0' ≤ c && c ≤ '9')
    || c == '_')),
  (.op, oneOf ['+', '-', '*', '/']),
  (.punc, oneOf [',', '.', ';', ':', '=', '>', '<']),
  (.brace, oneOf ['(', ')', '[', ']', '{', '}']),
  (.newline, lit ['\n']),
  (.tab, lit ['\t']),
  (.whiteSpace, plus (lit [' '])),
  (.other, any)]

/-- The inside and the end of a string: `((?<!\\)\\\2|.)*?\2`. -/
def stringRest : Rx :=
  .seq (.star true (.cap (.alt (.seq (.notAfter '\\') (.seq (lit ['\\']) (.ref 2))) any))) (.ref 2)

/-- `stack_parser.py:166-169` `python_strings_and_comments`. -/
def pythonStringsAndComments : LexSpec := [
  (.string, .seq (.cap (.alt (lit ['"', '"', '"']) (.alt (lit ['\'', '\'', '\''])
    (.alt (lit ['"']) (lit ['\'']))))) stringRest),
  (.commentHash, .seq (.cap (lit ['#'])) (.star false (noneOf ['\n'])))]

/-- `stack_parser.py:170-174` `c_comments`. -/
def cComments : LexSpec := [
  (.commentSlashSlash, .seq (.cap (lit ['/', '/'])) (.star false (noneOf ['\n']))),
  (.commentSlashStar,
    .alt (.seq (lit ['/', '/']) (.seq (.star true any) .atEnd))
      (.alt (.seq (lit ['/', '*']) (.seq (.star true any) (lit ['*', '/'])))
        (.alt (.seq (lit ['\'']) (.seq (.star false (.alt (.seq (lit ['\\']) any)
            (noneOf ['\\', '\'']))) (lit ['\''])))
          (.seq (lit ['"']) (.seq (.star false (.alt (.seq (lit ['\\']) any)
            (noneOf ['\\', '"']))) (lit ['"']))))))]

/-- `stack_parser.py:175-177` `c_strings`. -/
def cStrings : LexSpec := [(.string, .seq (.cap (lit ['"'])) stringRest)]

/-- `stack_parser.py:178-182` `c_macros`. -/
def cMacros : LexSpec := [
  (.cPreprocessor, .seq
    (.cap (.alt (lit ['#', 'i', 'n', 'c', 'l', 'u', 'd', 'e']) (.alt (lit ['#', 'd', 'e', 'f', 'i', 'n', 'e'])
      (.alt (lit ['#', 'u', 'n', 'd', 'e', 'f']) (.alt (lit ['#', 'i', 'f', 'd', 'e', 'f'])
      (.alt (lit ['#', 'i', 'f', 'n', 'd', 'e', 'f']) (.alt (lit ['#', 'l', 'i', 'n', 'e'])
      (.alt (lit ['#', 'i', 'f']) (.alt (lit ['#', 'e', 'n', 'd', 'i', 'f'])
        (lit ['#', 'e', 'r', 'r', 'o', 'r']))))))))))
    (.star false (.cap (.alt (lit ['\\', '\n']) (noneOf ['(', '\n', '|', '/', '*', ')'])))))]

/-- The languages of `stack_parser.py:183-194` (names are case insensitive there). -/
inductive Language where
  | pythonPreprocessor
  | simple
  | cpp
  | java
  | javascript
  deriving DecidableEq, Repr

/-- `stack_parser.py:142-208` `RegexCodec.preset`: the specification of a language. -/
def Language.spec (digit : Char → Bool) : Language → LexSpec
  | .pythonPreprocessor => pythonStringsAndComments ++ basicSpec digit
  | .cpp => cMacros ++ cComments ++ cStrings ++ basicSpec digit
  | .java => cComments ++ cStrings ++ basicSpec digit
  | .javascript => cComments ++ cStrings ++ basicSpec digit
  | .simple => basicSpec digit

end

end RUSure
