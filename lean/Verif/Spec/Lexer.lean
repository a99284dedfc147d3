import Verif.Model.Codec

/-!
# Specification of the lexers: the type of a token is a function of its text
-/

namespace RUSure.Spec
open RUSure

/-- The ASCII characters that are decimal digits are `0` to `9`. -/
def DigitSane (digit : Char → Bool) : Prop :=
  ∀ c : Char, c.toNat < 128 → digit c = ('0' ≤ c && c ≤ '9')

/-- Letters, digits and the underscore (ASCII). -/
def isWord (c : Char) : Bool :=
  ('A' ≤ c && c ≤ 'Z') || ('a' ≤ c && c ≤ 'z') || ('0' ≤ c && c ≤ '9') || c == '_'

/-- The type of a token by its first character, apart from strings, comments and macros. -/
def basicType (digit : Char → Bool) (c : Char) : TokenType :=
  if digit c then .number
  else if isWord c then .id
  else if c ∈ ['+', '-', '*', '/'] then .op
  else if c ∈ [',', '.', ';', ':', '=', '>', '<'] then .punc
  else if c ∈ ['(', ')', '[', ']', '{', '}'] then .brace
  else if c = '\n' then .newline
  else if c = '\t' then .tab
  else if c = ' ' then .whiteSpace
  else .other

/-- The type of a token, by its text. In the C-like languages quoted strings are typed as comments:
see `C20_c_strings`. -/
def typeOf (digit : Char → Bool) (lang : Language) : Text → TokenType
  | [] => .other
  | c :: cs =>
    match lang with
    | .simple => basicType digit c
    | .pythonPreprocessor =>
      if c = '#' then .commentHash
      else if cs ≠ [] ∧ (c = '"' ∨ c = '\'') then .string
      else basicType digit c
    | _ =>
      if c = '/' ∧ cs.head? = some '/' then .commentSlashSlash
      else if cs ≠ [] ∧ (c = '/' ∨ c = '"' ∨ c = '\'') then .commentSlashStar
      else if cs ≠ [] ∧ c = '#' ∧ lang = .cpp then .cPreprocessor
      else basicType digit c

/-- Some texts are encoded one after the other with the same codec. -/
def encodeTexts (spec : LexSpec) (c : Codec) :
    List Text → Except ParseFail (Codec × List (List Nat × List TokenType))
  | [] => .ok (c, [])
  | code :: codes =>
    match c.encode spec code with
    | .error e => .error e
    | .ok (c', is, tys) =>
      match encodeTexts spec c' codes with
      | .error e => .error e
      | .ok (c'', outs) => .ok (c'', (is, tys) :: outs)

/-- Some tokens are added one after the other to a codec. -/
def addTokens (c : Codec) : List (Text × TokenType) → Except ParseFail (Codec × List Nat)
  | [] => .ok (c, [])
  | (t, ty) :: ts =>
    match c.addToken t ty false with
    | .error e => .error e
    | .ok (c', i) =>
      match addTokens c' ts with
      | .error e => .error e
      | .ok (c'', is) => .ok (c'', i :: is)

/-- A codec that some texts of a language have been encoded with. -/
def Codec.Reached (spec : LexSpec) (c : Codec) : Prop :=
  ∃ codes outs, encodeTexts spec Codec.empty codes = .ok (c, outs)

end RUSure.Spec
