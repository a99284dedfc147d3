import Verif.Model.Codec
import Verif.Model.Desugar

/-!
# Model of `PseudoParser` (`stack_parser.py:776-1137`)
-/

namespace RUSure

/-- `stack_parser.py:905-978` `PseudoParser.preset`: the parameters of a language. -/
structure PresetParams where
  matchPairs : List (Text × Text)
  splitTokens : List Text
  unsplittablePairs : List (Text × Text)
  splitTypes : List TokenType
  newlineTerminate : Bool

/-- `stack_parser.py:905-978` `PseudoParser.preset`. The unsplittable pairs of Python name the square
brackets twice, as in the code. -/
def Language.params : Language → PresetParams
  | .pythonPreprocessor => ⟨[(['('], [')']), (['['], [']']), (['{'], ['}'])], [],
      [(['('], [')']), (['['], [']']), (['['], [']'])], [], true⟩
  | .simple => ⟨[(['('], [')']), (['['], [']']), (['{'], ['}'])], [[';']],
      [(['('], [')']), (['['], [']'])], [], false⟩
  | .cpp => ⟨[(['('], [')']), (['['], [']']), (['{'], ['}'])], [[';']], [],
      [.cPreprocessor, .commentSlashSlash, .commentSlashStar], false⟩
  | .java => ⟨[(['('], [')']), (['['], [']']), (['{'], ['}'])], [[';']], [],
      [.commentSlashSlash, .commentSlashStar], false⟩
  | .javascript => ⟨[(['('], [')']), (['['], [']']), (['{'], ['}'])], [[';']], [],
      [.commentSlashSlash, .commentSlashStar], false⟩

/-- `stack_parser.py:776-829`: the attributes of a parser that are used later. `spec` is the
specification of the codec. -/
structure PseudoParser where
  spec : LexSpec
  codec : Codec
  matchPairs : List (Nat × Nat)
  unsplittablePairs : List (Nat × Nat)
  splitters : List Nat
  splitTypes : List TokenType
  newlineTerminate : Bool

/-- `stack_parser.py:815-819` `encode_one`. -/
def Codec.encodeSingle (spec : LexSpec) (c : Codec) (s : Text) : Except ParseFail (Codec × Nat) := do
  let (c', is, _) ← c.encode spec s
  match is with
  | [i] => return (c', i)
  | _ => .error .assertion

/-- `stack_parser.py:829`: `list(map(encode_one, …))`. -/
def Codec.encodeSingles (spec : LexSpec) : Codec → List Text → Except ParseFail (Codec × List Nat)
  | c, [] => .ok (c, [])
  | c, s :: ss => do
    let (c', i) ← c.encodeSingle spec s
    let (c'', is) ← Codec.encodeSingles spec c' ss
    return (c'', i :: is)

/-- `stack_parser.py:821-827`: `tuple(map(encode_one, pair))` for each pair. -/
def Codec.encodePairs (spec : LexSpec) :
    Codec → List (Text × Text) → Except ParseFail (Codec × List (Nat × Nat))
  | c, [] => .ok (c, [])
  | c, (a, b) :: ps => do
    let (c1, i) ← c.encodeSingle spec a
    let (c2, j) ← c1.encodeSingle spec b
    let (c3, is) ← Codec.encodePairs spec c2 ps
    return (c3, (i, j) :: is)

/-- `stack_parser.py:802-829` `PseudoParser.__init__`, for the parameters of a language. -/
def PseudoParser.preset (digit : Char → Bool) (lang : Language) : Except ParseFail PseudoParser := do
  let spec := lang.spec digit
  let (c1, pairs) ← Codec.empty.encodePairs spec lang.params.matchPairs
  let (c2, un) ← c1.encodePairs spec lang.params.unsplittablePairs
  let (c3, sp) ← c2.encodeSingles spec lang.params.splitTokens
  return ⟨spec, c3, pairs, un, sp, lang.params.splitTypes, lang.params.newlineTerminate⟩

/-- What parsing returns: the tree, the tokens, their types, the text of each token in the code, and
the numbers of tokens that were added in front and at the end. -/
structure ParseResult where
  root : PNode
  tokens : List Text
  types : List TokenType
  raw : List Text
  nPre : Nat
  nPost : Nat

/-- An assertion. -/
def assertThat (b : Bool) : Except ParseFail Unit := if b then .ok () else .error .assertion

/-- `stack_parser.py:859-860`: the suffix with a newline, if there is a suffix and the language asks
for it; and the codec. -/
def PseudoParser.suffixOf (p : PseudoParser) (c : Codec) (suffix : List Nat) :
    Except ParseFail (Codec × List Nat) :=
  if suffix ≠ [] ∧ p.newlineTerminate = true then do
    let (c', is, _) ← c.encode p.spec ['\n']
    match is with
    | i :: _ => return (c', suffix ++ [i])
    | [] => .error .index
  else .ok (c, suffix)

/-- `stack_parser.py:831-903` `pseudo_parse`: the codec afterwards and the result. -/
def PseudoParser.pseudoParse (p : PseudoParser) (code : Text) :
    Except ParseFail (Codec × ParseResult) := do
  let (c1, encoded, types) ← p.codec.encode p.spec code
  let (prefix_, suffix0) := correction p.matchPairs encoded
  let (c, suffix) ← p.suffixOf c1 suffix0
  let corrected := prefix_ ++ encoded ++ suffix
  let tokens ← c.decodeToken corrected
  let raw ← c.decodeToken encoded
  let types' ← c.decodeType corrected
  let unsplit ← bracketMatch p.matchPairs true corrected
  assertThat (validParseRanges unsplit corrected.length)
  let typeSplitters := ((encoded.zip types).filter fun x => p.splitTypes.contains x.2).map Prod.fst
  let root ← splitParse unsplit corrected (p.splitters ++ typeSplitters) p.unsplittablePairs none
  assertThat (validParseRanges root corrected.length)
  return (c, ⟨root, tokens, types', List.replicate prefix_.length [] ++ raw
    ++ List.replicate suffix.length [], prefix_.length, suffix.length⟩)

/-- `stack_parser.py:1028-1032`: if a newline was appended, its raw text is emptied. -/
def dropNewline (appended : Bool) (raw : List Text) (nPost : Nat) : Except ParseFail (List Text) :=
  if appended then
    if raw.length < nPost + 1 then .error .index
    else if raw[raw.length - (nPost + 1)]? = some ['\n'] then .ok (raw.set (raw.length - (nPost + 1)) [])
    else .error .assertion
  else .ok raw

/-- `stack_parser.py:1077-1083`: the loop of `_get_raw_desugared_tokens`; `next` raises if there is
nothing left. (`StopIteration` is not among the modelled exceptions; here it counts as `ValueError`.) -/
def spreadRaw (special : List Nat) : List Nat → List Text → Except ParseFail (List Text)
  | [], _ => .ok []
  | t :: ts, raw =>
    if special.contains t then do return [] :: (← spreadRaw special ts raw)
    else
      match raw with
      | [] => .error .value
      | r :: raw' => do return r :: (← spreadRaw special ts raw')

/-- `stack_parser.py:1067-1085` `_get_raw_desugared_tokens`. -/
def rawDesugared (raw : List Text) (desugared special : List Nat) : Except ParseFail (List Text) := do
  let n1 := raw.length + (desugared.filter fun t => special.contains t).length
  assertThat (n1 == desugared.length)
  let rval ← spreadRaw special desugared raw
  assertThat (rval.length == n1)
  return rval

/-- `stack_parser.py:1008-1120`: the branch for Python. -/
def parsePython (cc : CharClass) (digit : Char → Bool) (code : Text) (spaces : Nat) :
    Except ParseFail ParseResult := do
  let last ← match code.getLast? with
    | none => .error .index
    | some c => .ok c
  let appended := last != '\n'
  let code' := if appended then code ++ ['\n'] else code
  let p ← PseudoParser.preset digit .pythonPreprocessor
  let (c1, r) ← p.pseudoParse code'
  let raw ← dropNewline appended r.raw r.nPost
  assertThat (r.tokens.length == raw.length)
  assertThat (validParseRanges r.root r.tokens.length)
  let (c2, is, _) ← c1.encode p.spec ['\n']
  let newline ← match is with
    | [i] => .ok i
    | _ => .error .value
  let (c3, indent) ← c2.addToken [] .pythonIndent true
  let (c4, dedent) ← c3.addToken [] .pythonDedent true
  let (c, encoded, _) ← c4.encode p.spec r.tokens.flatten
  let desugared ← desugar cc r.root r.tokens encoded indent dedent newline spaces
  let tokens ← c.decodeToken desugared
  let types ← c.decodeType desugared
  let raw' ← rawDesugared raw desugared [indent, dedent]
  let unsplit ← bracketMatch (p.matchPairs ++ [(indent, dedent)]) true desugared
  assertThat (validParseRanges unsplit desugared.length)
  let root ← splitParse unsplit desugared [newline] p.unsplittablePairs (some (indent, dedent))
  assertThat (validParseRanges root desugared.length)
  return ⟨root, tokens, types, raw', r.nPre, r.nPost⟩

/-- The languages of `parse_and_maybe_preprocess`: Python, and those that are parsed in one go. -/
inductive SourceLanguage where
  | python
  | direct (lang : Language)
  deriving DecidableEq, Repr

/-- `stack_parser.py:980-1137` `parse_and_maybe_preprocess`. (Unknown languages, which raise, are not
modelled.) -/
def parseAndMaybePreprocess (cc : CharClass) (digit : Char → Bool) (lang : SourceLanguage) (code : Text)
    (spaces : Nat) : Except ParseFail ParseResult :=
  match lang with
  | .python => parsePython cc digit code spaces
  | .direct l => do
    let p ← PseudoParser.preset digit l
    let (_, r) ← p.pseudoParse code
    return r

end RUSure
