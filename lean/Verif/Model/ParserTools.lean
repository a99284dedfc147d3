import Verif.Model.PseudoParser
import Verif.Model.Subtokenizer

/-!
# Model of `sequence_from_pseudo_parse.py`, of `infer_python_spaces_per_indent` and of
`parser_tools.py`
-/

namespace RUSure

/-- `stack_parser.py:209-221` `NodeType`. -/
inductive NodeType where
  | root | matched | matchLeft | matchRight | matchInner | contentLeaf | nonContentLeaf | whiteSpaceLeaf
  | splitGroup | stringLiteral
  deriving DecidableEq, Repr

/-- `stack_parser.py:209-221`: the values of the enumeration. -/
def NodeType.value : NodeType → Nat
  | .root => 0
  | .matched => 1
  | .matchLeft => 2
  | .matchRight => 3
  | .matchInner => 4
  | .contentLeaf => 5
  | .nonContentLeaf => 6
  | .whiteSpaceLeaf => 7
  | .splitGroup => 8
  | .stringLiteral => 9

/-- `stack_parser.py:52-71`: the values of the enumeration. -/
def TokenType.value : TokenType → Nat
  | .number => 0
  | .id => 1
  | .op => 2
  | .punc => 3
  | .brace => 4
  | .newline => 5
  | .tab => 6
  | .whiteSpace => 7
  | .other => 8
  | .string => 9
  | .commentHash => 10
  | .commentSlashSlash => 11
  | .commentSlashStar => 12
  | .cPreprocessor => 13
  | .nonContent => 14
  | .pythonIndent => 15
  | .pythonDedent => 16

/-- Python's `l[lo:hi]` for `lo ≥ 0` and `hi ≥ 0` or `None`. -/
def pySlice {A : Type} (l : List A) (lo : Nat) : Option Nat → List A
  | none => l.drop lo
  | some hi => (l.take hi).drop lo

/-- `stack_parser.py:322-323` `Node.text`. -/
def PNode.text (tokens : List Text) (n : PNode) : Text := (pySlice tokens n.lo n.hi).flatten

/-- `stack_parser.py:241-270` `Node.type`. Both enumerations are integers, so the comparison of a token
type with a node type compares their values. -/
def PNode.nodeType (cc : CharClass) (tokens : List Text) (types : List TokenType) (n : PNode) :
    Except ParseFail NodeType :=
  match n.ann with
  | .root => .ok .root
  | .sibling =>
    if n.children ≠ [] then .error .assertion
    else if n.text tokens = [] then .ok .nonContentLeaf
    else if (n.text tokens).all cc.isSpace then .ok .whiteSpaceLeaf
    else if (pySlice types n.lo n.hi).all fun t => t.value == NodeType.stringLiteral.value then
      .ok .stringLiteral
    else .ok .contentLeaf
  | .paired => .ok .matched
  | .left => .ok .matchLeft
  | .right => .ok .matchRight
  | .middle => .ok .matchInner
  | .split => .ok .splitGroup

/-- The match types of the nodes: names of node types, and `subtoken`. -/
inductive MatchName where
  | nodeType (t : NodeType)
  | subtoken
  deriving DecidableEq, Repr

/-- `sequence_from_pseudo_parse.py:108-127` `subtokenize_token`. -/
def subtokenizeToken (cc : CharClass) (token : Text) : List (Node MatchName) :=
  (subtokenize cc token).map fun t => .tok t .subtoken

mutual
/-- `sequence_from_pseudo_parse.py:35-105` `pseudo_parse_node_to_nested_sequence_node`. -/
def toSequenceNode (cc : CharClass) (tokens : List Text) (types : List TokenType)
    (decoration subtok : List NodeType) : PNode → Except ParseFail (Node MatchName)
  | .mk lo hi ann cs => do
    let t ← (PNode.mk lo hi ann cs).nodeType cc tokens types
    if decoration.contains t then return .deco ((PNode.mk lo hi ann cs).text tokens)
    else if subtok.contains t then
      return .group (subtokenizeToken cc ((PNode.mk lo hi ann cs).text tokens)) (.nodeType t)
    else
      match cs with
      | [] => return .tok ((PNode.mk lo hi ann []).text tokens) (.nodeType t)
      | c :: cs =>
        if some lo :: (c :: cs).map PNode.hi ≠ (c :: cs).map (fun c => some c.lo) ++ [hi] then
          .error .value
        else return .group (← toSequenceNodes cc tokens types decoration subtok (c :: cs)) (.nodeType t)

/-- `sequence_from_pseudo_parse.py:103`: the children. -/
def toSequenceNodes (cc : CharClass) (tokens : List Text) (types : List TokenType)
    (decoration subtok : List NodeType) : List PNode → Except ParseFail (List (Node MatchName))
  | [] => .ok []
  | c :: cs => do
    let n ← toSequenceNode cc tokens types decoration subtok c
    let ns ← toSequenceNodes cc tokens types decoration subtok cs
    return n :: ns
end

/-- `utilities.py:46-54`: the lengths of the white space after markers. -/
def indentLengths : List TokenType → List Text → List Nat
  | prev :: ty :: types, _ :: raw :: raws =>
    let rest := indentLengths (ty :: types) (raw :: raws)
    if ty = .whiteSpace ∧ (prev = .pythonIndent ∨ prev = .pythonDedent) ∧ raw ≠ [] then raw.length :: rest
    else rest
  | _, _ => []

/-- `utilities.py:59-63`: the last candidate that divides all lengths. -/
def lastDivisor (lengths : List Nat) : Nat → List Nat → Except ParseFail Nat
  | best, [] => .ok best
  | best, c :: cs =>
    if c = 0 then .error .zeroDivision
    else if lengths.all fun l => l % c == 0 then lastDivisor lengths c cs
    else lastDivisor lengths best cs

/-- `utilities.py:24-65` `infer_python_spaces_per_indent`. (Simplification: candidates are not
negative.) -/
def inferSpacesPerIndent (cc : CharClass) (digit : Char → Bool) (code : Text) (candidates : List Nat) :
    Except ParseFail Nat :=
  if code = [] then .ok 1
  else do
    let r ← parseAndMaybePreprocess cc digit .python code 1
    let lengths := indentLengths r.types r.raw
    if lengths = [] then .ok 1 else lastDivisor lengths 1 candidates

/-- The languages of `ParserHelper`. -/
inductive HelperLanguage where
  | rawSimpleTokens
  | parsed (lang : SourceLanguage)
  deriving DecidableEq, Repr

/-- `parser_tools.py:91-140` `ParserHelper.parse_to_nodes`. -/
def parseToNodes (cc : CharClass) (digit : Char → Bool) (lang : HelperLanguage) (flatten : Bool)
    (code : Text) : Except ParseFail (List (Node MatchName)) :=
  match lang with
  | .rawSimpleTokens => .ok (subtokenizeToken cc code)
  | .parsed lang => do
    let spaces ← if lang = .python then inferSpacesPerIndent cc digit code [1, 2, 3, 4] else .ok 1
    let r ← parseAndMaybePreprocess cc digit lang code spaces
    let root ← toSequenceNode cc r.raw r.types [.whiteSpaceLeaf, .nonContentLeaf] [.stringLiteral] r.root
    return if flatten then flattenGroups [root] else [root]

/-- `parser_tools.py:43-66` `allow_regions_around_pseudoparse_node`, for the nodes the code asks about
(nodes with a match type). -/
def allowRegionsAround : Node MatchName → Bool
  | .tok t mt => !(mt = .nodeType .matchLeft || mt = .nodeType .matchInner || mt = .nodeType .matchRight)
      && t ≠ ['\n']
  | .group _ mt => !(mt = .nodeType .matchLeft || mt = .nodeType .matchInner || mt = .nodeType .matchRight)
  | _ => false

end RUSure
