import Verif.Model.Regex
import Verif.Model.StackParser

/-!
# Model of `RegexCodec` (`stack_parser.py:74-140`)
-/

namespace RUSure

/-- `d[k] = v` on a Python dict as a list of entries in order of insertion. -/
def dictSet {K V : Type} [DecidableEq K] (k : K) (v : V) : List (K × V) → List (K × V)
  | [] => [(k, v)]
  | (k', v') :: d => if k' = k then (k, v) :: d else (k', v') :: dictSet k v d

/-- `stack_parser.py:77-90`: the dictionaries of a codec. -/
structure Codec where
  tokenToIndex : List (Text × Nat)
  indexToToken : List (Nat × Text)
  indexToType : List (Nat × TokenType)
  deriving DecidableEq

/-- `stack_parser.py:86-88`: a new codec. -/
def Codec.empty : Codec := ⟨[], [], []⟩

/-- `stack_parser.py:92-111` `add_token`. -/
def Codec.addToken (c : Codec) (token : Text) (ty : TokenType) (nonUnique : Bool) :
    Except ParseFail (Codec × Nat) :=
  if nonUnique = false ∧ (c.tokenToIndex.lookup token).isSome then .error .assertion
  else
    let index := c.tokenToIndex.length + 1
    .ok (⟨dictSet token index c.tokenToIndex, dictSet index token c.indexToToken,
      dictSet index ty c.indexToType⟩, index)

/-- `stack_parser.py:129-138`: one match. -/
def Codec.encodeOne (c : Codec) (ty : TokenType) (token : Text) : Except ParseFail (Codec × Nat) :=
  let added := if (c.tokenToIndex.lookup token).isSome then .ok c
    else (c.addToken token ty false).map Prod.fst
  match added with
  | .error e => .error e
  | .ok c' =>
    match c'.tokenToIndex.lookup token with
    | none => .error .key
    | some i =>
      match c'.indexToType.lookup i with
      | none => .error .key
      | some ty' => if ty' = ty then .ok (c', i) else .error .assertion

/-- `stack_parser.py:125-139`: the loop over the matches. -/
def Codec.encodeAll (c : Codec) : List (TokenType × Text) → Except ParseFail (Codec × List Nat)
  | [] => .ok (c, [])
  | (ty, token) :: ms =>
    match c.encodeOne ty token with
    | .error e => .error e
    | .ok (c', i) =>
      match c'.encodeAll ms with
      | .error e => .error e
      | .ok (c'', is) => .ok (c'', i :: is)

/-- `stack_parser.py:113-139` `encode`: the new codec, the encoded tokens and their types. -/
def Codec.encode (spec : LexSpec) (c : Codec) (code : Text) :
    Except ParseFail (Codec × List Nat × List TokenType) :=
  match c.encodeAll (lex spec code) with
  | .error e => .error e
  | .ok (c', is) => .ok (c', is, (lex spec code).map Prod.fst)

/-- Looking up all keys of a list: `list(d[i] for i in is)`. -/
def lookupAll {V : Type} (d : List (Nat × V)) : List Nat → Except ParseFail (List V)
  | [] => .ok []
  | i :: is =>
    match d.lookup i, lookupAll d is with
    | some v, .ok vs => .ok (v :: vs)
    | _, _ => .error .key

/-- `stack_parser.py:141-143` `decode_token`. -/
def Codec.decodeToken (c : Codec) (is : List Nat) : Except ParseFail (List Text) :=
  lookupAll c.indexToToken is

/-- `stack_parser.py:145-147` `decode_type`. -/
def Codec.decodeType (c : Codec) (is : List Nat) : Except ParseFail (List TokenType) :=
  lookupAll c.indexToType is

end RUSure
