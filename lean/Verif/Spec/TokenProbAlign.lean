import Verif.Spec.Pack

/-! # Specification of token/log-prob alignment -/

namespace RUSure.Spec
open RUSure
variable {M R : Type}

/-- The character span `[a, b)` of each model token, with its log probability, when the first token
starts at offset `o`. -/
def spansFrom (o : Nat) : List (Text × R) → List (Nat × Nat × R)
  | [] => []
  | (t, lp) :: ts => (o, o + t.length, lp) :: spansFrom (o + t.length) ts

/-- The model token with span `[a, b)` contributes to the node with span `[s, e)`: the spans share a
character, or the model token is empty and sits inside `[s, e)`. -/
def Contributes (s e : Nat) (x : Nat × Nat × R) : Bool :=
  (decide (x.1 < e) && decide (s < x.2.1)) ||
    (decide (x.1 = x.2.1) && decide (s ≤ x.1) && decide (x.1 < e))

/-- Sum, in order, of the log probabilities of the model tokens contributing to `[s, e)`. -/
def spanLogProb [Add R] [Zero R] (tokens : List (Text × R)) (s e : Nat) : R :=
  (((spansFrom 0 tokens).filter (Contributes s e)).map (fun x => x.2.2)).foldl (· + ·) 0

/-- The text spelled by the model tokens. -/
def tokensText (tokens : List (Text × R)) : Text := tokens.flatMap Prod.fst

/-- The nodes of a tree in document order, groups before their children. -/
def docNodes (seq : List (Node M)) : List (Node M) :=
  (walkWithPaths seq true false []).map Prod.fst

/-- Character offset at which the `k`-th node (in document order) starts. -/
def startOffset (seq : List (Node M)) (k : Nat) : Nat :=
  (((docNodes seq).take k).flatMap leafText).length

/-- Every token and decoration has nonempty text. -/
def TextNonempty (seq : List (Node M)) : Prop :=
  ∀ n, Occurs seq n → IsTextLeaf n → leafText n ≠ []

/-- The log probability of the first model token that ends after the offset `s`; zero if there is none. -/
def nextLogProb [Add R] [Zero R] (tokens : List (Text × R)) (s : Nat) : R :=
  match (spansFrom 0 tokens).find? fun x => decide (s < x.2.1) with
  | none => 0
  | some x => 0 + x.2.2

/-- What a token node with the span `[s, s + t.length)` gets: the sum over the model tokens that share a
character with it; a node without text gets the log probability of the next model token. -/
def nodeLogProb [Add R] [Zero R] (tokens : List (Text × R)) (s : Nat) (t : Text) : R :=
  if t = [] then nextLogProb tokens s else spanLogProb tokens s (s + t.length)

/-- The model tokens that are left at the offset `s` after `j` nodes without text were met there: of the empty model
tokens at `s`, all but the first `j`; and every model token that ends after `s`. -/
def pendingSpans (tokens : List (Text × R)) (s j : Nat) : List (Nat × Nat × R) :=
  ((spansFrom 0 tokens).filter fun x => decide (x.1 = s) && decide (x.2.1 = s)).drop j
    ++ (spansFrom 0 tokens).filter fun x => decide (s < x.2.1)

/-- What a token node gets, in general: the sum, in order, over the model tokens that are left and start before the
end of the node; or, for a node without text, the first model token that is left. -/
def nodeLogProbAt [Add R] [Zero R] (tokens : List (Text × R)) (s j : Nat) (t : Text) : R :=
  ((if t = [] then (pendingSpans tokens s j).take 1
    else (pendingSpans tokens s j).filter fun x => decide (x.1 < s + t.length)).map fun x => x.2.2).foldl (· + ·) 0

/-- Is this a token or a decoration? -/
def isTextLeaf : Node M → Bool
  | .tok _ _ => true
  | .deco _ => true
  | _ => false

/-- The number of tokens and decorations without text directly before the `k`-th node (in document order), that is,
since the last node with text. -/
def emptyBefore (seq : List (Node M)) (k : Nat) : Nat :=
  ((((docNodes seq).take k).reverse.takeWhile fun n => (leafText n).isEmpty).filter isTextLeaf).length

end RUSure.Spec
