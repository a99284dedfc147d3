import Verif.Model.PrefixBaselines
import Verif.Spec.Regions

/-!
# Specification of the baselines for prefix truncation
-/

namespace RUSure.Spec
open RUSure
variable {M : Type}

/-- The indices of the early exits among some nodes. -/
def exitsOf (l : List (Placed M)) : List Nat :=
  l.filterMap fun x => match x.node with
    | .exit => some x.idx
    | _ => none

/-- The indices of the region starts among some nodes. -/
def startsOf (l : List (Placed M)) : List Nat :=
  l.filterMap fun x => match x.node with
    | .rstart => some x.idx
    | _ => none

/-- The texts of the tokens among some nodes. -/
def tokenTextsOf (l : List (Placed M)) : List Text :=
  l.filterMap fun x => match x.node with
    | .tok t _ => some t
    | _ => none

/-- The decorations with a newline among some nodes. -/
def newlinesOf (l : List (Placed M)) : List Text :=
  l.filterMap fun x => match x.node with
    | .deco t => if '\n' ∈ t then some t else none
    | _ => none

/-- The node is a token with some text. -/
def Placed.isWord (x : Placed M) : Bool :=
  match x.node with
  | .tok t _ => t ≠ []
  | _ => false

/-- `e` is the first early exit such that the nodes before it meet a condition, if there is one. -/
def FirstExitWhere (proto : List (Node M)) (cond : List (Placed M) → Prop) : Option Nat → Prop
  | some e => ∃ l x r, placed proto = l ++ x :: r ∧ x.node = .exit ∧ x.idx = e ∧ cond l
      ∧ ∀ l' y r', l = l' ++ y :: r' → y.node = .exit → ¬ cond l'
  | none => ∀ l x r, placed proto = l ++ x :: r → x.node = .exit → ¬ cond l

/-- `e` is the last early exit before the first low token, or the first one after it if there is none
before, if there is one; where `low l x` tells whether `x`, which comes after the nodes `l`, is low. -/
def ExitAtLow (proto : List (Node M)) (low : List (Placed M) → Placed M → Prop) (e : Option Nat) : Prop :=
  (∃ l x r, placed proto = l ++ x :: r ∧ low l x ∧ (∀ l' y r', l = l' ++ y :: r' → ¬ low l' y)
    ∧ e = (exitsOf l).getLast?.or (exitsOf r).head?)
  ∨ ((∀ l x r, placed proto = l ++ x :: r → ¬ low l x) ∧ e = none)

/-- The log probability of a node. -/
def logProbOf (aligned : List (Int × LogProb)) (x : Placed M) : LogProb := (aligned.lookup (x.idx : Int)).getD 0

/-- The sum of the log probabilities of the words among some nodes. -/
def totalLogProb (aligned : List (Int × LogProb)) (l : List (Placed M)) : LogProb :=
  (((l.filter Placed.isWord).map (logProbOf aligned)).foldl (· + ·) 0)

/-- The average log probability of the words among some nodes. -/
def averageLogProb (aligned : List (Int × LogProb)) (l : List (Placed M)) : LogProb :=
  WithBot.map (· / ((l.filter Placed.isWord).length : ℚ)) (totalLogProb aligned l)

/-- `e` is the first early exit after some word such that the average log probability of the words
before it is as large as possible, but not minus infinity; if there is one. -/
def ExitAtMaxAverage (aligned : List (Int × LogProb)) (proto : List (Node M)) : Option Nat → Prop
  | some e => ∃ l x r, placed proto = l ++ x :: r ∧ x.node = .exit ∧ x.idx = e ∧ l.filter Placed.isWord ≠ []
      ∧ averageLogProb aligned l ≠ ⊥
      ∧ ∀ l' y r', placed proto = l' ++ y :: r' → y.node = .exit → l'.filter Placed.isWord ≠ [] →
        averageLogProb aligned l' ≤ averageLogProb aligned l
          ∧ (l'.length < l.length → averageLogProb aligned l' < averageLogProb aligned l)
  | none => ∀ l x r, placed proto = l ++ x :: r → x.node = .exit → l.filter Placed.isWord ≠ [] →
      averageLogProb aligned l = ⊥

/-- The wrapper is configured to compute a baseline. -/
def Wanted (c : PrefixConfig) : PrefixBaseline → Prop
  | .tokenProb p => p ∈ c.tokenProbs
  | .prefixProb p => p ∈ c.prefixProbs
  | .intellicode => c.intellicode = true
  | .maxAverage => c.maxAverage = true
  | .characters n => n ∈ c.characters
  | .lines n => n ∈ c.lines

/-- The early exit a baseline should take: for a token probability, where a word has a probability below
the threshold; for a prefix probability, where all words together have; for IntelliCode, where a word has
a probability below `0.8 / (1 + e^(-n/10))` and `n` is the number of words before it; for the others
where the average is largest, or where there are enough characters or lines. -/
def BaselineExit (proto : List (Node M)) (aligned : List (Int × LogProb)) (exp : LogProb → ℚ) :
    PrefixBaseline → Option Nat → Prop
  | .tokenProb p => ExitAtLow proto fun _ x => x.isWord = true ∧ exp (logProbOf aligned x) < p
  | .prefixProb p => ExitAtLow proto fun l x => x.isWord = true ∧ exp (totalLogProb aligned (l ++ [x])) < p
  | .intellicode => ExitAtLow proto fun l x => x.isWord = true ∧ exp (logProbOf aligned x)
      < 4 / 5 / (1 + exp ((-((l.filter Placed.isWord).length : ℚ) / 10 : ℚ) : LogProb))
  | .maxAverage => ExitAtMaxAverage aligned proto
  | .characters n => FirstExitWhere proto fun l =>
      tokenTextsOf l ≠ [] ∧ n ≤ ((tokenTextsOf l).flatten.length : Int)
  | .lines n => FirstExitWhere proto fun l => newlinesOf l ≠ [] ∧ n ≤ ((newlinesOf l).length : Int)

/-- Exactly these decisions are made, each once: the early exit `e` (if any) is taken, those before it are
not, those after it are not applicable; and no region starts. -/
structure ExitsAt (proto : List (Node M)) (e : Option Nat) (d : Decisions) : Prop where
  once : (d.map Prod.fst).Nodup
  made : ∀ k : DecisionKey, d.lookup k = match k.cat with
    | .exit =>
      if k.index ∈ exitsOf (placed proto) then
        some (match e with
          | none => .no
          | some i => if k.index < i then .no else if k.index = i then .yes else .na)
      else none
    | .start => if k.index ∈ startsOf (placed proto) then some .no else none
    | _ => none

/-- The decisions agree with an assignment. -/
def AgreesWith (d : Decisions) (α : DecisionKey → DecisionValue) : Prop := ∀ k v, d.lookup k = some v → α k = v

/-- The dictionary contains decisions of `α` about the prototype, at most one for each key, and at
least those about the starts and ends of regions and about early exits. -/
structure Records (proto : List (Node M)) (α : DecisionKey → DecisionValue) (a : Decisions) : Prop where
  once : (a.map Prod.fst).Nodup
  known : ∀ kv ∈ a, kv.1 ∈ seqKeys 0 proto
  agrees : ∀ kv ∈ a, kv.2 = α kv.1
  markers : ∀ k ∈ seqKeys 0 proto, k.cat ≠ .inRegion → ∃ v, (k, v) ∈ a

end RUSure.Spec
