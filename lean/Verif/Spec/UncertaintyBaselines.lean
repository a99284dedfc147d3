import Verif.Model.UncertaintyBaselines
import Verif.Spec.PrefixBaselines
import Verif.Spec.System
import Verif.Spec.Tree

/-!
# Specification of the baselines for uncertainty regions
-/

namespace RUSure.Spec
open RUSure
variable {M : Type}

/-- The node is a token. -/
def Placed.isToken (x : Placed M) : Bool :=
  match x.node with
  | .tok _ _ => true
  | _ => false

/-- The wrapper is configured to compute a baseline. -/
def Configured (c : UncertainConfig) : UncertainBaseline → Prop
  | .nonempty p => p ∈ c.thresholds
  | .cumulative p => p ∈ c.thresholds
  | .fraction f => f ∈ c.fractions
  | .cutoff ancestor child => (ancestor, child) ∈ c.cutoffs

/-- The token `x`, which comes after the nodes `l`, should be in a region: it has some text, and its
probability, or that of all tokens up to it, is below the threshold; or it has some text, and ends after the
given fraction of the text; or there is a token before it, and relative to the first one its depth is at most
`-ancestor` or at least `child`. -/
def Uncertain (proto : List (Node M)) (aligned : List (Int × LogProb)) (exp : LogProb → ℚ) :
    UncertainBaseline → List (Placed M) → Placed M → Prop
  | .nonempty p, _, x => x.isWord = true ∧ exp (logProbOf aligned x) < p
  | .cumulative p, l, x => x.isWord = true
      ∧ exp ((((l ++ [x]).filter Placed.isToken).map (logProbOf aligned)).foldl (· + ·) 0) < p
  | .fraction f, l, x => x.isWord = true
      ∧ f * ((text proto).length : ℚ) < ((((l ++ [x]).flatMap fun y => leafText y.node).length : Nat) : ℚ)
  | .cutoff ancestor child, l, x => x.isToken = true ∧ ∃ y, l.find? Placed.isToken = some y
      ∧ ((x.path.length : Int) - y.path.length ≤ -ancestor ∨ child ≤ (x.path.length : Int) - y.path.length)

/-- These are the indices of the tokens that should be in a region. -/
structure UncertainTokens (proto : List (Node M)) (aligned : List (Int × LogProb)) (exp : LogProb → ℚ)
    (b : UncertainBaseline) (low : List Nat) : Prop where
  once : low.Nodup
  which : ∀ i, i ∈ low ↔ ∃ l x r, placed proto = l ++ x :: r ∧ x.idx = i ∧ Uncertain proto aligned exp b l x

/-- The number of tokens that should be in a region but are not. -/
def missed (low : List Nat) (α : DecisionKey → DecisionValue) : Nat :=
  (low.filter fun i => decide (α ⟨i, .inRegion⟩ ≠ .yes)).length

/-- `y` is the cost of the decisions `α` for a baseline: the cheapest edits from the prototype to the target, and
a million for every token that should be in a region but is not. -/
def PenalisedCost (prm : Params) (proto target : List (Node M)) (low : List Nat) (α : DecisionKey → DecisionValue)
    (y : ℚ) : Prop :=
  ∃ c, LeastEditCost prm proto α target c ∧ y = c + 1000000 * (missed low α : ℚ)

end RUSure.Spec
