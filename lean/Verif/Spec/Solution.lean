import Verif.Model.Solution
import Verif.Spec.PrefixBaselines
import Verif.Spec.System

/-!
# What the information about a solution should say
-/

namespace RUSure.Spec
open RUSure
variable {M : Type}

/-- `ss` is an edit script from the prototype to the target that makes the decisions in the
dictionary. -/
def ScriptGiven (prm : Params) (proto target : List (Node M)) (a : Decisions) (ss : List EditStep) :
    Prop :=
  (∃ r, (r = none ∨ r = some .high) ∧ Edits prm .advancing .high 0 proto 0 target ss r)
  ∧ ∀ kv ∈ a, decided (ss.filterMap EditStep.decision) kv.1 = kv.2

/-- `ss` is the cheapest edit script for the decisions in the dictionary. -/
def CheapestScript (prm : Params) (proto target : List (Node M)) (a : Decisions) (ss : List EditStep) :
    Prop :=
  ScriptGiven prm proto target a ss
  ∧ ∀ ss', ScriptGiven prm proto target a ss' →
    scriptPrice prm proto target ss ≤ scriptPrice prm proto target ss'

/-- The price of a way to look up parts. -/
def lookupPrice (f : SelUtility M) (proto : List (Node M)) (ss : List SelStep) : ℚ :=
  ((ss.filterMap SelStep.info).map (selPrice f proto)).sum

/-- `ss` is a way to look up parts that makes the decisions in the dictionary. -/
def LookupGiven (f : SelUtility M) (proto target : List (Node M)) (a : Decisions) (ss : List SelStep) :
    Prop :=
  Selects f (items 0 proto) (items 0 target) ss
  ∧ ∀ kv ∈ a, decided (ss.filterMap SelStep.decision) kv.1 = kv.2

/-- `ss` is the cheapest way to look up parts for the decisions in the dictionary. -/
def CheapestLookup (f : SelUtility M) (proto target : List (Node M)) (a : Decisions)
    (ss : List SelStep) : Prop :=
  LookupGiven f proto target a ss
  ∧ ∀ ss', LookupGiven f proto target a ss' → lookupPrice f proto ss ≤ lookupPrice f proto ss'

/-- The cost of the cheapest edit script for the decisions in the dictionary. -/
def LeastScriptPrice (prm : Params) (proto : List (Node M)) (a : Decisions) (target : List (Node M))
    (c : ℚ) : Prop :=
  ∃ ss, CheapestScript prm proto target a ss ∧ scriptPrice prm proto target ss = c

/-- The cost of the cheapest way to look up parts for the decisions in the dictionary. -/
def LeastLookupPrice (f : SelUtility M) (proto : List (Node M)) (a : Decisions) (target : List (Node M))
    (c : ℚ) : Prop :=
  ∃ ss, CheapestLookup f proto target a ss ∧ lookupPrice f proto ss = c

/-- The statistics of the costs of the samples: the costs in order and sorted, their mean, their
sample variance, and how many are below the cost `total` of the evaluation target. -/
structure Describes (costs : List ℚ) (total : Option ℚ) (s : SampleInfo) : Prop where
  unsorted : s.unsorted = costs.map fun c : ℚ => (c : Cost)
  perm : s.sorted.Perm s.unsorted
  increasing : s.sorted.Pairwise (· ≤ ·)
  noAverage : s.average = none ↔ costs = []
  average : ∀ m, s.average = some m → m * (costs.length : ℚ) = costs.sum
  noVariance : s.variance = none ↔ costs.length ≤ 1
  variance : ∀ m v, s.average = some m → s.variance = some v →
    v * ((costs.length : ℚ) - 1) = (costs.map fun x => (x - m) * (x - m)).sum
  noRank : total = none → s.rank = none
  rank : ∀ t, total = some t → s.rank = some (costs.countP fun c => decide (c < t))

end RUSure.Spec
