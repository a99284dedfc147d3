import Verif.Model.MatchGroups
import Verif.Spec.Solution

/-!
# What should be counted and shown of a lookup of calls
-/

namespace RUSure.Spec
open RUSure
variable {M : Type}

/-- The tokens of a tree in order. -/
def tokensOf (seq : List (Node M)) : List (Text × M) := (tokens 0 seq).map Prod.snd

/-- The prototype tokens that are reported in one of some categories. -/
def reported (cats : List SelCat) (proto : List (Node M)) (ss : List SelStep) : List (Text × M) :=
  (ss.filterMap SelStep.info).filterMap fun x =>
    if x.cat ∈ cats then x.proto.bind fun i => (tokens 0 proto).lookup i else none

/-- The selected prototype tokens that are found in the target. -/
def foundTokens (proto : List (Node M)) (ss : List SelStep) : List (Text × M) := reported [.matched] proto ss

/-- The selected prototype tokens that are not found in the target. -/
def lostTokens (proto : List (Node M)) (ss : List SelStep) : List (Text × M) := reported [.unmatched] proto ss

/-- The prototype tokens for which the decision is that they are in a region. -/
def selectedTokens (proto : List (Node M)) (α : DecisionKey → DecisionValue) : List (Text × M) :=
  ((tokens 0 proto).filter fun x => decide (α ⟨x.1, .inRegion⟩ = .yes)).map Prod.snd

/-- How many tokens have a type. -/
def ofType (mt : CallType) (l : List (Text × CallType)) : Nat := (l.map Prod.snd).count mt

/-- The texts of the groups in some categories. -/
def contentOf (cats : List SelCat) (gs : List MatchGroup) : List Text :=
  (gs.filter fun g => decide (∃ c ∈ cats, g.category = some c)).flatMap MatchGroup.content

end RUSure.Spec
