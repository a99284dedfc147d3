import Verif.Model.Views
import Verif.Spec.Regions
import Verif.Spec.TokenProbAlign

/-!
# What should be shown of token probabilities
-/

namespace RUSure.Spec
open RUSure
variable {M R : Type}

/-- The tokens and decorations of a tree in document order: a token with the sum of the log probabilities of
the model tokens that contribute to it (without text: of the next model token that is left), a decoration with zero. -/
def realigned [Add R] [Zero R] (tokens : List (Text × R)) (seq : List (Node M)) : List (Text × R) :=
  (docNodes seq).zipIdx.filterMap fun x =>
    match x.1 with
    | .tok t _ => some (t, nodeLogProbAt tokens (startOffset seq x.2) (emptyBefore seq x.2) t)
    | .deco t => some (t, 0)
    | _ => none

/-- The tag that gives a token its color. -/
def colorTag (percent : Text) : Text :=
  "span style=\"background-color: rgb(100.0%, ".toList ++ percent ++ "%, ".toList ++ percent ++ "%)\"".toList

end RUSure.Spec
