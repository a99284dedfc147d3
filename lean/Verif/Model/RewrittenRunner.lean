import Verif.Model.RewrittenSystem
import Verif.Model.Runner

/-!
# Wrappers in their default configuration
-/

namespace RUSure

/-- A wrapper for edit distances with renumbered states (`edit_distance_wrapper_base.py:47-100`,
`uncertainty_regions_wrapper.py:256-267`, `prefix_truncation_wrapper.py:128-143`). -/
def rewrittenEditWrapper (slot : EditState → Nat) (slotC : ConstraintState → Nat) (invalid : Cost) (prm : Params)
    (regions exits : Bool) : Wrapper MatchName Nat (Option EditInfo) AddError Nat where
  prototype := processEditPrototype regions exits
  target := processEditTarget
  build := rewrittenEditSystem slot slotC invalid prm

/-- `call_sequence_wrapper.py:236-317`, `319-342`, `496-539`: `ApiCallSequenceWrapper` with renumbered states. -/
def rewrittenCallWrapper (slot : SelState → Nat) (slotC : ConstraintState → Nat) (cc : CharClass)
    (builtin : List Text) (invalid : Cost) (f : SelUtility CallType) :
    Wrapper CallType Nat (Option SelInfo) SelError Nat where
  prototype := makeCallseqTree cc builtin
  target := fun nodes location => stripDecisions (makeCallseqTree cc builtin nodes location)
  build := rewrittenSelectionSystem slot slotC invalid f

end RUSure
