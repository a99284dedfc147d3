import Verif.Model.Pack

/-!
# Model of `r_u_sure/tree_structure/token_prob_align.py`

Log probabilities are elements of any type `R` with an addition and a zero (floating point numbers
included: sums are kept in the order in which the code performs them).

The Python stack stores the tokens in reverse order and pops from the end; here the stack is a list
whose head is the end of the Python list, so that `SpanProbHelper.build` (lines 63-68) is the
identity.
-/

namespace RUSure

variable {M R : Type}

/-- `token_prob_align.py:91-109`: the `while` loop of `advance_by_length`; returns the extracted
text, the aggregate log prob and the remaining stack. -/
def advanceLoop [Add R] : List (Text × R) → Nat → Text → R → Text × R × List (Text × R)
  | [], _, out, total => (out, total, [])
  | (token, lp) :: stack, remaining, out, total =>
      if token.length ≤ remaining then
        if remaining - token.length = 0 then (out ++ token, total + lp, stack)
        else advanceLoop stack (remaining - token.length) (out ++ token) (total + lp)
      else
        (out ++ token.take remaining, total + lp, (token.drop remaining, lp) :: stack)

/-- `token_prob_align.py:70-111` `advance_by_length`. -/
def advanceByLength [Add R] [Zero R] (stack : List (Text × R)) (len : Nat) :
    Text × R × List (Text × R) :=
  advanceLoop stack len [] 0

/-- `token_prob_align.py:113-142` `advance_and_get_log_prob_for`; `none` = `ValueError`. -/
def advanceFor [Add R] [Zero R] (stack : List (Text × R)) (external : Text) :
    Option (R × List (Text × R)) :=
  let r := advanceByLength stack external.length
  if r.1 = external then some (r.2.1, r.2.2) else none

/-- `token_prob_align.py:144-148` `assert_consumed`. -/
def allConsumed (stack : List (Text × R)) : Bool := stack.all (fun p => p.1.isEmpty)

/-- `token_prob_align.py:178-190`: the loop over the preorder traversal. The dictionary `result` is
an association list in insertion order. `none` = exception. -/
def alignLoop [Add R] [Zero R] (S : Storage M) :
    List NodeId → List (Text × R) → List (Int × R) → Option (List (Text × R) × List (Int × R))
  | [], stack, result => some (stack, result)
  | id :: ids, stack, result =>
      match id.cat with
      | .tok =>
        match pyGet S.toks id.idx with
        | none => none
        | some p =>
          match advanceFor stack p.1 with
          | none => none
          | some (lp, stack') => alignLoop S ids stack' (result ++ [(id.preorder, lp)])
      | .deco =>
        match pyGet S.decos id.idx with
        | none => none
        | some t =>
          match advanceFor stack t with
          | none => none
          | some (_, stack') => alignLoop S ids stack' result
      | _ => alignLoop S ids stack result

/-- `token_prob_align.py:151-195` `align_token_log_probs`. -/
def alignTokenLogProbs [Add R] [Zero R] (tokens : List (Text × R)) (S : Storage M)
    (mustConsumeAll : Bool) : Option (List (Int × R)) :=
  match alignLoop S S.preorder tokens [] with
  | none => none
  | some (stack, result) =>
      if mustConsumeAll && !allConsumed stack then none else some result

/-- `token_prob_align.py:198-229` `flatten_token_log_probs_from_parsed`; the generator's output as a
list; `none` = exception (`KeyError` for a token without recorded log prob). -/
def flattenLogProbs [Zero R] (S : Storage M) (logProbs : List (Int × R)) :
    List NodeId → Option (List (Text × R))
  | [] => some []
  | id :: ids =>
      match id.cat with
      | .tok =>
        match pyGet S.toks id.idx, logProbs.lookup id.preorder with
        | some p, some lp => (flattenLogProbs S logProbs ids).map ((p.1, lp) :: ·)
        | _, _ => none
      | .deco =>
        match pyGet S.decos id.idx with
        | some t => (flattenLogProbs S logProbs ids).map ((t, 0) :: ·)
        | none => none
      | _ => flattenLogProbs S logProbs ids

end RUSure
