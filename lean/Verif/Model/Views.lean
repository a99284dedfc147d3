import Verif.Model.EditSequence
import Verif.Model.MatchGroups
import Verif.Model.Runner
import Verif.Model.TokenProbAlign

/-!
# What a notebook shows

`wrappers/demo_runner.py` (`show_suggestion`, `show_edits`, `show_utilities`, `show_token_probs`) and the
functions that make HTML for it. Plots (`show_optimization_details`) are in Model/Progress. The HTML is what
is handed to the notebook.
-/

namespace RUSure

/-- `demo_runner.py:63`, `247-298`: what is shown: `EMPTY_RESULT_MESSAGE` or HTML. -/
inductive Display where
  | message
  | html (source : Text)
  deriving DecidableEq

section
variable {M S I C : Type}

/-- `demo_runner.py:247-257` `show_suggestion`, for a wrapper for edit distances
(`edit_distance_wrapper_base.py:248-266` `render_solution_html`). The colors are the default arguments of
`render_regions_to_html`. -/
def showSuggestion (contextInfo : Text) (r : CombineResult M S I C)
    (textColor borderColor backgroundColor : Text) : Except ExtractError Display :=
  match r.solution with
  | none => .ok .message
  | some sol =>
    match solutionHtml (pack r.prototype) (fun k => sol.assignments.lookup k) contextInfo textColor borderColor
        backgroundColor with
    | .error e => .error e
    | .ok source => .ok (.html source)

/-- `demo_runner.py:247-257` `show_suggestion`, for the wrapper for calls (`call_sequence_wrapper.py:645-656`
`render_solution_html`, which ignores the context). -/
def showCallSuggestion (r : CombineResult M S I C) (textColor borderColor backgroundColor : Text) :
    Except ExtractError Display :=
  match r.solution with
  | none => .ok .message
  | some sol =>
    match renderRegionsHtml (pack r.prototype) (fun k => sol.assignments.lookup k) textColor borderColor
        backgroundColor with
    | .error e => .error e
    | .ok source => .ok (.html source)

/-- `demo_runner.py:275-287` `show_edits`, for a wrapper for edit distances. -/
def showEdits (invalid : Cost) (contextInfo marker style : Text)
    (r : CombineResult M S (Option EditInfo) C) : Except PairwiseError Display :=
  match r.solution with
  | none => .ok .message
  | some sol =>
    match pairwiseHtml invalid r.prototype r.targets contextInfo r.system sol.assignments marker style with
    | .error e => .error e
    | .ok source => .ok (.html source)

/-- `demo_runner.py:275-287` `show_edits`, for the wrapper for calls. -/
def showCallEdits (invalid : Cost) (r : CombineResult M S (Option SelInfo) C) : Except PairwiseError Display :=
  match r.solution with
  | none => .ok .message
  | some sol =>
    match callPairwiseHtml invalid r.prototype r.targets r.system sol.assignments with
    | .error e => .error e
    | .ok source => .ok (.html source)

/-- `demo_runner.py:289-298` `show_utilities`: the costs whose negatives are printed, one line for each
target; `none` if the message is printed. Rounding and printing are not modelled. -/
def showUtilities (r : CombineResult M S I C) : Option (List Cost) :=
  match r.solution with
  | none => none
  | some sol => sol.info.samples.map SampleInfo.unsorted

end

/-! ## Token probabilities -/

section
variable {R : Type}

/-- `token_prob_align.py:245`: `token.replace("\n", "↩\n")`. -/
def markNewlines (t : Text) : Text := t.flatMap fun c => if c = '\n' then ['↩', '\n'] else [c]

/-- `token_prob_align.py:239-249`: the loop over the tokens. `percent` is `str(math.exp(p) * 100)`; `none`
models `OverflowError`. -/
def tokenSpans (percent : R → Option Text) : List (Text × R) → Option (List Text)
  | [] => some []
  | (t, p) :: r =>
    match percent p with
    | none => none
    | some x =>
      (tokenSpans percent r).map fun spans =>
        ("<span style=\"background-color: rgb(100.0%, ".toList ++ x ++ "%, ".toList ++ x ++ "%)\">".toList
          ++ htmlEscape (markNewlines t) ++ "</span>".toList) :: spans

/-- `token_prob_align.py:230-251` `render_tokens_and_log_probs_to_html`. -/
def renderTokenProbs (percent : R → Option Text) (tokens : List (Text × R)) : Option Text :=
  (tokenSpans percent tokens).map fun spans =>
    "<span style=\"white-space: pre; font-family: monospace; font-weight: bold\">".toList ++ spans.flatten
      ++ "</span>".toList

/-- What `show_token_probs` can raise. -/
inductive TokenProbsError where
  | parse (e : ParseFail)
  /-- the tokens do not spell the parsed text -/
  | align
  /-- a token without probability -/
  | flatten
  | overflow

/-- `demo_runner.py:350-371`: the tokens that are shown. -/
def shownTokenProbs [Add R] [Zero R] (cc : CharClass) (digit : Char → Bool) (lang : HelperLanguage)
    (context : Text) (tokens : List (Text × R)) (realign : Bool) : Except TokenProbsError (List (Text × R)) :=
  if realign then
    match parseToNodes cc digit lang false (context ++ tokens.flatMap Prod.fst) with
    | .error e => .error (.parse e)
    | .ok nodes =>
      let packed := pack (truncatePrefix nodes context.length)
      match alignTokenLogProbs tokens packed false with
      | none => .error .align
      | some aligned =>
        match flattenLogProbs packed aligned packed.preorder with
        | none => .error .flatten
        | some out => .ok out
  else .ok tokens

/-- `demo_runner.py:335-381` `show_token_probs`. -/
def showTokenProbs [Add R] [Zero R] (cc : CharClass) (digit : Char → Bool) (lang : HelperLanguage)
    (percent : R → Option Text) (context : Text) (tokens : List (Text × R)) (realign : Bool) :
    Except TokenProbsError Display :=
  match shownTokenProbs cc digit lang context tokens realign with
  | .error e => .error e
  | .ok shown =>
    match renderTokenProbs percent shown with
    | none => .error .overflow
    | some source => .ok (.html
        ("<span style=\"white-space: pre; font-family: monospace;\">".toList ++ htmlEscape context
          ++ "</span>".toList ++ source))

end

end RUSure
