import Verif.Model.Selection
import Verif.Model.CallSequence
import Verif.Model.EditSequence

/-!
# Utilities of calls, and showing where they are found

`wrappers/call_sequence_wrapper.py` (`token_node_utility_fn`, the counts of `solution_info`,
`render_pairwise_matching_html`) and `edit_distance_utility/part_selection_dags.py`
(`extract_match_groups`).
-/

namespace RUSure
variable {M : Type}

/-- `call_sequence_wrapper.py:258-267`: what a token is worth. -/
def callWorth : CallType → ℚ
  | .args => 1
  | .emptyArgs => 1
  | .expected => 1
  | .novel => 10
  | _ => 0

/-- `call_sequence_wrapper.py:255-276` `token_node_utility_fn`, for an `effective_precision`. -/
def callUtility (precision : ℚ) : SelUtility CallType where
  matchUtility := fun _ mt => callWorth mt * (1 - precision)
  deleteCost := fun _ mt => callWorth mt * precision

/-- `call_sequence_wrapper.py:586-590`, `part_selection_dags.py:981-988`: the token with an index; the inner
`none` means that the node is not a token, and the outer one models `IndexError`. -/
def tokenFor (S : Storage M) (i : Nat) : Option (Option (Text × M)) :=
  match S.preorder[i]? with
  | none => none
  | some id => if id.cat = .tok then (pyGet S.toks id.idx).map some else some none

/-! ## Counts -/

/-- `call_sequence_wrapper.py:571-576`: the six counts. -/
structure CallCounts where
  correctNovel : Nat := 0
  correctNotNovel : Nat := 0
  correctArgs : Nat := 0
  deletedNovel : Nat := 0
  deletedNotNovel : Nat := 0
  deletedArgs : Nat := 0
  deriving DecidableEq, Repr

/-- `call_sequence_wrapper.py:591-611`: a token is counted. -/
def CallCounts.add (c : CallCounts) (cat : SelCat) (mt : CallType) : CallCounts :=
  match cat with
  | .matched =>
    match mt with
    | .novel => { c with correctNovel := c.correctNovel + 1 }
    | .expected => { c with correctNotNovel := c.correctNotNovel + 1 }
    | .args => { c with correctArgs := c.correctArgs + 1 }
    | _ => c
  | .unmatched =>
    match mt with
    | .novel => { c with deletedNovel := c.deletedNovel + 1 }
    | .expected => { c with deletedNotNovel := c.deletedNotNovel + 1 }
    | .args => { c with deletedArgs := c.deletedArgs + 1 }
    | _ => c
  | _ => c

/-- An edge of a path, of a DAG with any states. -/
abbrev SelPathEdge (σ : Type) := Edge σ DecisionKey DecisionValue (Option SelInfo)

/-- `call_sequence_wrapper.py:577-611`: the loop over the path. `none` models `IndexError`. -/
def countLoop {σ : Type} (S : Storage CallType) : List (SelPathEdge σ) → CallCounts → Option CallCounts
  | [], c => some c
  | e :: es, c =>
    match e.info.bind fun x => x.proto.map fun i => (x.cat, i) with
    | none => countLoop S es c
    | some (cat, i) =>
      match tokenFor S i with
      | none => none
      | some none => countLoop S es c
      | some (some (_, mt)) => countLoop S es (c.add cat mt)

/-- `call_sequence_wrapper.py:570-620`: the counts of `solution_info`. -/
def callCounts {σ : Type} (S : Storage CallType) (path : List (SelPathEdge σ)) : Option CallCounts :=
  countLoop S path {}

/-! ## Groups -/

/-- The standard library's `itertools.groupby`: runs of items with the same key. -/
def groupRuns {A K : Type} [DecidableEq K] (key : A → K) : List A → List (K × List A)
  | [] => []
  | x :: xs =>
    match groupRuns key xs with
    | [] => [(key x, [x])]
    | (k, run) :: r => if key x = k then (k, x :: run) :: r else (key x, [x]) :: (k, run) :: r

/-- `part_selection_dags.py:937-943` `PartSelectionGroup`. -/
structure MatchGroup where
  content : List Text
  category : Option SelCat
  cost : Cost
  deriving DecidableEq

/-- `part_selection_dags.py:974-1000`: what an edge adds to `content_tokens`. `none` models
`IndexError`. -/
def edgeTokens {σ : Type} (P T : Storage M) (cat : Option SelCat) (e : SelPathEdge σ) : Option (List Text) :=
  match cat with
  | none => some []
  | some .skipTarget =>
    match e.info.bind SelInfo.target with
    | none => some []
    | some j => (tokenFor T j).map fun x => (x.map Prod.fst).toList
  | some _ =>
    match e.info.bind SelInfo.proto with
    | none => some []
    | some i => (tokenFor P i).map fun x => (x.map Prod.fst).toList

/-- `part_selection_dags.py:969-1006`: the loop over the runs. -/
def matchGroupsLoop {σ : Type} (P T : Storage M) :
    List (Option SelCat × List (SelPathEdge σ)) → Option (List MatchGroup)
  | [] => some []
  | (cat, run) :: r =>
    match mapAll (edgeTokens P T cat) run with
    | none => none
    | some texts =>
      match matchGroupsLoop P T r with
      | none => none
      | some gs =>
        let cost := (run.map Edge.cost).foldl (· + ·) 0
        some (if cost ≠ 0 ∨ texts.flatten ≠ [] then ⟨texts.flatten, cat, cost⟩ :: gs else gs)

/-- `part_selection_dags.py:946-1006` `extract_match_groups`. -/
def matchGroups {σ : Type} (P T : Storage M) (path : List (SelPathEdge σ)) : Option (List MatchGroup) :=
  matchGroupsLoop P T (groupRuns (fun e => e.info.map SelInfo.cat) path)

/-! ## HTML -/

/-- `call_sequence_wrapper.py:683-699`: the lines about the groups. -/
def matchLine (g : MatchGroup) : Text :=
  match g.category with
  | some .matched => "MATCHED: ".toList ++ htmlEscape (joinSpace g.content) ++ "<br>".toList
  | some .unmatched => "WRONG: ".toList ++ htmlEscape (joinSpace g.content) ++ "<br>".toList
  | _ => []

/-- `call_sequence_wrapper.py:674-700`: the loop over the targets, starting with number `i`. -/
def callPairwiseLoop {σ : Type} (invalid : Cost) (P : Storage M) (a : Decisions) :
    Nat → List (Part σ (Option SelInfo) × Storage M) → Except PairwiseError (List Text)
  | _, [] => .ok []
  | i, (part, T) :: r =>
    match part.bestPath invalid a with
    | .error e => .error (.solution e)
    | .ok path =>
      match matchGroups P T path with
      | none => .error .index
      | some gs =>
        match callPairwiseLoop invalid P a (i + 1) r with
        | .error e => .error e
        | .ok rest => .ok
            (("========== Target ".toList ++ (Nat.repr i).toList ++ " ==========<br>".toList
              ++ "<span style=\"white-space: pre; font-family: monospace;\">".toList
              ++ gs.flatMap matchLine ++ "</span><br>".toList) :: rest)

/-- `call_sequence_wrapper.py:658-702` `render_pairwise_matching_html`. -/
def callPairwiseHtml {σ C : Type} (invalid : Cost) (proto : List (Node M)) (targets : List (List (Node M)))
    (B : BuiltSystem σ (Option SelInfo) C) (a : Decisions) : Except PairwiseError Text :=
  match callPairwiseLoop invalid (pack proto) a 0 (B.utilities.zip (targets.map pack)) with
  | .error e => .error e
  | .ok parts => .ok parts.flatten

end RUSure
