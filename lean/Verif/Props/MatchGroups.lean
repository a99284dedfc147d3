import Verif.Lemmas.MatchGroups
import Verif.Props.Solution
import Verif.Props.EditSequence

/-!
# C63: what is counted and shown about the calls of a suggestion
-/

set_option linter.unusedSectionVars false

namespace RUSure.Props
open RUSure RUSure.Spec RUSure.Lemmas

/-! ## Utilities -/

/-- C63: if a selected token is found in a sample with probability `q`, then its expected cost is its
worth times `precision - q`: it pays to select a token that is worth something if and only if it is correct
with a probability above the effective precision. Parentheses and periods are worth nothing, novel
identifiers ten times as much as others and as arguments. -/
theorem C63_precision (precision q : ℚ) (t : Text) (mt : CallType) :
    (1 - q) * (callUtility precision).deleteCost t mt - q * (callUtility precision).matchUtility t mt
        = callWorth mt * (precision - q)
    ∧ (mt = .novel → callWorth mt = 10)
    ∧ (mt = .expected ∨ mt = .args ∨ mt = .emptyArgs → callWorth mt = 1)
    ∧ (mt = .attributeDot ∨ mt = .startCall ∨ mt = .endCall → callWorth mt = 0) := by
  refine ⟨by simp only [callUtility]; ring, ?_, ?_, ?_⟩
  · rintro rfl; rfl
  · rintro (rfl | rfl | rfl) <;> rfl
  · rintro (rfl | rfl | rfl) <;> rfl

section
variable {M : Type} [DecidableEq M] {f : SelUtility M} {proto target : List (Node M)}

/-- A path reports items of the two sequences. -/
theorem path_showable {d : Dag SelState DecisionKey DecisionValue (Option SelInfo)}
    (h : constructSelectionDag f (pack proto) (pack target) = .ok d) {p : List SelEdge}
    (hp : DagSolution d p) : SelShowable proto target p := by
  intro e he x hx
  exact selects_good ((C50_paths f proto target d h _).1 ⟨p, hp, rfl⟩) (fun _ h => h) (fun _ h => h) x
    (step_mem he hx)

/-! ## Lookups -/

omit [DecidableEq M] in
/-- C63: every token of the prototype is reported once, in order: as not selected, as found, or as lost. The
tokens that are found or lost are the selected ones. The tokens that are found are in the target, in the
same order and with the same type. -/
theorem C63_tokens {ss : List SelStep} (h : Selects f (items 0 proto) (items 0 target) ss) :
    reported [.matched, .unmatched, .skipProto] proto ss = tokensOf proto
    ∧ reported [.matched, .unmatched] proto ss = selectedTokens proto (decided (ss.filterMap SelStep.decision))
    ∧ (foundTokens proto ss).Sublist (tokensOf target) := by
  refine ⟨?_, ?_, ?_⟩
  · rw [reported_eq (target := target) (by simp), selects_proto h fun _ h => h, items_toks]
    rfl
  · rw [reported_eq (target := target) (by simp), selects_selected h (fun _ h => h)
      (α := decided (ss.filterMap SelStep.decision)) ?_, items_toks_if]
    · rfl
    · intro kv hkv
      have hnd : ((sdecs ss).map Prod.fst).Nodup := by
        have := selects_keys h
        unfold skeys at this
        rw [this, items_keys]
        exact (seqKeys_sorted proto 0).imp fun h => ne_of_lt h
      unfold decided
      show ((sdecs ss).lookup kv.1).getD .na = kv.2
      rw [lookup_of_mem hnd hkv]
      rfl
  · have h1 := selects_target h (fun _ h => h) (fun _ h => h)
    rw [items_toks] at h1
    refine List.Sublist.trans ?_ h1.sublist
    unfold foundTokens
    rw [reported_eq (target := target) (by simp)]
    unfold shownIn
    induction sinfos ss with
    | nil => exact List.Sublist.refl _
    | cons x l ih =>
      rw [List.filterMap_cons, List.filterMap_cons]
      cases hc : x.cat <;> cases shownTok proto target x <;> simp at ih ⊢ <;>
        first | exact ih | exact ih.cons _

/-! ## Groups -/

/-- C63: `extract_match_groups` does not fail on a path of the selection DAG. The groups about the
prototype contain its tokens in order; those of skipped and matched parts contain, in order, the tokens of
the target up to the end of the last match, so each matched group is in one piece in the target; the
costs of the groups sum up to the cost of the path; and no group is empty. -/
theorem C63_groups {d : Dag SelState DecisionKey DecisionValue (Option SelInfo)}
    (h : constructSelectionDag f (pack proto) (pack target) = .ok d) {p : List SelEdge}
    (hp : DagSolution d p) :
    ∃ gs, matchGroups (pack proto) (pack target) p = some gs
      ∧ contentOf [.matched, .unmatched, .skipProto] gs = (tokensOf proto).map Prod.fst
      ∧ contentOf [.matched, .unmatched] gs
          = (selectedTokens proto (decided (selDecisions p))).map Prod.fst
      ∧ contentOf [.matched] gs = (foundTokens proto (selectionOf p)).map Prod.fst
      ∧ contentOf [.unmatched] gs = (lostTokens proto (selectionOf p)).map Prod.fst
      ∧ contentOf [.matched, .skipTarget] gs <+: (tokensOf target).map Prod.fst
      ∧ (∀ g ∈ gs, g.category = some .matched → g.content <:+: (tokensOf target).map Prod.fst)
      ∧ (gs.map MatchGroup.cost).sum = weight Edge.cost p
      ∧ ∀ g ∈ gs, g.content ≠ [] ∨ g.cost ≠ 0 := by
  obtain ⟨gs, g1, g2, g3, g4⟩ := matchGroups_ok (path_showable h hp)
  have hs := (C50_paths f proto target d h _).1 ⟨p, hp, rfl⟩
  obtain ⟨t1, t2, -⟩ := C63_tokens hs
  have hpre : contentOf [.matched, .skipTarget] gs <+: (tokensOf target).map Prod.fst := by
    rw [g2, selInfos_eq]
    have := selects_target hs (fun _ h => h) (fun _ h => h)
    rw [items_toks] at this
    exact this.map _
  refine ⟨gs, g1, ?_, ?_, ?_, ?_, hpre, ?_, g3, g4⟩
  · rw [g2, selInfos_eq, ← reported_eq (by simp), t1]
  · rw [g2, selInfos_eq, ← reported_eq (by simp), t2, selDecisions_eq]
    rfl
  · rw [g2, selInfos_eq, ← reported_eq (by simp)]
    rfl
  · rw [g2, selInfos_eq, ← reported_eq (by simp)]
    rfl
  · intro g hg hc
    refine List.IsInfix.trans ?_ hpre.isInfix
    unfold contentOf
    have : g ∈ gs.filter fun g => decide (∃ c ∈ [SelCat.matched, .skipTarget], g.category = some c) := by
      rw [List.mem_filter]
      exact ⟨hg, by simp [hc]⟩
    obtain ⟨l, r, hlr⟩ := List.append_of_mem this
    rw [hlr, List.flatMap_append, List.flatMap_cons]
    exact ⟨_, _, by rw [List.append_assoc]⟩

end

/-! ## Counts -/

section
variable {precision : ℚ} {proto target : List (Node CallType)}

/-- C63: the counts of `solution_info` are the numbers of novel identifiers, of other identifiers and of
arguments among the selected tokens that are found, and among those that are lost. -/
theorem C63_counts {f : SelUtility CallType} {d : Dag SelState DecisionKey DecisionValue (Option SelInfo)}
    (h : constructSelectionDag f (pack proto) (pack target) = .ok d) {p : List SelEdge}
    (hp : DagSolution d p) :
    callCounts (pack proto) p = some
      { correctNovel := ofType .novel (foundTokens proto (selectionOf p))
        correctNotNovel := ofType .expected (foundTokens proto (selectionOf p))
        correctArgs := ofType .args (foundTokens proto (selectionOf p))
        deletedNovel := ofType .novel (lostTokens proto (selectionOf p))
        deletedNotNovel := ofType .expected (lostTokens proto (selectionOf p))
        deletedArgs := ofType .args (lostTokens proto (selectionOf p)) } := by
  unfold callCounts
  rw [countLoop_ok (path_showable h hp)]
  congr 1
  obtain ⟨h1, h2, h3, h4, h5, h6⟩ := counts_fold ((selInfos p).filterMap (countedAs proto)) {}
  dsimp only at h1 h2 h3 h4 h5 h6
  rw [selInfos_eq] at h1 h2 h3 h4 h5 h6 ⊢
  rw [counted_type, Nat.zero_add] at h1 h2 h3 h4 h5 h6
  generalize (List.filterMap (countedAs proto) (sinfos (selectionOf p))).foldl
    (fun (c : CallCounts) x => c.add x.1 x.2) {} = r at h1 h2 h3 h4 h5 h6 ⊢
  obtain ⟨a, b, c, d, e, f⟩ := r
  dsimp only at h1 h2 h3 h4 h5 h6
  subst h1 h2 h3 h4 h5 h6
  rfl

theorem ofType_add (proto : List (Node CallType)) (ss : List SelStep) (mt : CallType) :
    ofType mt (foundTokens proto ss) + ofType mt (lostTokens proto ss)
      = ofType mt (reported [.matched, .unmatched] proto ss) := by
  unfold foundTokens lostTokens reported ofType
  generalize (fun x : SelInfo => x.proto.bind fun i => (tokens 0 proto).lookup i) = g
  induction ss.filterMap SelStep.info with
  | nil => rfl
  | cons x l ih =>
    rw [List.filterMap_cons, List.filterMap_cons, List.filterMap_cons]
    cases hc : x.cat <;> cases x.proto.bind fun i => (tokens 0 proto).lookup i <;>
      simp [List.count_cons] at ih ⊢ <;> omega

/-- C63: for each type, what is found and what is lost add up to what is selected, and no more is found than
there is in the target. -/
theorem C63_selected {f : SelUtility CallType} {ss : List SelStep}
    (h : Selects f (items 0 proto) (items 0 target) ss) (mt : CallType) :
    ofType mt (foundTokens proto ss) + ofType mt (lostTokens proto ss)
      = ofType mt (selectedTokens proto (decided (ss.filterMap SelStep.decision)))
    ∧ ofType mt (foundTokens proto ss) ≤ ofType mt (tokensOf target) := by
  obtain ⟨-, h2, h3⟩ := C63_tokens h
  refine ⟨?_, (h3.map Prod.snd).count_le mt⟩
  rw [← h2]
  exact ofType_add _ _ _

/-- C63: the cost of a lookup of calls follows from the counts, and from the numbers of empty arguments. -/
theorem C63_cost (precision : ℚ) (proto : List (Node CallType)) (ss : List SelStep) :
    lookupPrice (callUtility precision) proto ss
      = precision * (10 * ofType .novel (lostTokens proto ss) + ofType .expected (lostTokens proto ss)
          + ofType .args (lostTokens proto ss) + ofType .emptyArgs (lostTokens proto ss))
        - (1 - precision) * (10 * ofType .novel (foundTokens proto ss) + ofType .expected (foundTokens proto ss)
          + ofType .args (foundTokens proto ss) + ofType .emptyArgs (foundTokens proto ss)) := by
  rw [price_worth, totalWorth_types, totalWorth_types]
  ring

variable {invalid inv : Cost} {targets : List (List (Node CallType))} {factors : Option (List ℚ)}
  {B : BuiltSystem SelState (Option SelInfo)}

theorem tokens_key : ∀ (ns : List (Node CallType)) (i : Nat), ∀ x ∈ tokens i ns,
    (⟨x.1, .inRegion⟩ : DecisionKey) ∈ seqKeys i ns
  | [], _, _, h => by simp [tokens] at h
  | .tok t mt :: ns, i, x, h => by
    simp only [tokens, List.mem_cons] at h
    rw [seqKeys, List.mem_append]
    rcases h with rfl | h
    · exact .inl (by simp [nodeKeys])
    · exact .inr (tokens_key ns _ x h)
  | .group cs mt :: ns, i, x, h => by
    simp only [tokens, List.mem_append] at h
    rw [seqKeys, List.mem_append]
    rcases h with h | h
    · exact .inl (by rw [nodeKeys]; exact List.mem_cons_of_mem _ (tokens_key cs _ x h))
    · refine .inr ?_
      rw [nodeSize, ← Nat.add_assoc]
      exact tokens_key ns _ x h
  | .deco _ :: ns, i, x, h => by
    rw [tokens] at h
    rw [seqKeys, List.mem_append]
    exact .inr (tokens_key ns _ x h)
  | .rstart :: ns, i, x, h => by
    rw [tokens] at h
    rw [seqKeys, List.mem_append]
    exact .inr (tokens_key ns _ x h)
  | .rend :: ns, i, x, h => by
    rw [tokens] at h
    rw [seqKeys, List.mem_append]
    exact .inr (tokens_key ns _ x h)
  | .exit :: ns, i, x, h => by
    rw [tokens] at h
    rw [seqKeys, List.mem_append]
    exact .inr (tokens_key ns _ x h)

/-- C63: `solution_info` of the wrapper for calls, for all decisions of a suggestion and an evaluation
target: it does not fail; it shows the suggestion, and reports the cost of a cheapest lookup of its parts
in the target and the counts of that lookup. What is found and lost adds up to what is suggested, and the
cost follows from the counts. -/
theorem C63_info (hB : buildSelectionSystem inv (callUtility precision) proto targets factors = .ok B)
    (hx : ¬ Occurs proto .exit) (hf : GoodFactors targets factors)
    {factors' : Option (List ℚ)} {B' : BuiltSystem SelState (Option SelInfo)}
    (hB' : buildSelectionSystem inv (callUtility precision) proto [target] factors' = .ok B')
    (hf' : GoodFactors [target] factors') {α : DecisionKey → DecisionValue} (hα : WellFormedRegions α proto)
    {a : Decisions} (ha : Records proto α a) (hall : ∀ k ∈ seqKeys 0 proto, ∃ v, (k, v) ∈ a) :
    ∃ (c : CallCounts) (cost : ℚ) (s : SampleInfo) (found lost : List (Text × CallType)),
      solutionInfo invalid (callCounts (pack proto)) proto a (some B') (some B)
        = .ok ⟨annotated α [] [] (kept α proto), some ((cost : Cost), some c), some s⟩
      ∧ (∃ ss, CheapestLookup (callUtility precision) proto target a ss
        ∧ lookupPrice (callUtility precision) proto ss = cost
        ∧ foundTokens proto ss = found ∧ lostTokens proto ss = lost)
      ∧ found.Sublist (tokensOf target)
      ∧ c = ⟨ofType .novel found, ofType .expected found, ofType .args found,
          ofType .novel lost, ofType .expected lost, ofType .args lost⟩
      ∧ (∀ mt, ofType mt found + ofType mt lost = ofType mt (selectedTokens proto α))
      ∧ cost = precision * (10 * c.deletedNovel + c.deletedNotNovel + c.deletedArgs + ofType .emptyArgs lost)
          - (1 - precision) * (10 * c.correctNovel + c.correctNotNovel + c.correctArgs
            + ofType .emptyArgs found) := by
  have hb := selection_system hx hf hB
  have hb' := selection_system hx hf' hB'
  have hz : ∃ s, [target].zip (targetWeights [target].length factors') = [(target, s)] := by
    cases hw : targetWeights [target].length factors' with
    | nil =>
      have := (scaleFactors_ok (E := AddError) hf').2.2
      rw [hw] at this
      simp at this
    | cons s r => exact ⟨s, by simp⟩
  obtain ⟨s', hs'⟩ := hz
  rw [hs'] at hb'
  obtain ⟨w, ws, h1, h3, h2⟩ := info_both hb hb' invalid (callCounts (pack proto)) hα ha
  obtain ⟨e1, e2⟩ := selection_cheapest h3
  obtain ⟨d, hd, hsol, -⟩ := h3
  rw [e2, C63_counts hd hsol] at h1
  have hs := e1.1.1
  refine ⟨_, _, _, foundTokens proto (selectionOf w), lostTokens proto (selectionOf w), h1,
    ⟨selectionOf w, e1, rfl, rfl, rfl⟩, (C63_tokens hs).2.2, rfl, fun mt => ?_, C63_cost precision proto _⟩
  rw [(C63_selected hs mt).1]
  congr 1
  unfold selectedTokens
  congr 1
  refine List.filter_congr fun x hx => ?_
  have hk : (⟨x.1, .inRegion⟩ : DecisionKey) ∈ seqKeys 0 proto := by
    have := tokens_key proto 0 x hx
    exact this
  obtain ⟨v, hv⟩ := hall _ hk
  have h4 := e1.1.2 _ hv
  have h5 := ha.agrees _ hv
  dsimp only at h4 h5
  rw [h4, h5]

/-! ## HTML -/

theorem callPairwiseLoop_ok {f : SelUtility CallType} {α : DecisionKey → DecisionValue}
    (hα : WellFormedRegions α proto) {a : Decisions} (ha : Records proto α a) :
    ∀ (l : List (List (Node CallType) × ℚ)) (ps : List (Part SelState (Option SelInfo))) (i : Nat),
      List.Forall₂ (PartOf fun t => constructSelectionDag f (pack proto) (pack t)) l ps → (∀ ts ∈ l, 0 < ts.2) →
      (∀ ts ∈ l, ∀ d, constructSelectionDag f (pack proto) (pack ts.1) = .ok d → GoodUtility proto d) →
      ∀ ts' : List (List (Node CallType)), l.map Prod.fst <+: ts' →
      ∃ parts, callPairwiseLoop invalid (pack proto) a i (ps.zip (ts'.map pack)) = .ok parts
        ∧ parts.length = l.length
        ∧ ∀ n t s, l[n]? = some (t, s) → ∃ w gs,
          CheapestPath (fun t => constructSelectionDag f (pack proto) (pack t)) a t w
          ∧ matchGroups (pack proto) (pack t) w = some gs
          ∧ parts[n]? = some ("========== Target ".toList ++ (Nat.repr (i + n)).toList ++ " ==========<br>".toList
              ++ "<span style=\"white-space: pre; font-family: monospace;\">".toList
              ++ gs.flatMap matchLine ++ "</span><br>".toList) := by
  intro l
  induction l with
  | nil =>
    intro ps i h _ _ ts' _
    cases h
    exact ⟨[], rfl, rfl, by simp⟩
  | cons ts l ih =>
    intro ps i h hs hg ts' hpre
    cases h with
    | @cons _ q _ ps h1 h2 =>
      obtain ⟨r, hr⟩ := hpre
      rw [List.map_cons, List.cons_append] at hr
      subst hr
      obtain ⟨w, hw, hbest⟩ := given_best h1 (hs ts (by simp)) (hg ts (by simp)) invalid hα ha
      obtain ⟨parts, g1, g2, g3⟩ := ih ps (i + 1) h2 (fun x hx => hs x (by simp [hx]))
        (fun x hx => hg x (by simp [hx])) _ ⟨r, rfl⟩
      have hshow : ∃ gs, matchGroups (pack proto) (pack ts.1) w = some gs := by
        obtain ⟨d, hd, hsol, -⟩ := hbest
        obtain ⟨gs, h3, -⟩ := C63_groups hd hsol
        exact ⟨_, h3⟩
      obtain ⟨gs, hgs⟩ := hshow
      rw [List.map_cons, List.zip_cons_cons, callPairwiseLoop]
      simp only [hw, hgs, g1]
      refine ⟨_, rfl, by simp [g2], ?_⟩
      intro n t s hn
      cases n with
      | zero =>
        simp only [List.getElem?_cons_zero, Option.some.injEq] at hn
        subst hn
        exact ⟨w, gs, hbest, hgs, by simp⟩
      | succ n =>
        rw [List.getElem?_cons_succ] at hn
        obtain ⟨w', gs', k1, k2, k3⟩ := g3 n t s hn
        refine ⟨w', gs', k1, k2, ?_⟩
        rw [List.getElem?_cons_succ, k3, show i + 1 + n = i + (n + 1) by omega]

/-- The lines that are shown about some groups: those that are found and those that are not. -/
def shownLines (gs : List MatchGroup) : List (Bool × List Text) :=
  gs.filterMap fun g =>
    if g.category = some .matched then some (true, g.content)
    else if g.category = some .unmatched then some (false, g.content) else none

theorem shownLines_html (gs : List MatchGroup) : gs.flatMap matchLine
    = (shownLines gs).flatMap fun l : Bool × List Text =>
      (if l.1 then "MATCHED: ".toList else "WRONG: ".toList) ++ htmlEscape (joinSpace l.2) ++ "<br>".toList := by
  unfold shownLines
  induction gs with
  | nil => rfl
  | cons g gs ih =>
    rw [List.flatMap_cons, List.filterMap_cons, ih]
    obtain ⟨content, cat, cost⟩ := g
    rcases cat with _ | (_ | _ | _ | _) <;> rfl

theorem shownLines_all (gs : List MatchGroup) : (shownLines gs).flatMap Prod.snd = contentOf [.matched, .unmatched] gs := by
  unfold shownLines contentOf
  induction gs with
  | nil => rfl
  | cons g gs ih =>
    rw [List.filterMap_cons, List.filter_cons]
    obtain ⟨content, cat, cost⟩ := g
    rcases cat with _ | (_ | _ | _ | _) <;> simp at ih ⊢ <;> exact ih

theorem shownLines_found (gs : List MatchGroup) : ((shownLines gs).filter Prod.fst).flatMap Prod.snd
    = contentOf [.matched] gs := by
  unfold shownLines contentOf
  induction gs with
  | nil => rfl
  | cons g gs ih =>
    rw [List.filterMap_cons, List.filter_cons]
    obtain ⟨content, cat, cost⟩ := g
    rcases cat with _ | (_ | _ | _ | _) <;> simp at ih ⊢ <;> exact ih

theorem shownLines_lost (gs : List MatchGroup) : ((shownLines gs).filter fun l => !l.1).flatMap Prod.snd
    = contentOf [.unmatched] gs := by
  unfold shownLines contentOf
  induction gs with
  | nil => rfl
  | cons g gs ih =>
    rw [List.filterMap_cons, List.filter_cons]
    obtain ⟨content, cat, cost⟩ := g
    rcases cat with _ | (_ | _ | _ | _) <;> simp at ih ⊢ <;> exact ih

/-- C63: `render_pairwise_matching_html` of the wrapper for calls does not fail for the decisions of a
suggestion, and shows for each target a cheapest lookup: a line for each part that is found, with its
tokens, and a line for each part that is not. -/
theorem C63_pairwise {f : SelUtility CallType}
    (hB : buildSelectionSystem inv f proto targets factors = .ok B)
    (hx : ¬ Occurs proto .exit) (hf : GoodFactors targets factors) {α : DecisionKey → DecisionValue}
    (hα : WellFormedRegions α proto) {a : Decisions} (ha : Records proto α a) :
    ∃ parts : List Text, callPairwiseHtml invalid proto targets B a = .ok parts.flatten
      ∧ parts.length = (targets.zip (targetWeights targets.length factors)).length
      ∧ ∀ n t s, (targets.zip (targetWeights targets.length factors))[n]? = some (t, s) →
        ∃ (ss : List SelStep) (lines : List (Bool × List Text)), CheapestLookup f proto t a ss
          ∧ parts[n]? = some ("========== Target ".toList ++ (Nat.repr n).toList ++ " ==========<br>".toList
              ++ "<span style=\"white-space: pre; font-family: monospace;\">".toList
              ++ (lines.flatMap fun l : Bool × List Text => (if l.1 then "MATCHED: ".toList else "WRONG: ".toList)
                ++ htmlEscape (joinSpace l.2) ++ "<br>".toList) ++ "</span><br>".toList)
          ∧ (lines.flatMap Prod.snd = (selectedTokens proto (decided (ss.filterMap SelStep.decision))).map Prod.fst)
          ∧ ((lines.filter Prod.fst).flatMap Prod.snd = (foundTokens proto ss).map Prod.fst)
          ∧ ((lines.filter fun l => !l.1).flatMap Prod.snd = (lostTokens proto ss).map Prod.fst)
          ∧ ∀ l ∈ lines, l.1 = true → l.2 <:+: (tokensOf t).map Prod.fst := by
  have hb := selection_system hx hf hB
  obtain ⟨parts, h1, h2, h3⟩ := callPairwiseLoop_ok (invalid := invalid) hα ha _ _ 0
    hb.parts hb.pos hb.good targets (zip_fst_prefix _ _)
  refine ⟨parts, by unfold callPairwiseHtml; rw [h1], h2, ?_⟩
  intro n t s hn
  obtain ⟨w, gs, hw, g2, g3⟩ := h3 n t s hn
  have hc := (selection_cheapest hw).1
  obtain ⟨d, hd, hsol, -⟩ := hw
  obtain ⟨gs', k1, -, k3, k4, k5, -, k6, -⟩ := C63_groups hd hsol
  rw [g2, Option.some.injEq] at k1
  subst k1
  rw [Nat.zero_add] at g3
  have e1 := shownLines_html gs
  have e2 := shownLines_all gs
  have e3 := shownLines_found gs
  have e4 := shownLines_lost gs
  refine ⟨selectionOf w, shownLines gs, hc, by rw [g3, e1], ?_, ?_, ?_, ?_⟩
  · rw [e2, k3, selDecisions_eq]
    rfl
  · rw [e3, k4]
  · rw [e4, k5]
  · intro l hl hl1
    obtain ⟨g, hg, hgl⟩ := List.mem_filterMap.1 hl
    split at hgl
    · next hcat =>
      cases hgl
      exact k6 g hg hcat
    · split at hgl
      · cases hgl
        cases hl1
      · cases hgl

end

/-! ### Examples -/

section Examples

/-- A region around `foo`, and one around `x`, a parenthesis after it. -/
def callProto : List (Node CallType) :=
  [.rstart, .tok ['f', 'o', 'o'] .novel, .rend, .tok ['('] .startCall, .rstart, .tok ['x'] .args, .rend,
    .tok [')'] .endCall]

def callTarget : List (Node CallType) :=
  [.tok ['f', 'o', 'o'] .novel, .tok ['('] .startCall, .tok ['y'] .args, .tok [')'] .endCall]

def callDecisions : List Decision :=
  [(⟨0, .start⟩, .yes), (⟨1, .inRegion⟩, .yes), (⟨2, .stop⟩, .yes), (⟨3, .inRegion⟩, .no),
    (⟨4, .start⟩, .yes), (⟨5, .inRegion⟩, .yes), (⟨6, .stop⟩, .yes), (⟨7, .inRegion⟩, .no)]

theorem callDecisions_wellFormed : WellFormedRegions (decided callDecisions) callProto := by
  refine (validRegions_iff callProto).1 ⟨false, callDecisions, ?_, fun _ _ => rfl⟩
  exact .region (mid := [.tok ['f', 'o', 'o'] CallType.novel]) (.tok (.nil _ _))
    (.tok (.region (mid := [.tok ['x'] CallType.args]) (.tok (.nil _ _)) (.tok (.nil _ _))))

theorem callProto_items : items 0 callProto = [.start 0, .tok 1 ['f', 'o', 'o'] .novel, .stop 2,
    .tok 3 ['('] .startCall, .start 4, .tok 5 ['x'] .args, .stop 6, .tok 7 [')'] .endCall] := by
  simp [callProto, items]

theorem callProto_exits : ¬ Occurs callProto .exit := by
  rw [← plain_items callProto 0, callProto_items]
  simp [IsContent.tok, IsMarker.start, IsMarker.stop]

theorem callTargets_factors : GoodFactors [callTarget, []] none := by
  refine ⟨by simp, fun fs h => ?_⟩
  cases h

theorem callTarget_factors : GoodFactors [callTarget] none := by
  refine ⟨by simp, fun fs h => ?_⟩
  cases h

/-- The steps of finding `foo` and not finding `x`. -/
def callSteps (f : SelUtility CallType) : List SelStep :=
  [regionBegins 0, foundStep f (.tok 1 ['f', 'o', 'o'] .novel) (.tok 0 ['f', 'o', 'o'] .novel),
    regionEnds 2, outsideStep (.tok 3 ['('] .startCall : SelItem CallType), regionBegins 4,
    lostStep f (.tok 5 ['x'] .args), regionEnds 6, outsideStep (.tok 7 [')'] .endCall : SelItem CallType)]

theorem callSteps_selects (f : SelUtility CallType) :
    Selects f (items 0 callProto) (items 0 callTarget) (callSteps f) := by
  rw [callProto_items, show items 0 callTarget = [.tok 0 ['f', 'o', 'o'] .novel, .tok 1 ['('] .startCall,
    .tok 2 ['y'] .args, .tok 3 [')'] .endCall] by simp [callTarget, items]]
  refine .found (f := f) (skipped := []) (by simp) ⟨_, rfl, .tok ..⟩ (.item (.tok ..) .nil) ?_
  refine .skip (.inl (.tok ..)) ?_
  refine .lost (body := [.tok 5 ['x'] CallType.args]) (by simp [IsContent.tok]) ?_
  exact .skip (.inl (.tok ..)) (.done _)

theorem callSteps_found (f : SelUtility CallType) :
    foundTokens callProto (callSteps f) = [(['f', 'o', 'o'], .novel)] := by
  simp [callProto, callSteps, foundTokens, reported, tokens, List.lookup, regionBegins, foundStep, lostStep,
    outsideStep, regionEnds, SelItem.index]

theorem callSteps_lost (f : SelUtility CallType) : lostTokens callProto (callSteps f) = [(['x'], .args)] := by
  simp [callProto, callSteps, lostTokens, reported, tokens, List.lookup, regionBegins, foundStep, lostStep,
    outsideStep, regionEnds, SelItem.index]

/-- C63: in this lookup `foo` is found and `x` is lost; these are the selected tokens. -/
theorem callDecisions_selected :
    selectedTokens callProto (decided callDecisions) = [(['f', 'o', 'o'], .novel), (['x'], .args)] := by
  unfold selectedTokens
  rw [show tokens 0 callProto = [(1, ['f', 'o', 'o'], .novel), (3, ['('], .startCall), (5, ['x'], .args),
    (7, [')'], .endCall)] by simp [callProto, tokens]]
  rfl

/-- C63: with precision 0.7, the lookup costs 0.7 for `x` and gains 0.3 times ten for `foo`. -/
example : lookupPrice (callUtility (7 / 10)) callProto (callSteps (callUtility (7 / 10))) = - 23 / 10 := by
  rw [C63_cost, callSteps_found, callSteps_lost]
  simp [ofType]
  norm_num

/-- C63: groups and counts of a path with this lookup. -/
example (f : SelUtility CallType) : ∃ d p gs, constructSelectionDag f (pack callProto) (pack callTarget) = .ok d
    ∧ DagSolution d p ∧ matchGroups (pack callProto) (pack callTarget) p = some gs
    ∧ contentOf [.matched] gs = [['f', 'o', 'o']] ∧ contentOf [.unmatched] gs = [['x']]
    ∧ callCounts (pack callProto) p = some ⟨1, 0, 0, 0, 0, 1⟩ := by
  obtain ⟨d, h⟩ := (C50_builds f callProto callTarget).1.2 fun i => by rw [callProto_items]; simp
  obtain ⟨p, hp, hps⟩ := (C50_paths f callProto callTarget d h _).2 (callSteps_selects f)
  obtain ⟨gs, h1, -, -, h2, h3, -⟩ := C63_groups h hp
  refine ⟨d, p, gs, h, hp, h1, ?_, ?_, ?_⟩
  · rw [h2, hps, callSteps_found]; rfl
  · rw [h3, hps, callSteps_lost]; rfl
  · rw [C63_counts h hp, hps, callSteps_found, callSteps_lost]; rfl

/-- C63 applies to systems of this prototype: the suggestion `foo`, `x` is shown and looked up. -/
example (invalid : Cost) : ∃ B B' c cost s parts,
    buildSelectionSystem 0 (callUtility (7 / 10)) callProto [callTarget, []] none = .ok B
    ∧ buildSelectionSystem 0 (callUtility (7 / 10)) callProto [callTarget] none = .ok B'
    ∧ solutionInfo invalid (callCounts (pack callProto)) callProto
        ((seqKeys 0 callProto).map fun k => (k, decided callDecisions k)) (some B') (some B)
      = .ok ⟨annotated (decided callDecisions) [] [] (kept (decided callDecisions) callProto),
          some (((cost : ℚ) : Cost), some c), some s⟩
    ∧ c.correctNovel + c.deletedNovel = 1 ∧ c.correctArgs + c.deletedArgs = 1
    ∧ callPairwiseHtml invalid callProto [callTarget, []] B
        ((seqKeys 0 callProto).map fun k => (k, decided callDecisions k)) = .ok (List.flatten parts)
    ∧ parts.length = 2 := by
  have hs : ∀ i, (items 0 callProto).head? ≠ some (.stop i) := fun i => by rw [callProto_items]; simp
  obtain ⟨B, hB, -⟩ := C59_selection_builds 0 (callUtility (7 / 10)) callProto [callTarget, []] none
    callProto_exits hs callTargets_factors
  obtain ⟨B', hB', -⟩ := C59_selection_builds 0 (callUtility (7 / 10)) callProto [callTarget] none
    callProto_exits hs callTarget_factors
  obtain ⟨c, cost, s, found, lost, h1, -, -, h2, h3, -⟩ := C63_info (invalid := invalid) hB callProto_exits
    callTargets_factors hB' callTarget_factors callDecisions_wellFormed (C60_all_recorded callProto _)
    (fun k hk => ⟨decided callDecisions k, List.mem_map.2 ⟨k, hk, rfl⟩⟩)
  obtain ⟨parts, g1, g2, -⟩ := C63_pairwise (invalid := invalid) hB callProto_exits callTargets_factors
    callDecisions_wellFormed (C60_all_recorded callProto _)
  refine ⟨B, B', c, cost, s, parts, hB, hB', h1, ?_, ?_, g1, g2⟩
  · subst h2; exact (h3 .novel).trans (by rw [callDecisions_selected]; rfl)
  · subst h2; exact (h3 .args).trans (by rw [callDecisions_selected]; rfl)

end Examples

end RUSure.Props
