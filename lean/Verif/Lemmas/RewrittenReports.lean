import Verif.Lemmas.RewrittenRunner
import Verif.Model.EditSequence
import Verif.Model.MatchGroups

/-!
# Edit sequences, metrics and HTML of paths with renamed states
-/

namespace RUSure.Lemmas
open RUSure RUSure.Spec

section
variable {S S' C C' M : Type} (f : S → S')

theorem groupLoop_ren (P T : Storage M) (path : List (EditPathEdge S)) : ∀ s,
    groupLoop P T s (path.map (renEdge f)) = groupLoop P T s path := by
  induction path with
  | nil => intro s; rfl
  | cons e es ih =>
    intro s
    rw [List.map_cons]
    unfold groupLoop
    simp only [ih]
    rfl

theorem groupEdits_ren (P T : Storage M) (path : List (EditPathEdge S)) :
    groupEdits P T (path.map (renEdge f)) = groupEdits P T path := groupLoop_ren f P T path _

theorem editSequenceTotal_ren (P T : Storage M) (path : List (EditPathEdge S)) :
    editSequenceTotal P T (path.map (renEdge f)) = editSequenceTotal P T path := by
  unfold editSequenceTotal; rw [groupEdits_ren]

theorem editSequenceHtml_ren (P T : Storage M) (path : List (EditPathEdge S)) (pre marker style : Text) :
    editSequenceHtml P T (path.map (renEdge f)) pre marker style = editSequenceHtml P T path pre marker style := by
  unfold editSequenceHtml; rw [groupEdits_ren]

theorem metricsLoop_ren (P T : Storage M) (path : List (EditPathEdge S)) : ∀ d,
    metricsLoop P T (path.map (renEdge f)) d = metricsLoop P T path d := by
  induction path with
  | nil => intro s; rfl
  | cons e es ih =>
    intro s
    rw [List.map_cons]
    unfold metricsLoop
    simp only [ih]
    rfl

theorem editMetrics_ren (P T : Storage M) (path : List (EditPathEdge S)) :
    editMetrics P T (path.map (renEdge f)) = editMetrics P T path := metricsLoop_ren f P T path _

theorem countLoop_ren (P : Storage CallType) (path : List (SelPathEdge S)) : ∀ d,
    countLoop P (path.map (renEdge f)) d = countLoop P path d := by
  induction path with
  | nil => intro s; rfl
  | cons e es ih =>
    intro s
    rw [List.map_cons]
    unfold countLoop
    simp only [ih]
    rfl

theorem callCounts_ren (P : Storage CallType) (path : List (SelPathEdge S)) :
    callCounts P (path.map (renEdge f)) = callCounts P path := countLoop_ren f P path _

theorem groupRuns_ren (path : List (SelPathEdge S)) :
    groupRuns (fun e : SelPathEdge S' => e.info.map SelInfo.cat) (path.map (renEdge f))
      = (groupRuns (fun e : SelPathEdge S => e.info.map SelInfo.cat) path).map
          fun g => (g.1, g.2.map (renEdge f)) := by
  induction path with
  | nil => rfl
  | cons e es ih =>
    rw [List.map_cons]
    unfold groupRuns
    rw [ih]
    cases groupRuns (fun e : SelPathEdge S => e.info.map SelInfo.cat) es with
    | nil => rfl
    | cons g r =>
      obtain ⟨k, run⟩ := g
      simp only [List.map_cons]
      change (if e.info.map SelInfo.cat = k then _ else _) = _
      by_cases hk : e.info.map SelInfo.cat = k
      · rw [if_pos hk, if_pos hk]; rfl
      · rw [if_neg hk, if_neg hk]; rfl

theorem mapAll_ren {A B D : Type} (g : B → Option D) (g' : A → Option D) (h : A → B) (hg : ∀ a, g (h a) = g' a)
    (l : List A) : mapAll g (l.map h) = mapAll g' l := by
  induction l with
  | nil => rfl
  | cons a l ih =>
    rw [List.map_cons]
    unfold mapAll
    rw [hg, ih]

theorem matchGroupsLoop_ren (P T : Storage M) (runs : List (Option SelCat × List (SelPathEdge S))) :
    matchGroupsLoop P T (runs.map fun g => (g.1, g.2.map (renEdge f))) = matchGroupsLoop P T runs := by
  induction runs with
  | nil => rfl
  | cons g r ih =>
    obtain ⟨cat, run⟩ := g
    rw [List.map_cons]
    unfold matchGroupsLoop
    have h : (run.map (renEdge f)).map Edge.cost = run.map Edge.cost := by rw [List.map_map]; rfl
    simp only [ih, h, mapAll_ren (edgeTokens P T cat) (edgeTokens P T cat) (renEdge f) (fun _ => rfl) run]

theorem matchGroups_ren (P T : Storage M) (path : List (SelPathEdge S)) :
    matchGroups P T (path.map (renEdge f)) = matchGroups P T path := by
  unfold matchGroups
  rw [groupRuns_ren, matchGroupsLoop_ren]

end

section
variable {S C C' M : Type}

theorem pairwiseLoop_same (invalid : Cost) (P : Storage M) (a : Decisions) (context marker style : Text)
    {ps : List (Part S (Option EditInfo))} {ps' : List (Part Nat (Option EditInfo))}
    (h : List.Forall₂ SamePart ps ps') : ∀ (Ts : List (Storage M)) (i : Nat),
    pairwiseLoop invalid P a context marker style i (ps'.zip Ts)
      = pairwiseLoop invalid P a context marker style i (ps.zip Ts) := by
  induction h with
  | nil => intro Ts i; rfl
  | cons hp _ ih =>
    intro Ts i
    cases Ts with
    | nil => rfl
    | cons T Ts =>
      rw [List.zip_cons_cons, List.zip_cons_cons]
      unfold pairwiseLoop
      obtain ⟨f, hf⟩ := bestPath_same hp invalid a
      rw [hf]
      cases (Part.bestPath _ invalid a) with
      | error e => rfl
      | ok path =>
        simp only [Except.map, editSequenceHtml_ren, ih]

theorem pairwiseHtml_same (invalid : Cost) (proto : List (Node M)) (targets : List (List (Node M)))
    (context : Text) {B : BuiltSystem S (Option EditInfo) C} {B' : BuiltSystem Nat (Option EditInfo) C'}
    (h : List.Forall₂ SamePart B.utilities B'.utilities) (a : Decisions) (marker style : Text) :
    pairwiseHtml invalid proto targets context B' a marker style
      = pairwiseHtml invalid proto targets context B a marker style := by
  unfold pairwiseHtml
  rw [pairwiseLoop_same invalid _ a context marker style h]

theorem callPairwiseLoop_same (invalid : Cost) (P : Storage M) (a : Decisions)
    {ps : List (Part S (Option SelInfo))} {ps' : List (Part Nat (Option SelInfo))}
    (h : List.Forall₂ SamePart ps ps') : ∀ (Ts : List (Storage M)) (i : Nat),
    callPairwiseLoop invalid P a i (ps'.zip Ts) = callPairwiseLoop invalid P a i (ps.zip Ts) := by
  induction h with
  | nil => intro Ts i; rfl
  | cons hp _ ih =>
    intro Ts i
    cases Ts with
    | nil => rfl
    | cons T Ts =>
      rw [List.zip_cons_cons, List.zip_cons_cons]
      unfold callPairwiseLoop
      obtain ⟨f, hf⟩ := bestPath_same hp invalid a
      rw [hf]
      cases (Part.bestPath _ invalid a) with
      | error e => rfl
      | ok path =>
        simp only [Except.map, matchGroups_ren, ih]

theorem callPairwiseHtml_same (invalid : Cost) (proto : List (Node M)) (targets : List (List (Node M)))
    {B : BuiltSystem S (Option SelInfo) C} {B' : BuiltSystem Nat (Option SelInfo) C'}
    (h : List.Forall₂ SamePart B.utilities B'.utilities) (a : Decisions) :
    callPairwiseHtml invalid proto targets B' a = callPairwiseHtml invalid proto targets B a := by
  unfold callPairwiseHtml
  rw [callPairwiseLoop_same invalid _ a h]

end

end RUSure.Lemmas
