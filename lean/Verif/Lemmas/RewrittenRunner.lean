import Verif.Lemmas.RewrittenSystem
import Verif.Model.RewrittenRunner

/-!
# Reports and results of systems with renumbered states
-/

namespace RUSure.Lemmas
open RUSure RUSure.Spec

section
variable {S I C C' E M P : Type}

theorem bestPath_same {p : Part S I} {p' : Part Nat I} (h : SamePart p p') (invalid : Cost) (a : Decisions) :
    ∃ f : S → Nat, p'.bestPath invalid a = (p.bestPath invalid a).map fun path => path.map (renEdge f) := by
  obtain ⟨f, -, -, hf⟩ := h.renamed
  refine ⟨f, ?_⟩
  unfold Part.bestPath
  rw [h.keys, h.values, h.packed, h.scale]
  split
  · rfl
  · split
    · rfl
    · rw [hf]
      rfl

theorem bestCost_same {p : Part S I} {p' : Part Nat I} (h : SamePart p p') (invalid : Cost) (a : Decisions) :
    p'.bestCost invalid a = p.bestCost invalid a := by
  obtain ⟨f, hf⟩ := bestPath_same h invalid a
  unfold Part.bestCost
  rw [hf]
  cases p.bestPath invalid a with
  | error e => rfl
  | ok path =>
    change Except.ok ((path.map (renEdge f)).map Edge.cost).sum = _
    rw [List.map_map]
    rfl

theorem sampleCosts_same {ps : List (Part S I)} {ps' : List (Part Nat I)} (h : List.Forall₂ SamePart ps ps')
    (invalid : Cost) (a : Decisions) : sampleCosts invalid a ps' = sampleCosts invalid a ps := by
  induction h with
  | nil => rfl
  | cons h _ ih => unfold sampleCosts; rw [bestCost_same h, ih]

theorem solutionInfo_same {summary : List (Edge S DecisionKey DecisionValue I) → P}
    {summary' : List (Edge Nat DecisionKey DecisionValue I) → P}
    (hs : ∀ (f : S → Nat) path, summary' (path.map (renEdge f)) = summary path)
    {B B0 : Option (BuiltSystem S I C)} {B' B0' : Option (BuiltSystem Nat I C')}
    (h : Option.Rel (fun B B' => List.Forall₂ SamePart B.utilities B'.utilities) B B')
    (h0 : Option.Rel (fun B B' => List.Forall₂ SamePart B.utilities B'.utilities) B0 B0')
    (invalid : Cost) (proto : List (Node M)) (a : Decisions) :
    solutionInfo invalid summary' proto a B' B0' = solutionInfo invalid summary proto a B B0 := by
  unfold solutionInfo
  have main : ∀ (ps : List (Part S I)) (ps' : List (Part Nat I)), List.Forall₂ SamePart ps ps' → ∀ p' p, ps' = [p'] → ps = [p] → ∃ f : S → Nat,
      p'.bestPath invalid a = (p.bestPath invalid a).map fun path => path.map (renEdge f) := by
    rintro ps ps' hps p' p rfl rfl
    cases hps with
    | cons hp _ => exact bestPath_same hp invalid a
  cases extractRegions (pack proto) (fun k => a.lookup k) [] with
  | error e => rfl
  | ok parts =>
    cases h0 with
    | none =>
      cases h with
      | none => rfl
      | some h =>
        rename_i b b'
        dsimp only
        generalize hps : b.utilities = ps at h
        generalize hps' : b'.utilities = ps' at h
        have hm := main _ _ h
        cases h with
        | nil => rfl
        | cons hp hr =>
          cases hr with
          | cons _ _ => rfl
          | nil =>
            obtain ⟨f, hf⟩ := hm _ _ rfl rfl
            simp only [hf]
            cases (Part.bestPath _ invalid a) with
            | error e => rfl
            | ok path =>
              simp only [Except.map, hs, List.map_map]
              rfl
    | some h0 =>
      have h00 := sampleCosts_same h0 invalid a
      cases h with
      | none => dsimp only; rw [h00]
      | some h =>
        rename_i b b'
        dsimp only
        generalize hps : b.utilities = ps at h
        generalize hps' : b'.utilities = ps' at h
        have hm := main _ _ h
        cases h with
        | nil => rfl
        | cons hp hr =>
          cases hr with
          | cons _ _ => rfl
          | nil =>
            obtain ⟨f, hf⟩ := hm _ _ rfl rfl
            simp only [hf, h00]
            cases (Part.bestPath _ invalid a) with
            | error e => rfl
            | ok path =>
              simp only [Except.map, hs, List.map_map]
              rfl

theorem combineSolved_same {B : BuiltSystem S I C} {B' : BuiltSystem Nat I C'} (hsys : B'.system = B.system)
    (h : List.Forall₂ SamePart B.utilities B'.utilities) (invalid : Cost) (proto : List (Node M)) (st : SweepState) :
    combineSolved (E := E) invalid proto B' st = combineSolved (E := E) invalid proto B st := by
  unfold combineSolved
  simp only [hsys]
  have := fun a => solutionInfo_same (summary := fun _ => ()) (summary' := fun _ => ()) (fun _ _ => rfl) (B := none)
    (B' := none) (B0 := some B) (B0' := some B') .none (.some h) invalid proto a
  simp only [this]

/-- If the wrappers build corresponding systems, the results of `combine` are the same. -/
theorem combine_same {cc : CharClass} {digit : Char → Bool} {lang : HelperLanguage} {w : Wrapper M S I E C}
    {w' : Wrapper M Nat I E C'} (h1 : w'.prototype = w.prototype) (h2 : w'.target = w.target) (invalid : Cost) (tol : ℚ)
    (late : Nat → Bool) (fuel : Nat) (context : Text) (samples : List Text) (index : Int) {r : CombineResult M S I C}
    (hr : combine cc digit lang w invalid tol late fuel context samples index = .ok r) {B' : BuiltSystem Nat I C'}
    (hB' : w'.build r.prototype r.targets none = .ok B') (hsys : B'.system = r.system.system)
    (hu : List.Forall₂ SamePart r.system.utilities B'.utilities) :
    combine cc digit lang w' invalid tol late fuel context samples index
      = .ok ⟨r.prototype, r.targets, B', r.results, r.solution⟩ := by
  unfold combine at hr ⊢
  rw [h1, h2]
  split at hr
  · cases hr
  rename_i code hcode
  split at hr
  · cases hr
  rename_i nodes hnodes
  split at hr
  · cases hr
  rename_i targets ht
  split at hr
  · cases hr
  rename_i B hB
  split at hr
  · cases hr
  rename_i st hst
  split at hr
  · cases hr
  rename_i sol hsol
  cases hr
  simp only [hcode, hnodes, ht, hB', hsys, hst, combineSolved_same (E := E) hsys hu, hsol]

theorem combine_build {cc : CharClass} {digit : Char → Bool} {lang : HelperLanguage} {w : Wrapper M S I E C}
    {invalid : Cost} {tol : ℚ} {late : Nat → Bool} {fuel : Nat} {context : Text} {samples : List Text} {index : Int}
    {r : CombineResult M S I C}
    (hr : combine cc digit lang w invalid tol late fuel context samples index = .ok r) :
    w.build r.prototype r.targets none = .ok r.system := by
  unfold combine at hr
  split at hr
  · cases hr
  split at hr
  · cases hr
  split at hr
  · cases hr
  split at hr
  · cases hr
  rename_i B hB
  split at hr
  · cases hr
  split at hr
  · cases hr
  cases hr
  exact hB

end

end RUSure.Lemmas
