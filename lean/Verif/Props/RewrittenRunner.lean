import Verif.Lemmas.RewrittenRunner
import Verif.Props.RewrittenSystem
import Verif.Props.Runner

/-!
# C79: what the default configuration reports and suggests
-/

namespace RUSure.Props
open RUSure RUSure.Spec RUSure.Lemmas

/-- C79: `solution_info` reports the same for systems with renumbered states, whatever is summarised of the path,
as long as the summary does not depend on the names of states. -/
theorem C79_info {S I C C' M P : Type} (summary : List (Edge S DecisionKey DecisionValue I) → P)
    (summary' : List (Edge Nat DecisionKey DecisionValue I) → P)
    (hs : ∀ (f : S → Nat) path,
      summary' (path.map fun e => ⟨f e.source, f e.dest, e.cost, e.req, e.info⟩) = summary path)
    (B B0 : BuiltSystem S I C) (B' B0' : BuiltSystem Nat I C')
    (h : List.Forall₂ SamePart B.utilities B'.utilities) (h0 : List.Forall₂ SamePart B0.utilities B0'.utilities)
    (invalid : Cost) (proto : List (Node M)) (a : Decisions) :
    solutionInfo invalid summary' proto a (some B') (some B0') = solutionInfo invalid summary proto a (some B) (some B0)
    ∧ solutionInfo invalid summary' proto a none (some B0') = solutionInfo invalid summary proto a none (some B0) :=
  ⟨solutionInfo_same hs (.some h) (.some h0) invalid proto a, solutionInfo_same hs .none (.some h0) invalid proto a⟩

variable {cc : CharClass} {digit : Char → Bool} {lang : HelperLanguage} {context : Text}
  {samples : List Text} {sample : Text} {index : Int} {tol : ℚ}

/-- C79: combining samples with an edit distance wrapper in its default configuration gives the result that C61 is
about, with the same suggestion, bound, costs and reports, if no state of the DAGs gives up its slot and is
requested again. -/
theorem C79_combine (hd : DigitSane digit) (hb : BracketsVisible cc) (invalid : Cost) (prm : Params)
    (regions exits : Bool) (htol : 0 < tol) (late : Nat → Bool)
    (hp : lang = .parsed .python → ∀ s ∈ samples, context ++ s ≠ [])
    (hi : pyGet samples index = some sample) (slot : EditState → Nat) (slotC : ConstraintState → Nat) :
    ∃ n r, (∀ fuel, n ≤ fuel → combine cc digit lang (editWrapper invalid prm regions exits) invalid tol late
        fuel context samples index = .ok r)
      ∧ ((∀ t ∈ r.targets, ∀ d, constructEditDag prm r.prototype t = .ok d → NoReturn slot (createdOrder d)) →
        (∀ d, constructConstraintDag r.prototype = .ok d → NoReturn slotC (createdOrder d)) →
        ∃ r', (∀ fuel, n ≤ fuel → combine cc digit lang
            (rewrittenEditWrapper slot slotC invalid prm regions exits) invalid tol late fuel context samples index
              = .ok r')
          ∧ r'.prototype = r.prototype ∧ r'.targets = r.targets ∧ r'.solution = r.solution
          ∧ r'.results = r.results ∧ r'.system.system = r.system.system
          ∧ List.Forall₂ SamePart r.system.utilities r'.system.utilities) := by
  obtain ⟨n, r, h1, -, -, h4, -⟩ := C61_edits hd hb invalid prm regions exits htol late hp hi
  refine ⟨n, r, h1, fun hn hc => ?_⟩
  have hB : buildEditSystem invalid prm r.prototype r.targets none = .ok r.system :=
    combine_build (h1 n (le_refl _))
  obtain ⟨B', e1, e2, e3, -⟩ := (C79_edit slot slotC invalid prm r.prototype r.targets none h4 hn hc).2 _ hB
  exact ⟨_, fun fuel hf => combine_same (w := editWrapper invalid prm regions exits)
    (w' := rewrittenEditWrapper slot slotC invalid prm regions exits) rfl rfl invalid tol late fuel context samples index
    (h1 fuel hf) e1 e2 e3, rfl, rfl, rfl, rfl, e2, e3⟩

/-- C79: the same for the call wrapper. -/
theorem C79_combine_calls (hd : DigitSane digit) (hb : BracketsVisible cc) (builtin : List Text) (invalid : Cost)
    (f : SelUtility CallType) (htol : 0 < tol) (late : Nat → Bool)
    (hp : lang = .parsed .python → ∀ s ∈ samples, context ++ s ≠ [])
    (hi : pyGet samples index = some sample) (slot : SelState → Nat) (slotC : ConstraintState → Nat) :
    ∃ n r, (∀ fuel, n ≤ fuel → combine cc digit lang (callWrapper cc builtin invalid f) invalid tol late
        fuel context samples index = .ok r)
      ∧ ((∀ t ∈ r.targets, ∀ d, constructSelectionDag f (pack r.prototype) (pack t) = .ok d →
            NoReturn slot (createdOrder d)) →
        (∀ d, constructConstraintDag r.prototype = .ok d → NoReturn slotC (createdOrder d)) →
        ∃ r', (∀ fuel, n ≤ fuel → combine cc digit lang
            (rewrittenCallWrapper slot slotC cc builtin invalid f) invalid tol late fuel context samples index
              = .ok r')
          ∧ r'.prototype = r.prototype ∧ r'.targets = r.targets ∧ r'.solution = r.solution
          ∧ r'.results = r.results ∧ r'.system.system = r.system.system
          ∧ List.Forall₂ SamePart r.system.utilities r'.system.utilities) := by
  obtain ⟨n, r, h1, ⟨nodes, -, h2⟩, -⟩ := C61_calls hd hb builtin invalid f htol late hp hi
  refine ⟨n, r, h1, fun hn hc => ?_⟩
  have hB : buildSelectionSystem invalid f r.prototype r.targets none = .ok r.system :=
    combine_build (h1 n (le_refl _))
  have hx : ¬ Occurs r.prototype .exit := by
    obtain ⟨k, fs, -, -, h⟩ := C51_tree cc builtin nodes context.length
    rw [h2, h]
    exact noExit_of_placed (callTree_noExit fs)
  obtain ⟨B', e1, e2, e3, -⟩ := (C79_selection slot slotC invalid f r.prototype r.targets none hx hn hc).2 _ hB
  exact ⟨_, fun fuel hf => combine_same (w := callWrapper cc builtin invalid f)
    (w' := rewrittenCallWrapper slot slotC cc builtin invalid f) rfl rfl invalid tol late fuel context samples index
    (h1 fuel hf) e1 e2 e3, rfl, rfl, rfl, rfl, e2, e3⟩

/-! ## Example -/

/-- The samples of the example of C61: there are slots for which the default configuration makes a suggestion, and
its bound is not above its cost. -/
example (late : Nat → Bool) (prm : Params) (invalid : Cost) : ∃ slot slotC n r sol,
    (∀ fuel, n ≤ fuel → combine asciiClass asciiDigit .rawSimpleTokens
      (rewrittenEditWrapper slot slotC invalid prm true true)
      invalid (1 / 1000) late fuel ['a', ' '] [['b', ' ', 'c'], ['b', ' ', 'd']] 0 = .ok r)
    ∧ r.solution = some sol ∧ sol.bound ≤ sol.cost := by
  have hyp : DigitSane asciiDigit ∧ BracketsVisible asciiClass := ⟨asciiDigit_sane, ascii_brackets⟩
  obtain ⟨n0, r0, h1, -, -, -, -, ⟨nodes, h2, marked, h3, h4⟩, -, h5⟩ := C61_edits (lang := .rawSimpleTokens)
    (context := ['a', ' ']) (samples := [['b', ' ', 'c'], ['b', ' ', 'd']]) (index := 0)
    (sample := ['b', ' ', 'c']) (tol := 1 / 1000) hyp.1 hyp.2 invalid prm true true
    (by norm_num) late (fun h => by cases h) rfl
  have hk : 2 ≤ (seqKeys 0 r0.prototype).length := by
    rw [h4, h3]
    cases h2
    decide +kernel
  obtain ⟨sol, α, k1, k2, -⟩ := h5 hk
  obtain ⟨slot, hn⟩ := slots_exist_for (constructEditDag prm r0.prototype) r0.targets
  obtain ⟨slotC, hc⟩ := slots_exist_for (fun _ : Unit => constructConstraintDag r0.prototype) [()]
  obtain ⟨n, r, g1, g2⟩ := C79_combine (lang := .rawSimpleTokens)
    (context := ['a', ' ']) (samples := [['b', ' ', 'c'], ['b', ' ', 'd']]) (index := 0)
    (sample := ['b', ' ', 'c']) (tol := 1 / 1000) hyp.1 hyp.2 invalid prm true true
    (by norm_num) late (fun h => by cases h) rfl slot slotC
  have hr : r = r0 := by
    have e1 := h1 (max n0 n) (le_max_left _ _)
    rw [g1 (max n0 n) (le_max_right _ _)] at e1
    cases e1; rfl
  subst hr
  obtain ⟨r', q1, -, -, q4, -⟩ := g2 hn (hc () (by simp))
  exact ⟨slot, slotC, n, r', sol, q1, q4.trans k1, (C61_certificate k2).1⟩

end RUSure.Props
