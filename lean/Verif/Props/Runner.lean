import Verif.Lemmas.Runner

/-!
# C61: combining samples
-/

namespace RUSure.Props
open RUSure RUSure.Spec RUSure.Lemmas

section
variable {cc : CharClass} {digit : Char → Bool} {lang : HelperLanguage} {context : Text}
  {samples : List Text} {index : Int} {sample : Text} {tol : ℚ}

/-- C61: for the edit distance wrappers, combining samples ends without an error, whatever the clock
says, for all samples the parser accepts. The prototype has the text of the chosen sample. The targets
have the texts of the samples, and no markers; the target of the chosen sample is the prototype without
its markers. Region options are inserted first, then early exits, if asked for. If there are at least two
decisions to make, decisions are suggested. The text that is shown is a prefix of the sample; if no early
exits are inserted, it is the sample. -/
theorem C61_edits (hd : DigitSane digit) (hb : BracketsVisible cc) (invalid : Cost) (prm : Params)
    (regions exits : Bool) (htol : 0 < tol) (late : Nat → Bool)
    (hp : lang = .parsed .python → ∀ s ∈ samples, context ++ s ≠ [])
    (hi : pyGet samples index = some sample) :
    ∃ n r, (∀ fuel, n ≤ fuel → combine cc digit lang (editWrapper invalid prm regions exits) invalid tol late
        fuel context samples index = .ok r)
      ∧ text r.prototype = sample ∧ r.targets.map text = samples
      ∧ (∀ t ∈ r.targets, DecisionFree t)
      ∧ pyGet r.targets index = some (stripDecisions r.prototype)
      ∧ (∃ nodes, parseToNodes cc digit lang false (context ++ sample) = .ok nodes ∧ ∃ marked,
        marked = (if regions = true then insertRegions nodes true allowRegionsAround else nodes)
        ∧ r.prototype = truncatePrefix (if exits = true then insertEarlyExit marked true true else marked)
            context.length)
      ∧ ((seqKeys 0 r.prototype).length ≤ 1 → r.solution = none)
      ∧ (2 ≤ (seqKeys 0 r.prototype).length → ∃ sol α, r.solution = some sol
        ∧ Suggests (LeastEditCost prm r.prototype) r.prototype r.targets α sol
        ∧ sol.info.parts.flatMap MarkedToken.text <+: sample
        ∧ (exits = false → sol.info.parts.flatMap MarkedToken.text = sample)) := by
  have hmem := pyGet_mem' hi
  obtain ⟨nodes, h1, h2, h3⟩ := parse_any hd hb lang fun h => hp h _ hmem
  obtain ⟨targets, h4, h5⟩ := parseAll_ok (parse := parseToNodes cc digit lang false)
    (fun n => processEditTarget n context.length)
    (R := fun t a => text a = t.drop context.length ∧ DecisionFree a) (ts := samples.map (context ++ ·)) (by
      intro t ht
      obtain ⟨s, hs, rfl⟩ := List.mem_map.1 ht
      obtain ⟨nodes, h1, h2, h3⟩ := parse_any hd hb lang fun h => hp h s hs
      refine ⟨nodes, h1, ?_, truncate_free h3 _⟩
      unfold processEditTarget
      rw [(C09_truncate_text nodes context.length).1, h2])
  set proto := processEditPrototype regions exits nodes context.length with hproto
  have htext : text proto = sample := by
    rw [hproto]
    unfold processEditPrototype
    dsimp only
    rw [(C09_truncate_text _ context.length).1]
    have : text (if exits = true then insertEarlyExit
        (if regions = true then insertRegions nodes true allowRegionsAround else nodes) true true
        else if regions = true then insertRegions nodes true allowRegionsAround else nodes) = text nodes := by
      have a1 := fun ns : List (Node MatchName) => (C06_transforms_preserve_text ns).2.2.1
      have a2 := fun ns : List (Node MatchName) => (C06_transforms_preserve_text ns).2.2.2.1
      cases exits <;> cases regions <;> simp [a1, a2]
    rw [this, h2]
    simp
  have hfree : ∀ t ∈ targets, DecisionFree t := by
    intro t ht
    obtain ⟨s, -, h⟩ := forall₂_mem_right' h5 ht
    exact h.2
  have htexts : targets.map text = samples := by
    have : ∀ {ss : List Text} {ts : List (List (Node MatchName))},
        List.Forall₂ (fun t a => text a = t.drop context.length ∧ DecisionFree a) (ss.map (context ++ ·)) ts →
          ts.map text = ss := by
      intro ss
      induction ss with
      | nil => intro ts h; cases h; rfl
      | cons s ss ih =>
        intro ts h
        cases h with
        | cons g1 g2 => rw [List.map_cons, ih g2, g1.1]; simp
    exact this h5
  have hne : targets ≠ [] := by
    rintro rfl
    cases samples with
    | nil => simp at hmem
    | cons => simp at htexts
  have hchosen : pyGet targets index = some (stripDecisions proto) := by
    rw [hproto, strip_prototype h3]
    exact parseAll_get h4 (by rw [pyGet_map, hi]; rfl) h1
  have hshape : ∃ nodes, parseToNodes cc digit lang false (context ++ sample) = .ok nodes ∧ ∃ marked,
      marked = (if regions = true then insertRegions nodes true allowRegionsAround else nodes)
      ∧ proto = truncatePrefix (if exits = true then insertEarlyExit marked true true else marked)
          context.length := ⟨nodes, h1, _, rfl, rfl⟩
  have hgf : GoodFactors targets none := ⟨fun _ => hne, by simp⟩
  obtain ⟨B, hB, -⟩ := C59_builds invalid prm proto targets none hfree hgf
  have hbuilt := built_of hgf (fun t htm d hd => edit_good prm proto t (hfree t htm) d hd) hB
  obtain ⟨n, st, g1, g2, g3⟩ := combine_built (E' := AddError) hbuilt invalid
    (L := LeastEditCost prm proto) (fun α t c => edit_least prm proto t α c)
    (fun α t w hw => by
      obtain ⟨k1, k2⟩ := edit_cheapest hw
      exact ⟨_, k2, (C60_all_decisions prm proto t α _).1 ⟨_, k1, rfl⟩⟩) tol htol late
  have hrun : ∀ fuel, n ≤ fuel → ∀ sol,
      combineSolved (E := AddError) invalid proto B st = .ok sol →
      combine cc digit lang (editWrapper invalid prm regions exits) invalid tol late
        fuel context samples index = .ok ⟨proto, targets, B, st, sol⟩ := by
    intro fuel hf sol hsol
    unfold combine
    have e0 : pyGet (samples.map (context ++ ·)) index = some (context ++ sample) := by
      rw [pyGet_map, hi]; rfl
    have e1 : (editWrapper invalid prm regions exits).build proto targets none = .ok B := hB
    have e2 : (editWrapper invalid prm regions exits).prototype nodes context.length = proto := rfl
    have e3 : parseAll (parseToNodes cc digit lang false)
        (fun n => (editWrapper invalid prm regions exits).target n context.length)
        (samples.map (context ++ ·)) = .ok targets := h4
    simp only [e0, h1, e2, e3, e1, g1 fuel hf, hsol]
  by_cases hle : (seqKeys 0 proto).length ≤ 1
  · exact ⟨n, ⟨proto, targets, B, st, none⟩, fun fuel hf => hrun fuel hf _ (g2 hle), htext, htexts, hfree,
      hchosen, hshape, fun _ => rfl, fun h => absurd (h.trans hle) (by omega)⟩
  · obtain ⟨sol, α, k1, k2⟩ := g3 (by omega)
    refine ⟨n, ⟨proto, targets, B, st, some sol⟩, fun fuel hf => hrun fuel hf _ k1, htext, htexts, hfree,
      hchosen, hshape, fun h => absurd h hle, fun _ => ⟨sol, α, rfl, k2, ?_, fun hex => ?_⟩⟩
    · rw [k2.parts, C43_text, ← htext]
      exact kept_text_prefix proto α
    · rw [k2.parts, C43_text, ← htext, kept_noExit, placed_leafText]
      rw [hproto]
      unfold processEditPrototype
      subst hex
      dsimp only
      rw [if_neg (by simp)]
      apply truncate_noExit
      split
      · exact insertRegions_noExit (free_noExit h3) _ _
      · exact free_noExit h3

/-- C61: a sample number that does not exist is an error, as in Python; in particular there has to be a
sample. -/
theorem C61_index {M S I E C : Type} (w : Wrapper M S I E C) (invalid : Cost) (late : Nat → Bool) (fuel : Nat)
    (hi : pyGet samples index = none) :
    combine cc digit lang w invalid tol late fuel context samples index = .error .index := by
  unfold combine
  rw [pyGet_map, hi]
  rfl

/-- C61: for Python, no program is an error if it is the prototype. -/
theorem C61_empty_python {M S I E C : Type} (w : Wrapper M S I E C) (invalid : Cost) (late : Nat → Bool)
    (fuel : Nat) (hi : pyGet samples index = some []) :
    combine cc digit (.parsed .python) w invalid tol late fuel [] samples index
      = .error (.parse .index) := by
  unfold combine
  rw [pyGet_map, hi]
  simp only [Option.map_some, List.append_nil]
  rw [C19_python_empty cc false]

/-- C61: the context that is reported is the given context. -/
theorem C61_context (hd : DigitSane digit) (hb : BracketsVisible cc)
    (hp : lang = .parsed .python → context ++ sample ≠ []) :
    ∃ nodes, parseToNodes cc digit lang false (context ++ sample) = .ok nodes
      ∧ contextPrefix nodes context.length = context := by
  obtain ⟨nodes, h1, h2, -⟩ := parse_any hd hb lang hp
  refine ⟨nodes, h1, ?_⟩
  unfold contextPrefix
  rw [C06_render_is_text, h2]
  simp

theorem callTree_head (expected : List Text) (fs : List FoundCall) :
    ∀ i, (items 0 (callTree cc expected fs)).head? ≠ some (.stop i) := by
  intro i
  cases fs <;> simp [callTree, items]

/-- C61: for the call wrapper, combining samples ends without an error, too. The prototype is the tree of
the calls in the chosen sample, and the targets are the trees of the calls in the samples, without
markers. If there are at least two decisions to make, decisions are suggested. The text that is shown
is the text of all calls. -/
theorem C61_calls (hd : DigitSane digit) (hb : BracketsVisible cc) (builtin : List Text) (invalid : Cost)
    (f : SelUtility CallType) (htol : 0 < tol) (late : Nat → Bool)
    (hp : lang = .parsed .python → ∀ s ∈ samples, context ++ s ≠ [])
    (hi : pyGet samples index = some sample) :
    ∃ n r, (∀ fuel, n ≤ fuel → combine cc digit lang (callWrapper cc builtin invalid f) invalid tol late
        fuel context samples index = .ok r)
      ∧ (∃ nodes, parseToNodes cc digit lang false (context ++ sample) = .ok nodes
        ∧ r.prototype = makeCallseqTree cc builtin nodes context.length)
      ∧ List.Forall₂ (fun s t => ∃ nodes, parseToNodes cc digit lang false (context ++ s) = .ok nodes
          ∧ t = stripDecisions (makeCallseqTree cc builtin nodes context.length)) samples r.targets
      ∧ ((seqKeys 0 r.prototype).length ≤ 1 → r.solution = none)
      ∧ (2 ≤ (seqKeys 0 r.prototype).length → ∃ sol α, r.solution = some sol
        ∧ Suggests (LeastLookupCost f r.prototype) r.prototype r.targets α sol
        ∧ sol.info.parts.flatMap MarkedToken.text = text r.prototype) := by
  have hmem := pyGet_mem' hi
  obtain ⟨nodes, h1, h2, h3⟩ := parse_any hd hb lang fun h => hp h _ hmem
  obtain ⟨targets, h4, h5⟩ := parseAll_ok (parse := parseToNodes cc digit lang false)
    (fun n => stripDecisions (makeCallseqTree cc builtin n context.length))
    (R := fun t a => ∃ nodes, parseToNodes cc digit lang false t = .ok nodes
          ∧ a = stripDecisions (makeCallseqTree cc builtin nodes context.length))
    (ts := samples.map (context ++ ·)) (by
      intro t ht
      obtain ⟨s, hs, rfl⟩ := List.mem_map.1 ht
      obtain ⟨nodes, h1, h2, h3⟩ := parse_any hd hb lang fun h => hp h s hs
      exact ⟨nodes, h1, nodes, h1, rfl⟩)
  set proto := makeCallseqTree cc builtin nodes context.length with hproto
  have hexit : ¬ Occurs proto .exit := by
    obtain ⟨k, fs, -, -, h⟩ := C51_tree cc builtin nodes context.length
    rw [hproto, h]
    exact noExit_of_placed (callTree_noExit fs)
  have hhead : ∀ i, (items 0 proto).head? ≠ some (.stop i) := by
    obtain ⟨k, fs, -, -, h⟩ := C51_tree cc builtin nodes context.length
    rw [hproto, h]
    exact callTree_head _ fs
  have hne : targets ≠ [] := by
    rintro rfl
    cases samples with
    | nil => simp at hmem
    | cons => cases h5
  have hgf : GoodFactors targets none := ⟨fun _ => hne, by simp⟩
  obtain ⟨B, hB, -⟩ := C59_selection_builds invalid f proto targets none hexit hhead hgf
  have hbuilt := selection_system hexit hgf hB
  obtain ⟨n, st, g1, g2, g3⟩ := combine_built (E' := SelError) hbuilt invalid
    (L := LeastLookupCost f proto)
    (fun α t c => selection_least f proto t ((C50_builds f proto t).1.2 hhead) α c)
    (fun α t w hw => by
      obtain ⟨k1, k2⟩ := selection_cheapest hw
      exact ⟨_, k2, (C60_selection_all_decisions f proto t α _).1 ⟨_, k1, rfl⟩⟩) tol htol late
  have hrun : ∀ fuel, n ≤ fuel → ∀ sol,
      combineSolved (E := SelError) invalid proto B st = .ok sol →
      combine cc digit lang (callWrapper cc builtin invalid f) invalid tol late
        fuel context samples index = .ok ⟨proto, targets, B, st, sol⟩ := by
    intro fuel hf sol hsol
    unfold combine
    have e0 : pyGet (samples.map (context ++ ·)) index = some (context ++ sample) := by
      rw [pyGet_map, hi]; rfl
    have e1 : (callWrapper cc builtin invalid f).build proto targets none = .ok B := hB
    have e2 : (callWrapper cc builtin invalid f).prototype nodes context.length = proto := rfl
    have e3 : parseAll (parseToNodes cc digit lang false)
        (fun n => (callWrapper cc builtin invalid f).target n context.length)
        (samples.map (context ++ ·)) = .ok targets := h4
    simp only [e0, h1, e2, e3, e1, g1 fuel hf, hsol]
  have h5 := List.forall₂_map_left_iff.1 h5
  by_cases hle : (seqKeys 0 proto).length ≤ 1
  · exact ⟨n, ⟨proto, targets, B, st, none⟩, fun fuel hf => hrun fuel hf _ (g2 hle), ⟨nodes, h1, rfl⟩, h5,
      fun _ => rfl, fun h => absurd (h.trans hle) (by omega)⟩
  · obtain ⟨sol, α, k1, k2⟩ := g3 (by omega)
    refine ⟨n, ⟨proto, targets, B, st, some sol⟩, fun fuel hf => hrun fuel hf _ k1, ⟨nodes, h1, rfl⟩, h5,
      fun h => absurd h hle, fun _ => ⟨sol, α, rfl, k2, ?_⟩⟩
    rw [k2.parts, C43_text, kept_noExit hexit, placed_leafText]

end

/-! ## Baselines -/

section
variable {cc : CharClass} {digit : Char → Bool} {lang : HelperLanguage} {context : Text}

/-- C61: for prefix truncation, building the baselines never fails, for all model outputs the parser
accepts. If regions are inserted there are none. Otherwise there is one for each name in the
configuration; it takes the early exit of the prototype it should, or none, and shows the text before that exit,
which is a prefix of the model output, with nothing in a region. -/
theorem C61_prefix_baselines (hd : DigitSane digit) (hb : BracketsVisible cc) (c : PrefixConfig)
    {exp : LogProb → ℚ} (hexp : ∀ p, 0 ≤ exp p) {tokens : List (Text × LogProb)}
    (hp : lang = .parsed .python → context ++ tokensText tokens ≠ []) :
    ∃ nodes proto res, parseToNodes cc digit lang false (context ++ tokensText tokens) = .ok nodes
      ∧ prefixBaselineResults cc digit lang c exp context tokens = .ok res
      ∧ (c.insertRegions = true → res = [])
      ∧ (c.insertRegions = false → proto = truncatePrefix (insertEarlyExit nodes true true) context.length
        ∧ text proto = tokensText tokens
        ∧ (∀ b, b ∈ res.map Prod.fst ↔ Wanted c b) ∧ (res.map Prod.fst).Nodup
        ∧ ∀ b d info, (b, d, info) ∈ res → info.total = none ∧ info.samples = none
          ∧ (∃ aligned e, alignTokenLogProbs tokens (pack proto) false = some aligned
            ∧ BaselineExit proto aligned exp b e
            ∧ ExitsAt proto e d ∧ (∀ i, e = some i → i ∈ exitsOf (placed proto))
            ∧ info.parts = (((placed proto).filter fun x => decide (∀ i ∈ e, x.idx < i)).filterMap
                Placed.text).map fun t => ⟨t, false⟩)
          ∧ info.parts.flatMap MarkedToken.text <+: tokensText tokens) := by
  obtain ⟨nodes, h1, h2, h3⟩ := parse_any hd hb lang hp
  refine ⟨nodes, truncatePrefix (insertEarlyExit nodes true true) context.length, ?_⟩
  have h1' : parseToNodes cc digit lang false (context ++ tokens.flatMap Prod.fst) = .ok nodes := h1
  cases hr : c.insertRegions with
  | true =>
    refine ⟨[], h1, ?_, fun _ => rfl, fun h => by cases h⟩
    unfold prefixBaselineResults
    simp only [h1', hr]
    rw [(C52_all (tokens := tokens) c hexp _).1 hr]
    rfl
  | false =>
    set proto := truncatePrefix (insertEarlyExit nodes true true) context.length with hproto
    have hpe : processEditPrototype c.insertRegions true nodes context.length = proto := by
      rw [hr]; rfl
    have htext : text proto = tokensText tokens := by
      rw [hproto, (C09_truncate_text _ context.length).1,
        (C06_transforms_preserve_text nodes).2.2.1, h2]
      simp
    obtain ⟨bs, g1, g2, g3⟩ := (C52_all (tokens := tokens) c hexp proto).2.2 hr
      (by rw [htext])
    have hnd := prefixBaselines_nodup g1
    obtain ⟨dag, hdag⟩ := C42_builds proto
    have hmark : ∀ x ∈ placed proto, x.node ≠ .rstart ∧ x.node ≠ .rend := fun x hx => onlyExits h3 _ hx
    obtain ⟨res, r1, r2⟩ := baselineInfos_ok (proto := proto) (bs := bs)
      (out := fun b d parts => (∃ aligned e, alignTokenLogProbs tokens (pack proto) false = some aligned
            ∧ BaselineExit proto aligned exp b e
            ∧ ExitsAt proto e d ∧ (∀ i, e = some i → i ∈ exitsOf (placed proto))
            ∧ parts = (((placed proto).filter fun x => decide (∀ i ∈ e, x.idx < i)).filterMap
                Placed.text).map fun t => ⟨t, false⟩)
          ∧ parts.flatMap MarkedToken.text <+: tokensText tokens) (by
        intro b d hbd
        obtain ⟨aligned, k3, g3⟩ := g3
        obtain ⟨e, k1, k4, k2⟩ := g3 b d (lookup_mem_nodup hnd hbd)
        have hst : startsOf (placed proto) = [] := by
          rw [List.eq_nil_iff_forall_not_mem]
          intro j hj
          obtain ⟨x, hx, hn, -⟩ := mem_startsOf.1 hj
          exact (hmark x hx).1 hn
        obtain ⟨α, a1, a2, a3, a4, a5⟩ := C52_accepted hdag k2 k1 (by rw [hst]; simp)
        have hrec := a5 fun x hx => (hmark x hx).2
        have e1 := records_extract ((C42_accepts proto dag hdag α).1 a1) hrec []
        have e2 := a4 (fun k => d.lookup k) [] fun k hk hc => by
          obtain ⟨v, hv⟩ := hrec.markers k hk hc
          rw [lookup_of_mem hrec.once hv]
          exact congrArg some (hrec.agrees _ hv)
        refine ⟨_, e1, ⟨aligned, e, k3, k4, k1, k2, ?_⟩, ?_⟩
        · rw [e1] at e2
          exact Except.ok.inj e2
        · rw [C43_text, ← htext]
          exact kept_text_prefix proto α)
    have hfst : res.map Prod.fst = bs.map Prod.fst := by
      clear r1 hnd g1 g2 g3
      induction r2 with
      | nil => rfl
      | cons h _ ih => rw [List.map_cons, List.map_cons, ih, h.1]
    refine ⟨res, h1, ?_, (by intro h; cases h), fun _ => ⟨rfl, htext, fun b => ?_, hfst ▸ hnd, ?_⟩⟩
    · unfold prefixBaselineResults
      simp only [h1', hpe, g1, r1]
    · rw [hfst, ← g2]
      constructor
      · intro hm
        obtain ⟨⟨b', d⟩, hm', rfl⟩ := List.mem_map.1 hm
        exact ⟨d, lookup_mem_nodup hnd hm'⟩
      · rintro ⟨d, hd⟩
        exact List.mem_map.2 ⟨(b, d), lookup_mem_codec hd, rfl⟩
    · intro b d info hm
      obtain ⟨⟨b', d'⟩, -, q1, q2, q3, q4, q5⟩ := forall₂_mem_right' r2 hm
      dsimp only at q1 q2 q3 q4 q5
      subst q1 q2
      exact ⟨q3, q4, q5⟩

/-- C61: for calls, building the baselines never fails, for all model outputs the parser accepts: there
are three, and they show the calls that C51 describes. -/
theorem C61_call_baselines (hd : DigitSane digit) (hb : BracketsVisible cc) (builtin : List Text)
    {sample : Text} (hp : lang = .parsed .python → context ++ sample ≠ []) :
    ∃ nodes k fs full shorter novel, parseToNodes cc digit lang false (context ++ sample) = .ok nodes
      ∧ LastNewlineAt context k ∧ CallsIn (truncatePrefix nodes k) fs
      ∧ callBaselineResults cc digit lang builtin context sample = .ok
        [(.full, full, ⟨fs.flatMap FoundCall.showFull, none, none⟩),
          (.shorter, shorter, ⟨fs.flatMap FoundCall.showShorter, none, none⟩),
          (.novel, novel, ⟨fs.flatMap fun f => if f.isNovel (extractContextTokens nodes context.length ++ builtin)
            then f.showShorter else f.showNone, none, none⟩)] := by
  obtain ⟨nodes, h1, h2, h3⟩ := parse_any hd hb lang hp
  obtain ⟨k, fs, t1, t2, t3⟩ := C51_tree cc builtin nodes context.length
  have hw := white_calls _ fs t2 (truncate_white (any_white hd h1) k)
  obtain ⟨b, g1, g2, g3, g4⟩ := C51_baselines cc (extractContextTokens nodes context.length ++ builtin) hw
  rw [← t3] at g1 g2 g3 g4
  obtain ⟨dag, hdag⟩ := C42_builds (makeCallseqTree cc builtin nodes context.length)
  have ext : ∀ {d out}, Determines (makeCallseqTree cc builtin nodes context.length) d out →
      solutionInfo (S := Unit) (I := Unit) (C := Unit) ⊤ (fun _ => ()) (makeCallseqTree cc builtin nodes context.length) d
        none none = .ok ⟨out, none, none⟩ := by
    intro d out h
    obtain ⟨α, -, -, -, a4, hrec⟩ := h dag hdag
    have := a4 (fun k => d.lookup k) [] fun k hk hc => by
      obtain ⟨v, hv⟩ := hrec.markers k hk hc
      rw [lookup_of_mem hrec.once hv]
      exact congrArg some (hrec.agrees _ hv)
    unfold solutionInfo
    simp only [this]
    rfl
  refine ⟨nodes, k, fs, b.full, b.shorter, b.novel, h1, ?_, t2, ?_⟩
  · rw [h2] at t1
    simpa using t1
  · unfold callBaselineResults processCallPrototype
    simp only [h1, g1, baselineInfos, ext g2, ext g3, ext g4]

end

/-! ## Consequences -/

section
variable {M T : Type} {Least : (DecisionKey → DecisionValue) → T → ℚ → Prop} {proto : List (Node M)}
  {targets : List T} {α : DecisionKey → DecisionValue} {sol : CombineSolution}

/-- C61: the bound is never above the reported cost, and if they are equal, no well-formed decisions
have a lower mean cost. -/
theorem C61_certificate (h : Suggests Least proto targets α sol) :
    sol.bound ≤ sol.cost
    ∧ (sol.cost ≤ sol.bound → ∀ β, WellFormedRegions β proto → ∀ y : ℚ, MeanCost (Least β) targets y →
      sol.cost ≤ y) := by
  obtain ⟨x, hx, hm⟩ := h.cost
  refine ⟨?_, fun hle β hβ y hy => hle.trans (h.bound β hβ y hy)⟩
  rw [hx]
  exact h.bound α h.wellFormed x hm

theorem leastLookup_unique {M : Type} [DecidableEq M] {f : SelUtility M} {proto t : List (Node M)}
    {β : DecisionKey → DecisionValue} {c c' : ℚ} (h : LeastLookupCost f proto β t c)
    (h' : LeastLookupCost f proto β t c') : c = c' := by
  obtain ⟨⟨s, h1, rfl⟩, h2⟩ := h
  obtain ⟨⟨s', h3, rfl⟩, h4⟩ := h'
  exact le_antisymm (h2 _ h3) (h4 _ h1)

/-- C61: the average of the samples that is reported is the reported cost. (The costs of a target are
determined, see `leastEdit_unique` and `leastLookup_unique`.) -/
theorem C61_average (h : Suggests Least proto targets α sol) (hne : targets ≠ [])
    (hu : ∀ t c c', Least α t c → Least α t c' → c = c') :
    ∃ s x, sol.info.samples = some s ∧ s.average = some x ∧ sol.cost = ((x : ℚ) : Cost) := by
  obtain ⟨x, hx, costs', hm1, hm2⟩ := h.cost
  obtain ⟨s, costs, h1, h2, h3⟩ := h.samples
  have hcosts : costs = costs' := by
    clear h hx hm2 h1 h3 hne s
    induction h2 generalizing costs' with
    | nil => cases hm1; rfl
    | cons g1 _ ih =>
      cases hm1 with
      | cons k1 k2 => rw [hu _ _ _ g1 k1, ih _ k2]
  subst hcosts
  have hl := h2.length_eq
  have hn : (targets.length : ℚ) ≠ 0 := by
    exact_mod_cast fun h => hne (List.length_eq_zero_iff.1 h)
  cases ha : s.average with
  | none =>
    have := h3.noAverage.1 ha
    rw [this] at hl
    exact absurd (List.length_eq_zero_iff.1 (by simpa using hl)) hne
  | some m =>
    refine ⟨s, m, h1, ha, ?_⟩
    rw [hx]
    have := h3.average m ha
    rw [← hl] at this
    congr 1
    rw [hm2, ← this]
    field_simp

end

/-! ## Grouping -/

/-- C61: grouping keeps every character and its flag, neighbouring groups have different flags, and the
flags are those of the parts. -/
theorem C61_groups (l : List MarkedToken) :
    markedChars (groupParts l) = markedChars l ∧ Alternating (groupParts l)
    ∧ (∀ g ∈ groupParts l, ∃ t ∈ l, t.inRegion = g.inRegion)
    ∧ ((groupParts l).head?.map MarkedToken.inRegion = l.head?.map MarkedToken.inRegion) := by
  induction l with
  | nil =>
    refine ⟨rfl, ?_, by simp [groupParts], rfl⟩
    intro p x y q h
    cases p <;> cases h
  | cons t ts ih =>
    obtain ⟨h1, h2, h3, -⟩ := ih
    unfold groupParts
    cases hg : groupParts ts with
    | nil =>
      rw [hg] at h1
      refine ⟨?_, ?_, by simp, rfl⟩
      · simp only [markedChars, List.flatMap_nil, List.flatMap_cons] at h1 ⊢
        rw [← h1]
      · intro p x y q h
        rcases p with _ | ⟨a, _ | ⟨b, p⟩⟩ <;> simp at h
    | cons g gs =>
      rw [hg] at h1 h2 h3
      dsimp only
      split
      · rename_i he
        refine ⟨?_, ?_, ?_, by simp [he]⟩
        · simp only [markedChars, List.flatMap_cons, List.map_append] at h1 ⊢
          rw [← h1, he, List.append_assoc]
        · intro p x y q h
          cases p with
          | nil =>
            simp only [List.nil_append, List.cons.injEq] at h
            obtain ⟨rfl, rfl⟩ := h
            exact h2 [] g y q rfl
          | cons a p =>
            simp only [List.cons_append, List.cons.injEq] at h
            exact h2 (g :: p) x y q (by rw [h.2]; rfl)
        · intro x hx
          rcases List.mem_cons.1 hx with rfl | hx
          · exact ⟨t, by simp, he.symm⟩
          · obtain ⟨y, hy, e⟩ := h3 x (List.mem_cons_of_mem _ hx)
            exact ⟨y, List.mem_cons_of_mem _ hy, e⟩
      · rename_i he
        refine ⟨?_, ?_, ?_, rfl⟩
        · simp only [markedChars, List.flatMap_cons] at h1 ⊢
          rw [← h1]
        · intro p x y q h
          cases p with
          | nil =>
            simp only [List.nil_append, List.cons.injEq] at h
            obtain ⟨rfl, rfl, rfl⟩ := h
            exact fun h => he h.symm
          | cons a p =>
            simp only [List.cons_append, List.cons.injEq] at h
            exact h2 p x y q h.2
        · intro x hx
          rcases List.mem_cons.1 hx with rfl | hx
          · exact ⟨x, by simp, rfl⟩
          · obtain ⟨y, hy, e⟩ := h3 x hx
            exact ⟨y, List.mem_cons_of_mem _ hy, e⟩

/-! ## Examples -/

example : groupParts [⟨['a'], false⟩, ⟨['b'], false⟩, ⟨['c'], true⟩, ⟨['d'], false⟩]
    = [⟨['a', 'b'], false⟩, ⟨['c'], true⟩, ⟨['d'], false⟩] := by decide

/-- Two samples after `a `, with regions and early exits: decisions are suggested, whatever the clock
says, and the text shown is a prefix of the first sample. -/
example (late : Nat → Bool) (prm : Params) (invalid : Cost) : ∃ n r sol α,
    (∀ fuel, n ≤ fuel → combine asciiClass asciiDigit .rawSimpleTokens (editWrapper invalid prm true true)
      invalid (1 / 1000) late fuel ['a', ' '] [['b', ' ', 'c'], ['b', ' ', 'd']] 0 = .ok r)
    ∧ r.solution = some sol ∧ Suggests (LeastEditCost prm r.prototype) r.prototype r.targets α sol
    ∧ sol.info.parts.flatMap MarkedToken.text <+: ['b', ' ', 'c'] ∧ sol.bound ≤ sol.cost := by
  obtain ⟨n, r, h1, -, -, -, -, ⟨nodes, h2, marked, h3, h4⟩, -, h5⟩ := C61_edits (lang := .rawSimpleTokens)
    (context := ['a', ' ']) (samples := [['b', ' ', 'c'], ['b', ' ', 'd']]) (index := 0)
    (sample := ['b', ' ', 'c']) (tol := 1 / 1000) asciiDigit_sane ascii_brackets invalid prm true true
    (by norm_num) late (fun h => by cases h) rfl
  have hk : 2 ≤ (seqKeys 0 r.prototype).length := by
    rw [h4, h3]
    cases h2
    decide +kernel
  obtain ⟨sol, α, k1, k2, k3, -⟩ := h5 hk
  exact ⟨n, r, sol, α, h1, k1, k2, k3, (C61_certificate k2).1⟩

/-- The first two characters of the model output, as a baseline. -/
example : ∃ res d info,
    prefixBaselineResults asciiClass asciiDigit .rawSimpleTokens ⟨false, [], [], false, false, [3], []⟩
      (fun _ => 1) ['a', ' '] [(['b'], 0), ([' ', 'c'], 0)] = .ok res
    ∧ (.characters 3, d, info) ∈ res
    ∧ info.parts.flatMap MarkedToken.text <+: ['b', ' ', 'c'] := by
  obtain ⟨nodes, proto, res, -, h2, -, h4⟩ := C61_prefix_baselines (lang := .rawSimpleTokens)
    (context := ['a', ' ']) (tokens := [(['b'], 0), ([' ', 'c'], 0)]) asciiDigit_sane ascii_brackets
    ⟨false, [], [], false, false, [3], []⟩ (exp := fun _ => 1) (by simp) (fun h => by cases h)
  obtain ⟨-, -, h5, -, h6⟩ := h4 rfl
  obtain ⟨⟨b, d, info⟩, h7, e⟩ := List.mem_map.1 ((h5 (.characters 3)).2 (by simp [Wanted]))
  cases e
  exact ⟨res, d, info, h2, h7, (h6 _ _ _ h7).2.2.2⟩

/-- The calls of a Python program, as baselines. -/
example : (match callBaselineResults asciiClass asciiDigit (.parsed .python) []
      ['b', '\n'] ['y', '=', 'b', '.', 'f', '(', '1', ')'] with
    | .ok res => res.map fun (x : CallBaseline × Decisions × SolutionInfo Unit) =>
        (x.1, groupParts x.2.2.parts)
    | .error _ => []) =
    [(.full, [⟨['y', '=', 'b', '.', 'f', '(', '1', ')'], true⟩, ⟨['\n'], false⟩]),
      (.shorter, [⟨['y', '=', 'b', '.', 'f', '('], true⟩, ⟨['1', ')', '\n'], false⟩]),
      (.novel, [⟨['y', '=', 'b', '.', 'f', '('], true⟩, ⟨['1', ')', '\n'], false⟩])] := by
  decide +kernel

end RUSure.Props
