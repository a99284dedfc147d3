import Verif.Spec.CallSequence
import Verif.Props.Transforms
import Mathlib.Data.List.TakeWhile

/-!
# The calls that are extracted
-/

namespace RUSure.Lemmas
open RUSure RUSure.Spec RUSure.Props

/-! ### The candidate -/

section
variable {A : Type}

theorem split_decos : ∀ (ds r : List (Node MatchName × A)), (∀ x ∈ ds, isDecoNode x.1 = true) →
    splitCandidate (ds ++ r) false false [] [] = splitCandidate r false false [] []
  | [], _, _ => rfl
  | x :: ds, r, h => by
    have hx := h x (by simp)
    have hg : isGroupNode x.1 = false := by
      obtain ⟨n, a⟩ := x
      cases n <;> simp_all [isDecoNode, isGroupNode]
    rw [List.cons_append, splitCandidate]
    simp only [Bool.not_false, if_true, hx, Bool.not_true, Bool.or_self, Bool.false_eq_true, if_false, hg]
    exact split_decos ds r fun y hy => h y (by simp [hy])

theorem split_started : ∀ (ns r c : List (Node MatchName × A)), (∀ x ∈ ns, isGroupNode x.1 = false) →
    splitCandidate (ns ++ r) true false c [] = splitCandidate r true false (c ++ ns) []
  | [], _, _, _ => by simp
  | x :: ns, r, c, h => by
    rw [List.cons_append, splitCandidate]
    simp only [Bool.not_false, if_true, Bool.true_or, h x (by simp)]
    rw [split_started ns r _ fun y hy => h y (by simp [hy])]
    simp

theorem split_name {x : Node MatchName × A} (ns r : List (Node MatchName × A)) (hx : isDecoNode x.1 = false)
    (h : ∀ y ∈ x :: ns, isGroupNode y.1 = false) :
    splitCandidate (x :: ns ++ r) false false [] [] = splitCandidate r true false (x :: ns) [] := by
  rw [List.cons_append, splitCandidate]
  simp only [Bool.not_false, if_true, hx, Bool.or_true, h x (by simp)]
  rw [split_started ns r _ fun y hy => h y (by simp [hy])]
  simp

theorem split_ended : ∀ (r c a : List (Node MatchName × A)) (s : Bool),
    splitCandidate r s true c a = (c, a ++ r)
  | [], _, _, _ => by simp [splitCandidate]
  | x :: r, c, a, s => by
    rw [splitCandidate]
    simp only [Bool.not_true, Bool.false_eq_true, if_false]
    rw [split_ended r]
    simp

theorem split_group {x : Node MatchName × A} (r c : List (Node MatchName × A)) (s : Bool) (hx : isGroupNode x.1 = true) :
    splitCandidate (x :: r) s false c [] = (c ++ [x], r) := by
  have hd : isDecoNode x.1 = false := by
    obtain ⟨n, a⟩ := x
    cases n <;> simp_all [isDecoNode, isGroupNode]
  rw [splitCandidate]
  simp only [Bool.not_false, if_true, hd, Bool.or_true, hx]
  rw [split_ended]
  simp

/-- Every sibling list has decorations, then nodes that are not groups (not starting with a decoration), then
maybe a group and the rest; and this is how it is split. -/
theorem split_cases (l : List (Node MatchName × A)) : ∃ ds ns, (∀ x ∈ ds, isDecoNode x.1 = true)
    ∧ (∀ x ∈ ns, isGroupNode x.1 = false) ∧ (∀ x, ns.head? = some x → isDecoNode x.1 = false)
    ∧ ((l = ds ++ ns ∧ splitCandidate l false false [] [] = (ns, []))
      ∨ ∃ g r, isGroupNode g.1 = true ∧ l = ds ++ (ns ++ g :: r)
        ∧ splitCandidate l false false [] [] = (ns ++ [g], r)) := by
  have hds : ∀ x ∈ l.takeWhile (isDecoNode ·.1), isDecoNode x.1 = true :=
    fun x hx => List.mem_takeWhile_imp (p := fun x : Node MatchName × A => isDecoNode x.1) hx
  have hl := (List.takeWhile_append_dropWhile (p := fun x : Node MatchName × A => isDecoNode x.1) (l := l)).symm
  have hhead : ∀ x, (l.dropWhile (isDecoNode ·.1)).head? = some x → isDecoNode x.1 = false := by
    intro x hx
    have := List.head?_dropWhile_not (isDecoNode ·.1) l
    rw [hx] at this
    simpa using this
  generalize l.takeWhile (isDecoNode ·.1) = ds at *
  generalize l.dropWhile (isDecoNode ·.1) = t at *
  have hns : ∀ x ∈ t.takeWhile (!isGroupNode ·.1), isGroupNode x.1 = false := fun x hx => by
    simpa using List.mem_takeWhile_imp (p := fun x : Node MatchName × A => !isGroupNode x.1) hx
  have ht := (List.takeWhile_append_dropWhile (p := fun x : Node MatchName × A => !isGroupNode x.1) (l := t)).symm
  have hgh : ∀ x, (t.dropWhile (!isGroupNode ·.1)).head? = some x → isGroupNode x.1 = true := by
    intro x hx
    have := List.head?_dropWhile_not (!isGroupNode ·.1) t
    rw [hx] at this
    simpa using this
  generalize t.takeWhile (!isGroupNode ·.1) = ns at *
  generalize t.dropWhile (!isGroupNode ·.1) = u at *
  have hnh : ∀ x, ns.head? = some x → isDecoNode x.1 = false := by
    intro x hx
    refine hhead x ?_
    rw [ht, List.head?_append, hx]
    rfl
  refine ⟨ds, ns, hds, hns, hnh, ?_⟩
  cases u with
  | nil =>
    left
    rw [List.append_nil] at ht
    subst ht
    refine ⟨hl, ?_⟩
    rw [hl]
    cases t with
    | nil => rw [split_decos ds _ hds]; rfl
    | cons x t =>
      have := split_name (x := x) t [] (hnh x rfl) hns
      rw [List.append_nil] at this
      rw [split_decos ds _ hds, this]
      rfl
  | cons g r =>
    right
    have hg := hgh g rfl
    refine ⟨g, r, hg, by rw [hl, ht], ?_⟩
    rw [hl, split_decos ds _ hds, ht]
    cases ns with
    | nil => exact split_group r [] false hg
    | cons x ns => rw [split_name ns _ (hnh x rfl) hns, split_group r _ true hg]

end

theorem isParen_iff (n : Node MatchName) : isParen n = true
    ↔ ∃ args right, n = .group [.tok ['('] (.nodeType .matchLeft), args, right] (.nodeType .matched) := by
  constructor
  · intro h
    unfold isParen at h
    split at h
    · simp only [Bool.and_eq_true, decide_eq_true_eq] at h
      obtain ⟨⟨rfl, rfl⟩, rfl⟩ := h
      exact ⟨_, _, rfl⟩
    · cases h
  · rintro ⟨args, right, rfl⟩
    rfl

theorem isToken_iff (t : Text) (mt : MatchName) (n : Node MatchName) : isToken t mt n = true ↔ n = .tok t mt := by
  cases n <;> simp [isToken]

theorem pyGet_last {A : Type} (l : List A) (x : A) : pyGet (l ++ [x]) (-1) = some x := by
  simp [pyGet]

theorem pyGet_before {A : Type} (l : List A) (x : A) : pyGet (l ++ [x]) (-2) = l.getLast? := by
  rcases List.eq_nil_or_concat l with rfl | ⟨l, y, rfl⟩
  · simp [pyGet]
  · simp only [pyGet, List.concat_eq_append]
    rw [if_neg (by omega), if_pos (by simp)]
    rw [show (((l ++ [y] ++ [x]).length : Int) + -2).toNat = l.length by simp]
    simp

theorem isTokNode_iff (n : Node MatchName) : isTokNode n = true ↔ ∃ t mt, n = .tok t mt := by
  cases n <;> simp [isTokNode]

/-- When a candidate is a call. -/
theorem candidate_iff (ns : List (Node MatchName)) (g : Node MatchName) : isCallCandidate (ns ++ [g]) = true
    ↔ (∀ n, ns.head? = some n → n ≠ .tok ['d', 'e', 'f'] (.nodeType .contentLeaf)
        ∧ n ≠ .tok ['c', 'l', 'a', 's', 's'] (.nodeType .contentLeaf))
      ∧ isParen g = true ∧ ∃ t mt, ns.getLast? = some (.tok t mt) := by
  unfold isCallCandidate
  rw [pyGet_last, pyGet_before]
  rcases List.eq_nil_or_concat ns with rfl | ⟨l, y, rfl⟩
  · simp
  · simp only [List.concat_eq_append, List.getLast?_append, List.getLast?_singleton, Option.some_or, Option.map_some,
      Option.getD_some, Bool.and_eq_true, Bool.not_eq_true', Option.some.injEq, ← isTokNode_iff]
    have h0 : (l ++ [y] ++ [g])[0]? = (l ++ [y]).head? := by cases l <;> rfl
    rw [h0]
    obtain ⟨z, hz⟩ : ∃ z, (l ++ [y]).head? = some z := by cases l <;> exact ⟨_, rfl⟩
    rw [hz]
    simp only [Option.map_some, Option.getD_some, Option.some.injEq, ← Bool.not_eq_true, isToken_iff, decide_eq_true_eq,
      forall_eq', List.length_append, List.length_singleton, isTokNode_iff]
    constructor
    · rintro ⟨⟨⟨⟨-, h2⟩, h3⟩, h4⟩, h5⟩
      exact ⟨⟨h2, h3⟩, h4, h5⟩
    · rintro ⟨⟨h2, h3⟩, h4, h5⟩
      exact ⟨⟨⟨⟨by omega, h2⟩, h3⟩, h4⟩, h5⟩

theorem not_candidate {ns : List (Node MatchName)} (h : ∀ x ∈ ns, isGroupNode x = false) :
    isCallCandidate ns = false := by
  rcases List.eq_nil_or_concat ns with rfl | ⟨l, y, rfl⟩
  · rfl
  · rw [List.concat_eq_append, ← Bool.not_eq_true, candidate_iff]
    rintro ⟨-, hp, -⟩
    have := h y (by simp)
    obtain ⟨args, right, rfl⟩ := (isParen_iff y).mp hp
    simp [isGroupNode] at this

/-! ### Calls of a sibling list -/

theorem not_deco {n : Node MatchName} : isDecoNode n = false ↔ ∀ t, n ≠ .deco t := by
  cases n <;> simp [isDecoNode]

theorem is_deco {n : Node MatchName} : isDecoNode n = true ↔ ∃ t, n = .deco t := by
  cases n <;> simp [isDecoNode]

theorem not_group {n : Node MatchName} : isGroupNode n = false ↔ ∀ cs mt, n ≠ .group cs mt := by
  cases n <;> simp [isGroupNode]

/-- The split of a call. -/
theorem split_call {A : Type} {l : List (Node MatchName × A)} {f : FoundCall} {after : List (Node MatchName)}
    (h : IsCall (l.map Prod.fst) f after) : ∃ cand r right, splitCandidate l false false [] [] = (cand, r)
      ∧ cand.map Prod.fst = f.name ++ [.group [.tok ['('] (.nodeType .matchLeft), f.args, right] (.nodeType .matched)]
      ∧ r.map Prod.fst = after ∧ isCallCandidate (cand.map Prod.fst) = true := by
  obtain ⟨ds, right, hs, hd⟩ := h.split
  rw [List.append_assoc] at hs
  obtain ⟨lds, l', rfl, h1, h2⟩ := List.map_eq_append_iff.mp hs
  obtain ⟨lns, l'', rfl, h3, h4⟩ := List.map_eq_append_iff.mp h2
  obtain ⟨lg, lr, rfl, h5, h6⟩ := List.map_eq_cons_iff.mp h4
  have hds : ∀ x ∈ lds, isDecoNode x.1 = true := by
    intro x hx
    exact is_deco.mpr (hd x.1 (by rw [← h1]; exact List.mem_map_of_mem hx))
  have hns : ∀ x ∈ lns, isGroupNode x.1 = false := by
    intro x hx
    exact not_group.mpr (h.flat x.1 (by rw [← h3]; exact List.mem_map_of_mem hx))
  have hg : isGroupNode lg.1 = true := by rw [h5]; rfl
  have hlast := h.last
  cases lns with
  | nil =>
    rw [← h3] at hlast
    simp at hlast
  | cons x lns =>
    have hx : isDecoNode x.1 = false := by
      refine not_deco.mpr (h.first x.1 ?_).1
      rw [← h3]
      rfl
    refine ⟨x :: lns ++ [lg], lr, right, ?_, ?_, h6, ?_⟩
    · rw [split_decos lds _ hds, split_name lns _ hx hns, split_group lr _ true hg]
    · rw [List.map_append, h3, List.map_singleton, h5]
    · rw [List.map_append, h3, List.map_singleton, h5]
      refine (candidate_iff _ _).mpr ⟨fun n hn => (h.first n hn).2, rfl, hlast⟩

/-- A candidate that passes the check is a call. -/
theorem candidate_call {A : Type} {l : List (Node MatchName × A)}
    (h : isCallCandidate ((splitCandidate l false false [] []).1.map Prod.fst) = true) :
    ∃ f, IsCall (l.map Prod.fst) f ((splitCandidate l false false [] []).2.map Prod.fst) := by
  obtain ⟨ds, ns, hd, hn, hh, ⟨-, hs⟩ | ⟨g, r, hg, hl, hs⟩⟩ := split_cases l
  · rw [hs, not_candidate (by simpa using hn)] at h
    cases h
  · rw [hs] at h
    simp only [List.map_append, List.map_singleton] at h
    obtain ⟨h1, h2, h3⟩ := (candidate_iff _ _).mp h
    obtain ⟨args, right, hp⟩ := (isParen_iff _).mp h2
    refine ⟨⟨ns.map Prod.fst, args⟩, ⟨ds.map Prod.fst, right, ?_, ?_⟩, ?_, ?_, h3⟩
    · rw [hs, hl]
      simp [hp]
    · intro n hn
      obtain ⟨x, hx, rfl⟩ := List.mem_map.mp hn
      exact is_deco.mp (hd x hx)
    · intro n hn'
      obtain ⟨x, hx, rfl⟩ := List.mem_map.mp hn'
      exact not_group.mp (hn x hx)
    · intro n hn'
      refine ⟨?_, h1 n hn'⟩
      rw [List.head?_map] at hn'
      obtain ⟨x, hx, rfl⟩ := Option.map_eq_some_iff.mp hn'
      exact not_deco.mp (hh x hx)

/-- A sibling list is a call in at most one way. -/
theorem isCall_unique {cs : List (Node MatchName)} {f f' : FoundCall} {after after' : List (Node MatchName)}
    (h : IsCall cs f after) (h' : IsCall cs f' after') : f = f' ∧ after = after' := by
  have e : cs = (cs.map fun n => (n, ())).map Prod.fst := by simp [Function.comp_def]
  rw [e] at h h'
  obtain ⟨c, r, right, h1, h2, h3, -⟩ := split_call h
  obtain ⟨c', r', right', g1, g2, g3, -⟩ := split_call h'
  rw [h1] at g1
  cases g1
  rw [h2] at g2
  have := List.append_inj' g2 rfl
  simp only [List.cons.injEq, Node.group.injEq, and_true, true_and] at this
  obtain ⟨h4, h5, -⟩ := this
  refine ⟨?_, by rw [← h3, ← g3]⟩
  obtain ⟨n, a⟩ := f
  obtain ⟨n', a'⟩ := f'
  dsimp only at h4 h5
  rw [h4, h5]

theorem reverse_parts (f : Node MatchName → List (Node CallType)) : ∀ l : List (Node MatchName),
    (l.reverse.flatMap f).reverse = l.flatMap fun n => (f n).reverse
  | [] => rfl
  | n :: l => by
    rw [List.reverse_cons, List.flatMap_append, List.reverse_append, reverse_parts f l]
    simp

theorem isWhite_iff (cc : CharClass) (t : Text) : IsWhite cc t ↔ t ≠ [] ∧ t.all cc.isSpace = true := by
  unfold IsWhite
  rw [List.all_eq_true]

theorem callPart_eq (cc : CharClass) (ex : List Text) (n : Node MatchName) :
    (callNodeParts cc ex n).reverse = callPart cc ex n := by
  cases n with
  | tok t mt =>
    simp only [callNodeParts, callPart]
    split
    · rfl
    · split <;> rfl
  | deco t =>
    simp only [callNodeParts, callPart]
    by_cases h : IsWhite cc t
    · rw [if_pos h, if_pos ((isWhite_iff cc t).mp h)]
      rfl
    · rw [if_neg h, if_neg (fun h' => h ((isWhite_iff cc t).mpr h'))]
      rfl
  | _ => rfl

theorem buildCall_eq (cc : CharClass) (ex : List Text) (f : FoundCall) (right : Node MatchName) :
    buildCall cc ex (f.name ++ [.group [.tok ['('] (.nodeType .matchLeft), f.args, right] (.nodeType .matched)])
      = callNodes cc ex f := by
  have ha : argsText (f.name ++ [.group [.tok ['('] (.nodeType .matchLeft), f.args, right] (.nodeType .matched)])
      = text [f.args] := by
    unfold argsText
    rw [List.getLast?_append, List.getLast?_singleton, Option.some_or]
    dsimp only
    rw [← C06_render_is_text, renderTextL_singleton]
  unfold buildCall callNodes
  rw [ha]
  simp only [List.reverse_append, reverse_parts, List.flatMap_append, List.flatMap_singleton, callPart_eq]
  rw [show callPart cc ex (.group [.tok ['('] (.nodeType .matchLeft), f.args, right] (.nodeType .matched)) = [] from rfl]
  simp only [List.reverse_cons, List.reverse_nil, List.nil_append, List.append_nil, List.singleton_append,
    List.cons_append, List.append_assoc]
  by_cases h : text [f.args] = []
  · simp [h]
  · simp [h]

theorem withCalls_map (cc : CharClass) (ex : List Text) (ns : List (Node MatchName)) :
    (withCalls cc ex ns).map Prod.fst = ns ∧ ∀ x ∈ withCalls cc ex ns, x.2 = callsInNode cc ex x.1 := by
  induction ns with
  | nil => exact ⟨rfl, by simp [withCalls]⟩
  | cons n ns ih =>
    rw [withCalls, List.map_cons, ih.1]
    refine ⟨rfl, ?_⟩
    intro x hx
    rw [List.mem_cons] at hx
    rcases hx with rfl | hx
    · rfl
    · exact ih.2 x hx

/-- There are calls, and these are extracted. -/
def Extracts (cs : List (Node MatchName)) : Prop :=
  ∃ fs, CallsIn cs fs ∧ ∀ cc ex, extractAllFrom cc ex cs = fs.map (callNodes cc ex)

theorem below_exists : ∀ {ns : List (Node MatchName)}, (∀ cs mt, .group cs mt ∈ ns → Extracts cs) →
    ∃ fs, CallsBelow ns fs ∧ ∀ cc ex, ns.flatMap (callsInNode cc ex) = fs.map (callNodes cc ex)
  | [], _ => ⟨[], .nil, fun _ _ => rfl⟩
  | n :: ns, h => by
    obtain ⟨fs, h1, h2⟩ := below_exists (ns := ns) fun cs mt hm => h cs mt (by simp [hm])
    by_cases hn : isGroupNode n = true
    · cases n with
      | group cs mt =>
        obtain ⟨fs', g1, g2⟩ := h cs mt (by simp)
        refine ⟨fs' ++ fs, .group g1 h1, fun cc ex => ?_⟩
        rw [List.flatMap_cons, h2, List.map_append, ← g2]
        rfl
      | _ => simp [isGroupNode] at hn
    · rw [Bool.not_eq_true, not_group] at hn
      refine ⟨fs, .leaf hn h1, fun cc ex => ?_⟩
      rw [List.flatMap_cons, h2]
      have : callsInNode cc ex n = [] := by
        cases n with
        | group cs mt => exact absurd rfl (hn cs mt)
        | _ => rfl
      rw [this, List.nil_append]

theorem siblings_exist {cs : List (Node MatchName)} (h : ∀ cs' mt, .group cs' mt ∈ cs → Extracts cs') : Extracts cs := by
  have hflat : ∀ cc ex (l : List (Node MatchName × List Call)), (∀ x ∈ l, x.2 = callsInNode cc ex x.1) →
      l.flatMap Prod.snd = (l.map Prod.fst).flatMap (callsInNode cc ex) := by
    intro cc ex l hl
    induction l with
    | nil => rfl
    | cons x l ih =>
      rw [List.flatMap_cons, List.map_cons, List.flatMap_cons, hl x (by simp), ih fun y hy => hl y (by simp [hy])]
  by_cases hc : ∃ f after, IsCall cs f after
  · obtain ⟨f, after, hf⟩ := hc
    obtain ⟨ds, right, hs, -⟩ := hf.split
    obtain ⟨fs, h1, h2⟩ := below_exists (ns := after) fun cs' mt hm => h cs' mt (by rw [hs]; simp [hm])
    refine ⟨f :: fs, .call hf h1, fun cc ex => ?_⟩
    obtain ⟨hm, hw⟩ := withCalls_map cc ex cs
    rw [← hm] at hf
    obtain ⟨cand, r, right, g1, g2, g3, g4⟩ := split_call hf
    have hr : ∀ x ∈ r, x.2 = callsInNode cc ex x.1 := by
      obtain ⟨ds, ns, -, -, -, ⟨-, e⟩ | ⟨g, r', -, hl, e⟩⟩ := split_cases (withCalls cc ex cs)
      · rw [g1] at e
        cases e
        simp
      · rw [g1] at e
        cases e
        intro x hx
        exact hw x (by rw [hl]; simp [hx])
    unfold extractAllFrom extractFrom
    rw [g1]
    dsimp only
    rw [if_pos g4, g2, buildCall_eq, hflat cc ex r hr, g3, h2]
    rfl
  · obtain ⟨fs, h1, h2⟩ := below_exists h
    refine ⟨fs, .other (fun f after hf => hc ⟨f, after, hf⟩) h1, fun cc ex => ?_⟩
    obtain ⟨hm, hw⟩ := withCalls_map cc ex cs
    have hnc : ¬ isCallCandidate ((splitCandidate (withCalls cc ex cs) false false [] []).1.map Prod.fst) = true := by
      intro hcc
      obtain ⟨f, hf⟩ := candidate_call hcc
      rw [hm] at hf
      exact hc ⟨f, _, hf⟩
    have hall : (splitCandidate (withCalls cc ex cs) false false [] []).1.flatMap Prod.snd
        ++ (splitCandidate (withCalls cc ex cs) false false [] []).2.flatMap Prod.snd
        = (withCalls cc ex cs).flatMap Prod.snd := by
      obtain ⟨ds, ns, hd, -, -, hcase⟩ := split_cases (withCalls cc ex cs)
      have hds : ∀ x ∈ ds, x ∈ withCalls cc ex cs → x.2 = [] := by
        intro x hx hx'
        rw [hw x hx']
        obtain ⟨t, ht⟩ := is_deco.mp (hd x hx)
        rw [ht]
        rfl
      have hz : (∀ x ∈ ds, x ∈ withCalls cc ex cs) → ds.flatMap Prod.snd = [] := by
        intro hsub
        rw [List.flatMap_eq_nil_iff]
        exact fun x hx => hds x hx (hsub x hx)
      rcases hcase with ⟨hl, e⟩ | ⟨g, r, -, hl, e⟩
      · rw [e, show (withCalls cc ex cs).flatMap Prod.snd = (ds ++ ns).flatMap Prod.snd by rw [← hl],
          List.flatMap_append, hz (fun x hx => by rw [hl]; simp [hx])]
        simp
      · rw [e, show (withCalls cc ex cs).flatMap Prod.snd = (ds ++ (ns ++ g :: r)).flatMap Prod.snd by rw [← hl],
          List.flatMap_append (xs := ds), hz (fun x hx => by rw [hl]; simp [hx])]
        simp
    unfold extractAllFrom extractFrom
    dsimp only
    rw [if_neg hnc, hall, hflat cc ex _ hw, hm, h2]

theorem extracts_all (cs : List (Node MatchName)) : Extracts cs := by
  have := Node.induct (P := fun n : Node MatchName => ∀ cs mt, n = .group cs mt → Extracts cs)
    (Q := fun ns => ∀ cs mt, .group cs mt ∈ ns → Extracts cs)
    (by simp) (by simp) (by simp) (by simp) (by simp)
    (by
      intro cs mt ih cs' mt' h
      cases h
      exact siblings_exist ih)
    (by simp)
    (by
      intro n ns h1 h2 cs mt hm
      rw [List.mem_cons] at hm
      rcases hm with h | h
      · exact h1 cs mt h.symm
      · exact h2 cs mt h)
  exact siblings_exist (this.2 cs)

/-! ### Calls are determined -/

/-- The calls are determined. -/
def UniqueCalls (cs : List (Node MatchName)) : Prop := ∀ fs fs', CallsIn cs fs → CallsIn cs fs' → fs = fs'

theorem below_unique : ∀ {ns : List (Node MatchName)}, (∀ cs mt, .group cs mt ∈ ns → UniqueCalls cs) →
    ∀ fs fs', CallsBelow ns fs → CallsBelow ns fs' → fs = fs'
  | [], _, fs, fs', h, h' => by cases h; cases h'; rfl
  | n :: ns, hu, fs, fs', h, h' => by
    have ih := below_unique (ns := ns) fun cs mt hm => hu cs mt (by simp [hm])
    cases h with
    | leaf hn h =>
      cases h' with
      | leaf _ h' => exact ih _ _ h h'
      | group => exact absurd rfl (hn _ _)
    | group hc h =>
      cases h' with
      | leaf hn _ => exact absurd rfl (hn _ _)
      | group hc' h' => rw [hu _ _ List.mem_cons_self _ _ hc hc', ih _ _ h h']

theorem siblings_unique {cs : List (Node MatchName)} (hu : ∀ cs' mt, .group cs' mt ∈ cs → UniqueCalls cs') :
    UniqueCalls cs := by
  intro fs fs' h h'
  cases h with
  | call hf h =>
    cases h' with
    | call hf' h' =>
      obtain ⟨rfl, rfl⟩ := isCall_unique hf hf'
      obtain ⟨ds, right, hs, -⟩ := hf.split
      rw [below_unique (fun cs' mt hm => hu cs' mt (by rw [hs]; simp [hm])) _ _ h h']
    | other hn _ => exact absurd hf (hn _ _)
  | other hn h =>
    cases h' with
    | call hf' _ => exact absurd hf' (hn _ _)
    | other _ h' => exact below_unique hu _ _ h h'

theorem unique_all (cs : List (Node MatchName)) : UniqueCalls cs := by
  have := Node.induct (P := fun n : Node MatchName => ∀ cs mt, n = .group cs mt → UniqueCalls cs)
    (Q := fun ns => ∀ cs mt, .group cs mt ∈ ns → UniqueCalls cs)
    (by simp) (by simp) (by simp) (by simp) (by simp)
    (by
      intro cs mt ih cs' mt' h
      cases h
      exact siblings_unique ih)
    (by simp)
    (by
      intro n ns h1 h2 cs mt hm
      rw [List.mem_cons] at hm
      rcases hm with h | h
      · exact h1 cs mt h.symm
      · exact h2 cs mt h)
  exact siblings_unique (this.2 cs)

/-! ### White space -/

/-- Every decoration is white space, or nothing but empty text follows. -/
def WhiteDecos (cc : CharClass) (ls : List (Node MatchName)) : Prop :=
  ∀ l t r, ls = l ++ .deco t :: r → IsWhite cc t ∨ r.flatMap leafText = []

theorem mem_siblings {ns : List (Node MatchName)} : ∀ {cs : List (Node MatchName)} {mt : MatchName}, .group cs mt ∈ ns →
    ∃ l r, leaves ns = l ++ (leaves cs ++ r) := by
  intro cs mt h
  obtain ⟨a, b, rfl⟩ := List.append_of_mem h
  exact ⟨leaves a, leaves b, by rw [leaves_append, leaves, leavesN]⟩

theorem whiteDecos_infix {cc : CharClass} {l m r : List (Node MatchName)} (h : WhiteDecos cc (l ++ (m ++ r))) :
    WhiteDecos cc m := by
  intro l' t r' hm
  rcases h (l ++ l') t (r' ++ r) (by rw [hm]; simp) with h | h
  · exact .inl h
  · rw [List.flatMap_append, List.append_eq_nil_iff] at h
    exact .inr h.1

theorem flat_leaves : ∀ {ns : List (Node MatchName)}, (∀ n ∈ ns, ∀ cs mt, n ≠ .group cs mt) → leaves ns = ns
  | [], _ => rfl
  | n :: ns, h => by
    rw [leaves, flat_leaves fun m hm => h m (by simp [hm])]
    have := h n (by simp)
    cases n with
    | group cs mt => exact absurd rfl (this cs mt)
    | _ => rfl

theorem white_isCall {cc : CharClass} {cs : List (Node MatchName)} {f : FoundCall} {after : List (Node MatchName)}
    (hw : WhiteDecos cc (leaves cs)) (h : IsCall cs f after) : ∀ t, .deco t ∈ f.name → IsWhite cc t := by
  intro t ht
  obtain ⟨ds, right, hs, -⟩ := h.split
  obtain ⟨a, b, hab⟩ := List.append_of_mem ht
  have hl : leaves cs = leaves ds ++ (a ++ .deco t :: (b ++ (.tok ['('] (.nodeType .matchLeft)
      :: (leaves [f.args, right] ++ leaves after)))) := by
    rw [hs, leaves_append, leaves_append, flat_leaves h.flat, hab, leaves, leavesN]
    simp [leaves, leavesN]
  rcases hw (leaves ds ++ a) t (b ++ (.tok ['('] (.nodeType .matchLeft)
      :: (leaves [f.args, right] ++ leaves after))) (by rw [hl]; simp) with h | h
  · exact h
  · simp [leafText] at h

theorem white_calls {cc : CharClass} (cs : List (Node MatchName)) : ∀ fs, CallsIn cs fs → WhiteDecos cc (leaves cs) →
    WhiteNames cc fs := by
  have below : ∀ {ns : List (Node MatchName)},
      (∀ cs mt, .group cs mt ∈ ns → ∀ fs, CallsIn cs fs → WhiteDecos cc (leaves cs) → WhiteNames cc fs) →
      ∀ fs, CallsBelow ns fs → WhiteDecos cc (leaves ns) → WhiteNames cc fs := by
    intro ns
    induction ns with
    | nil => intro _ fs h _; cases h; simp [WhiteNames]
    | cons n ns ih =>
      intro hu fs h hw
      have hw' : WhiteDecos cc (leaves ns) := whiteDecos_infix (l := leavesN n) (r := []) (by simpa [leaves] using hw)
      cases h with
      | leaf _ h => exact ih (fun cs mt hm => hu cs mt (by simp [hm])) _ h hw'
      | @group cs mt _ fs fs' hc h =>
        have h1 := ih (fun cs mt hm => hu cs mt (by simp [hm])) _ h hw'
        have h2 := hu cs mt (by simp) _ hc (whiteDecos_infix (l := []) (r := leaves ns) hw)
        intro f hf
        rw [List.mem_append] at hf
        rcases hf with hf | hf
        · exact h2 f hf
        · exact h1 f hf
  have sib : ∀ {cs : List (Node MatchName)},
      (∀ cs' mt, .group cs' mt ∈ cs → ∀ fs, CallsIn cs' fs → WhiteDecos cc (leaves cs') → WhiteNames cc fs) →
      ∀ fs, CallsIn cs fs → WhiteDecos cc (leaves cs) → WhiteNames cc fs := by
    intro cs hu fs h hw
    cases h with
    | @call _ f after fs hf h =>
      obtain ⟨ds, right, hs, -⟩ := hf.split
      have hw' : WhiteDecos cc (leaves after) := by
        refine whiteDecos_infix (l := leaves (ds ++ f.name
          ++ [.group [.tok ['('] (.nodeType .matchLeft), f.args, right] (.nodeType .matched)])) (r := []) ?_
        rw [List.append_nil, ← leaves_append]
        rw [hs] at hw
        simpa using hw
      have h1 := below (fun cs' mt hm => hu cs' mt (by rw [hs]; simp [hm])) _ h hw'
      intro g hg
      rw [List.mem_cons] at hg
      rcases hg with rfl | hg
      · exact white_isCall hw hf
      · exact h1 g hg
    | other _ h => exact below hu _ h hw
  have := Node.induct (P := fun n : Node MatchName => ∀ cs mt, n = .group cs mt → ∀ fs, CallsIn cs fs →
      WhiteDecos cc (leaves cs) → WhiteNames cc fs)
    (Q := fun ns => ∀ cs mt, .group cs mt ∈ ns → ∀ fs, CallsIn cs fs → WhiteDecos cc (leaves cs) → WhiteNames cc fs)
    (by simp) (by simp) (by simp) (by simp) (by simp)
    (by
      intro cs mt ih cs' mt' h
      cases h
      exact sib ih)
    (by simp)
    (by
      intro n ns h1 h2 cs mt hm
      rw [List.mem_cons] at hm
      rcases hm with h | h
      · exact h1 cs mt h.symm
      · exact h2 cs mt h)
  exact sib (this.2 cs)

/-- Truncation keeps decorations white. -/
theorem truncate_white {cc : CharClass} {ns : List (Node MatchName)} (h : WhiteDecos cc (leaves ns)) (n : Nat) :
    WhiteDecos cc (leaves (truncatePrefix ns (n : Int))) := by
  rcases C09_truncate_leaves ns n with ⟨h1, -⟩ | ⟨pre, x, rest, h1, h2, -, h4, h5⟩
  · rw [h1]
    intro l t r hl
    simp [leaves] at hl
  · rw [h5]
    rw [h1] at h
    have hrest : WhiteDecos cc rest := whiteDecos_infix (l := pre ++ [x]) (r := []) (by simpa using h)
    split
    · exact hrest
    · rename_i hne
      intro l t r hl
      cases l with
      | cons y l =>
        simp only [List.singleton_append, List.cons_append, List.cons.injEq] at hl
        exact hrest l t r hl.2
      | nil =>
        simp only [List.singleton_append, List.nil_append, List.cons.injEq] at hl
        obtain ⟨hx, rfl⟩ := hl
        cases x with
        | deco u =>
          simp only [withText, leafText, Node.deco.injEq] at hx h4 hne
          rcases h pre u rest rfl with hw | hw
          · left
            rw [← hx]
            refine ⟨?_, fun c hc => hw.2 c (List.mem_of_mem_drop hc)⟩
            have := List.length_pos_iff.mpr hw.1
            rw [ne_eq, List.drop_eq_nil_iff]
            omega
          · exact .inr hw
        | _ => simp [withText] at hx

end RUSure.Lemmas
