import Verif.Lemmas.MarkedBlocks
import Verif.Lemmas.Located
import Mathlib.Data.List.TakeWhile

/-!
# The baselines for calls
-/

namespace RUSure.Lemmas
open RUSure RUSure.Spec RUSure.Props

section
variable (cc : CharClass) (ex : List Text)

/-! ### The parts of a name -/

theorem before_part (f : FoundCall) : f.before ++ f.part = f.name := by
  unfold FoundCall.before FoundCall.part
  rw [← List.reverse_append, List.takeWhile_append_dropWhile, List.reverse_reverse]

theorem part_noDeco (f : FoundCall) : ∀ n ∈ f.part, ∀ t, n ≠ .deco t := by
  rintro n hn t rfl
  unfold FoundCall.part at hn
  rw [List.mem_reverse] at hn
  have := List.mem_takeWhile_imp hn
  simp [isDecoNode] at this

theorem before_last (f : FoundCall) : f.before = [] ∨ ∃ b t, f.before = b ++ [.deco t] := by
  unfold FoundCall.before
  cases h : f.name.reverse.dropWhile (!isDecoNode ·) with
  | nil => exact .inl rfl
  | cons n l =>
    right
    have hd : (!isDecoNode n) = false := by
      have := List.head?_dropWhile_not (!isDecoNode ·) f.name.reverse
      rw [h] at this
      simpa using this
    cases n with
    | deco t => exact ⟨l.reverse, t, by simp⟩
    | _ => simp [isDecoNode] at hd

theorem callPart_flat (ns : List (Node MatchName)) : Flat (ns.flatMap (callPart cc ex)) := by
  rintro n hn cs mt rfl
  rw [List.mem_flatMap] at hn
  obtain ⟨m, -, hm⟩ := hn
  unfold callPart at hm
  split at hm <;> [split at hm; split at hm; skip] <;> simp at hm

theorem callNodes_flat (f : FoundCall) : Flat (callNodes cc ex f) := by
  intro n hn cs mt
  unfold callNodes at hn
  rw [List.mem_cons, List.mem_append] at hn
  rcases hn with rfl | hn | hn
  · simp
  · exact callPart_flat cc ex _ n hn cs mt
  · simp only [List.mem_cons, List.not_mem_nil, or_false] at hn
    rcases hn with rfl | rfl | rfl | rfl | rfl <;> simp

theorem callPart_texts (ns : List (Node MatchName)) :
    (ns.flatMap (callPart cc ex)).filterMap ownText = nodeTexts ns := by
  unfold nodeTexts
  induction ns with
  | nil => rfl
  | cons n ns ih =>
    rw [List.flatMap_cons, List.filterMap_append, ih, List.filterMap_cons]
    cases n with
    | tok t mt =>
      simp only [callPart]
      split
      · rename_i h
        rw [h.1]
        rfl
      · simp [ownText]
    | deco t =>
      simp only [callPart]
      split <;> simp [ownText]
    | _ => rfl

theorem callPart_noDeco {ns : List (Node MatchName)} (h : ∀ n ∈ ns, ∀ t, n ≠ .deco t) :
    ∀ n ∈ ns.flatMap (callPart cc ex), n = .rstart ∨ ∃ t mt, n = .tok t mt := by
  intro n hn
  rw [List.mem_flatMap] at hn
  obtain ⟨m, hm, hn⟩ := hn
  cases m with
  | deco t => exact absurd rfl (h _ hm t)
  | tok t mt =>
    unfold callPart at hn
    dsimp only at hn
    split at hn
    · simp only [List.mem_cons, List.not_mem_nil, or_false] at hn
      rcases hn with rfl | rfl
      · exact .inl rfl
      · exact .inr ⟨_, _, rfl⟩
    · simp only [List.mem_cons, List.not_mem_nil, or_false] at hn
      exact .inr ⟨_, _, hn⟩
  | _ => simp [callPart] at hn

/-- The token is novel. -/
def isNovelTok : Node CallType → Bool
  | .tok _ mt => mt = .novel
  | _ => false

theorem callPart_novel (ns : List (Node MatchName)) :
    (ns.flatMap (callPart cc ex)).any isNovelTok = ns.any fun n => match n with
      | .tok t mt => !(t = ['.'] && mt = .nodeType .contentLeaf) && !ex.contains t
      | _ => false := by
  induction ns with
  | nil => rfl
  | cons n ns ih =>
    rw [List.flatMap_cons, List.any_append, ih, List.any_cons]
    congr 1
    cases n with
    | tok t mt =>
      simp only [callPart]
      split
      · rename_i h
        simp [isNovelTok, h.1, h.2]
      · rename_i h
        have hb : (decide (t = ['.']) && decide (mt = MatchName.nodeType NodeType.contentLeaf)) = false := by
          rw [← Bool.not_eq_true, Bool.and_eq_true, decide_eq_true_eq, decide_eq_true_eq]
          exact h
        rw [hb]
        by_cases hm : t ∈ ex <;> simp [isNovelTok, hm]
    | deco t =>
      simp only [callPart]
      split <;> simp [isNovelTok]
    | _ => rfl

/-- What comes before the start of the shorter region. -/
def headNodes (f : FoundCall) : List (Node CallType) := (.rstart :: f.before.flatMap (callPart cc ex)).dropLast

theorem headNodes_eq {f : FoundCall} (hw : ∀ t, .deco t ∈ f.name → IsWhite cc t) :
    .rstart :: f.name.flatMap (callPart cc ex)
      = headNodes cc ex f ++ .rstart :: f.part.flatMap (callPart cc ex)
    ∧ (headNodes cc ex f = [] ∨ ∃ X t, headNodes cc ex f = X ++ [.deco t]) := by
  unfold headNodes
  rcases before_last f with h | ⟨b, t, h⟩
  · rw [h]
    have := before_part f
    rw [h, List.nil_append] at this
    rw [this]
    exact ⟨rfl, .inl rfl⟩
  · have ht : IsWhite cc t := hw t (by rw [← before_part, h]; simp)
    have hp : callPart cc ex (.deco t) = [.deco t, .rstart] := by rw [callPart, if_pos ht]
    have hl : (.rstart :: f.before.flatMap (callPart cc ex))
        = (.rstart :: (b.flatMap (callPart cc ex)) ++ [.deco t]) ++ [.rstart] := by
      rw [h, List.flatMap_append, List.flatMap_singleton, hp]
      simp
    rw [← before_part f, List.flatMap_append, ← List.cons_append, hl, List.dropLast_concat]
    exact ⟨by simp, .inr ⟨_, _, rfl⟩⟩

/-! ### The loops over packed nodes -/

theorem shorterStartLoop_tokens {S : Storage CallType} : ∀ {Y : List (Node CallType)} {i : Nat} {ids : List NodeId},
    (∀ n ∈ Y, n = .rstart ∨ ∃ t mt, n = .tok t mt) → LocatedL S i ids Y → ∀ (rest : List NodeId) prev novel,
    ∃ prev', shorterStartLoop S (ids.reverse ++ rest) prev novel
      = shorterStartLoop S rest prev' (novel || Y.any isNovelTok) := by
  intro Y
  induction Y with
  | nil =>
    intro i ids _ h rest prev novel
    rw [LocatedL] at h
    subst h
    exact ⟨prev, by simp⟩
  | cons n Y ih =>
    intro i ids hY h rest prev novel
    obtain ⟨id, ids, rfl, h1, h2⟩ := h
    obtain ⟨p, hp⟩ := ih (fun m hm => hY m (by simp [hm])) h2 (id :: rest) prev novel
    rcases hY n (by simp) with rfl | ⟨t, mt, rfl⟩
    · refine ⟨some id.preorder, ?_⟩
      rw [List.reverse_cons, List.append_assoc, List.singleton_append, hp, shorterStartLoop.eq_def]
      dsimp only
      rw [if_neg (by rw [h1.2]; simp), if_neg (by rw [h1.2]; simp), if_pos h1.2]
      simp [isNovelTok]
    · refine ⟨p, ?_⟩
      rw [List.reverse_cons, List.append_assoc, List.singleton_append, hp, shorterStartLoop.eq_def]
      dsimp only
      rw [if_pos h1.2.1, getOrIndex, h1.2.2, ok_bind_eq]
      simp only [List.any_cons, isNovelTok, Bool.or_assoc, Bool.or_comm (decide _)]

/-- Where the regions of a call are: positions among its nodes. -/
def marks (pick : FoundCall → Option (Nat × Nat)) : Nat → List FoundCall → List Nat
  | _, [] => []
  | i, f :: fs =>
    (match pick f with
      | none => []
      | some (a, b) => [i + 1 + a, i + 1 + b]) ++ marks pick (i + (callNodes cc ex f).length + 2) fs

/-- The whole call. -/
def pickFull (f : FoundCall) : Option (Nat × Nat) := some (0, (callNodes cc ex f).length - 1)

/-- The shorter region. -/
def pickShorter (f : FoundCall) : Option (Nat × Nat) :=
  some ((headNodes cc ex f).length, (callNodes cc ex f).length - 4)

/-- The shorter region, if there is a novel token. -/
def pickNovel (f : FoundCall) : Option (Nat × Nat) := if f.isNovel ex then pickShorter cc ex f else none

theorem callNodes_length (f : FoundCall) :
    (callNodes cc ex f).length = (f.name.flatMap (callPart cc ex)).length + 6 := by
  unfold callNodes
  simp

/-- The list has what was there, and the given indices. -/
def Adds (l l' : List Int) (ns : List Nat) : Prop := ∀ j, j ∈ l' ↔ j ∈ l ∨ ∃ n ∈ ns, j = (n : Int)

variable {cc ex}

theorem pyGet_neg {A : Type} (l r : List A) (x : A) (k : Int) (hk : k = -((r.length : Int) + 1)) :
    pyGet (l ++ x :: r) k = some x := by
  unfold pyGet
  rw [if_neg (by omega), if_pos (by rw [List.length_append, List.length_cons]; push_cast; omega),
    show (((l ++ x :: r).length : Int) + k).toNat = l.length by
      rw [List.length_append, List.length_cons]; push_cast; omega]
  simp

theorem addCallMarkers_eq {S : Storage CallType} {f : FoundCall} (hw : ∀ t, .deco t ∈ f.name → IsWhite cc t) {i : Nat}
    {id : NodeId} (h : LocatedN S i id (.group (callNodes cc ex f) .apiCall)) (m : CallMarkers) :
    ∃ m', addCallMarkers S id m = .ok m'
      ∧ Adds m.full m'.full (marks cc ex (pickFull cc ex) i [f])
      ∧ Adds m.shorter m'.shorter (marks cc ex (pickShorter cc ex) i [f])
      ∧ Adds m.novel m'.novel (marks cc ex (pickNovel cc ex) i [f]) := by
  obtain ⟨-, -, ids, hg, hids⟩ := h
  obtain ⟨heq, hlast⟩ := headNodes_eq cc ex hw
  have hlen := callNodes_length cc ex f
  have hq : (f.name.flatMap (callPart cc ex)).length
      = (headNodes cc ex f).length + (f.part.flatMap (callPart cc ex)).length := by
    have := congrArg List.length heq
    simp only [List.length_cons, List.length_append] at this
    omega
  have hflat := callNodes_flat cc ex f
  unfold callNodes at hids hflat
  rw [← List.cons_append, heq] at hids hflat
  have hfX : Flat (headNodes cc ex f) := fun n hn => hflat n (by simp [hn])
  have hfY : Flat (f.part.flatMap (callPart cc ex)) := fun n hn => hflat n (by simp [hn])
  rw [List.append_assoc] at hids
  obtain ⟨idX, rest, rfl, hX, hrest⟩ := locatedL_append hids
  obtain ⟨idr, rest, rfl, hr, hrest⟩ := hrest
  obtain ⟨idY, rest, rfl, hY, hrest⟩ := locatedL_append hrest
  obtain ⟨p, rest, rfl, hp, hrest⟩ := hrest
  obtain ⟨e, rest, rfl, he, hrest⟩ := hrest
  obtain ⟨a, rest, rfl, ha, hrest⟩ := hrest
  obtain ⟨c, rest, rfl, hc, hrest⟩ := hrest
  obtain ⟨e', rest, rfl, he', hrest⟩ := hrest
  rw [LocatedL] at hrest
  subst hrest
  rw [flat_size hfX] at hr he he' hY hp ha hc
  rw [flat_size hfY] at he he' hp ha hc
  simp only [nodeSize] at he he' hp ha hc
  have hlX := locatedL_length hX
  have hlY := locatedL_length hY
  have g1 : pyGet (idX ++ idr :: (idY ++ [p, e, a, c, e'])) (-1) = some e' := by
    rw [show idX ++ idr :: (idY ++ [p, e, a, c, e']) = (idX ++ idr :: (idY ++ [p, e, a, c])) ++ [e'] by simp]
    exact pyGet_neg _ _ _ _ rfl
  have g2 : pyGet (idX ++ idr :: (idY ++ [p, e, a, c, e'])) (-2) = some c := by
    rw [show idX ++ idr :: (idY ++ [p, e, a, c, e']) = (idX ++ idr :: (idY ++ [p, e, a])) ++ [c, e'] by simp]
    exact pyGet_neg _ _ _ _ rfl
  have g3 : pyGet (idX ++ idr :: (idY ++ [p, e, a, c, e'])) (-3) = some a := by
    rw [show idX ++ idr :: (idY ++ [p, e, a, c, e']) = (idX ++ idr :: (idY ++ [p, e])) ++ [a, c, e'] by simp]
    exact pyGet_neg _ _ _ _ rfl
  have g4 : pyGet (idX ++ idr :: (idY ++ [p, e, a, c, e'])) (-4) = some e := by
    rw [show idX ++ idr :: (idY ++ [p, e, a, c, e']) = (idX ++ idr :: (idY ++ [p])) ++ [e, a, c, e'] by simp]
    exact pyGet_neg _ _ _ _ rfl
  have g5 : ((idX ++ idr :: (idY ++ [p, e, a, c, e'])).take
      ((idX ++ idr :: (idY ++ [p, e, a, c, e'])).length - 4)).reverse
      = p :: (idY.reverse ++ idr :: idX.reverse) := by
    rw [show idX ++ idr :: (idY ++ [p, e, a, c, e']) = (idX ++ idr :: (idY ++ [p])) ++ [e, a, c, e'] by simp,
      List.take_left' (Eq.symm (by rw [List.length_append]; rfl))]
    simp
  have g6 : ∃ first, pyGet (idX ++ idr :: (idY ++ [p, e, a, c, e'])) 0 = some first ∧ first.cat = .rstart
      ∧ first.preorder = ((i + 1 : Nat) : Int) := by
    rcases List.eq_nil_or_concat (headNodes cc ex f) with hnil | ⟨Z, z, hZ⟩
    · rw [hnil] at hX hr
      rw [LocatedL] at hX
      subst hX
      exact ⟨idr, rfl, hr.2, by simpa using hr.1⟩
    · have hh : headNodes cc ex f ++ .rstart :: f.part.flatMap (callPart cc ex)
          = .rstart :: f.name.flatMap (callPart cc ex) := heq.symm
      cases hxs : headNodes cc ex f with
      | nil => rw [hxs] at hZ; simp at hZ
      | cons z Z =>
        rw [hxs] at hX hh
        simp only [List.cons_append, List.cons.injEq] at hh
        obtain ⟨id0, rest, rfl, h1, -⟩ := hX
        rw [hh.1] at h1
        exact ⟨id0, rfl, h1.2, h1.1⟩
  obtain ⟨first, g6, hf1, hf2⟩ := g6
  have hnov : ∃ s q, shorterStartLoop S (p :: (idY.reverse ++ idr :: idX.reverse)) none false
      = .ok (s, q, f.isNovel ex) ∧ (s = some idr.preorder ∨ s = none ∧ q = some idr.preorder) := by
    obtain ⟨q, hq⟩ := shorterStartLoop_tokens (callPart_noDeco cc ex (part_noDeco f)) hY (idr :: idX.reverse) none false
    rw [callPart_novel, Bool.false_or] at hq
    have h1 : shorterStartLoop S (p :: (idY.reverse ++ idr :: idX.reverse)) none false
        = shorterStartLoop S idX.reverse (some idr.preorder) (f.isNovel ex) := by
      rw [shorterStartLoop.eq_def]
      dsimp only
      rw [if_pos hp.2.1, getOrIndex, hp.2.2, ok_bind_eq]
      simp only [reduceCtorEq, decide_false, Bool.or_false]
      rw [hq, shorterStartLoop.eq_def]
      dsimp only
      rw [if_neg (by rw [hr.2]; simp), if_neg (by rw [hr.2]; simp), if_pos hr.2]
      rfl
    rw [h1]
    rcases hlast with hnil | ⟨X, t, hX'⟩
    · rw [hnil, LocatedL] at hX
      subst hX
      exact ⟨none, some idr.preorder, rfl, .inr ⟨rfl, rfl⟩⟩
    · rw [hX'] at hX
      obtain ⟨u, v, rfl, -, hv⟩ := locatedL_append hX
      obtain ⟨d, w, rfl, hd, hw'⟩ := hv
      rw [LocatedL] at hw'
      subst hw'
      refine ⟨some idr.preorder, some idr.preorder, ?_, .inl rfl⟩
      rw [List.reverse_append, List.reverse_singleton, List.singleton_append, shorterStartLoop.eq_def]
      dsimp only
      rw [if_neg (by rw [hd.2.1]; simp), if_pos hd.2.1]
  obtain ⟨s, q, hs, hsq⟩ := hnov
  have hrun : addCallMarkers S id m = .ok ⟨m.full ++ [e'.preorder] ++ [first.preorder],
      m.shorter ++ [idr.preorder, e.preorder],
      if f.isNovel ex then m.novel ++ [idr.preorder, e.preorder] else m.novel⟩ := by
    unfold addCallMarkers
    simp only [getOrIndex, hg, ok_bind_eq, g1, g2, g3, g4, g5, g6, hs]
    simp only [assertCall, he'.2, hc.2.1, ha.2.1, he.2, hf1, decide_true, if_true, ok_bind_eq]
    rcases hsq with rfl | ⟨rfl, rfl⟩ <;> rfl
  have hr1 := hr.1
  have he1 := he.1
  have he1' := he'.1
  refine ⟨_, hrun, ?_, ?_, ?_⟩
  · intro j
    simp only [marks, pickFull, List.append_nil, List.mem_append, List.mem_singleton, List.mem_cons, List.not_mem_nil,
      or_false, exists_eq_or_imp, exists_eq_left, hf2, he1', or_assoc]
    rw [show i + 1 + ((callNodes cc ex f).length - 1)
      = i + 1 + (headNodes cc ex f).length + 1 + (f.part.flatMap (callPart cc ex)).length + 1 + 1 + 1 + 1 by omega]
    tauto
  · intro j
    simp only [marks, pickShorter, List.append_nil, List.mem_append, List.mem_cons, List.not_mem_nil,
      or_false, exists_eq_or_imp, exists_eq_left, hr1, he1]
    rw [show i + 1 + ((callNodes cc ex f).length - 4)
      = i + 1 + (headNodes cc ex f).length + 1 + (f.part.flatMap (callPart cc ex)).length + 1 by omega]
  · intro j
    by_cases hn : f.isNovel ex = true
    · simp only [marks, pickNovel, pickShorter, if_pos hn, List.append_nil, List.mem_append, List.mem_cons,
        List.not_mem_nil, or_false, exists_eq_or_imp, exists_eq_left, hr1, he1]
      rw [show i + 1 + ((callNodes cc ex f).length - 4)
        = i + 1 + (headNodes cc ex f).length + 1 + (f.part.flatMap (callPart cc ex)).length + 1 by omega]
    · simp [marks, pickNovel, if_neg hn]

theorem adds_trans {l l' l'' : List Int} {a b : List Nat} (h : Adds l l' a) (h' : Adds l' l'' b) :
    Adds l l'' (a ++ b) := by
  intro j
  rw [h' j, h j, or_assoc]
  simp only [List.mem_append, or_and_right, exists_or]

theorem callMarkersLoop_eq {S : Storage CallType} : ∀ {fs : List FoundCall} {i : Nat} {ids : List NodeId},
    WhiteNames cc fs → LocatedL S i ids (callTree cc ex fs) → ∀ m, ∃ m', callMarkersLoop S ids m = .ok m'
      ∧ Adds m.full m'.full (marks cc ex (pickFull cc ex) i fs)
      ∧ Adds m.shorter m'.shorter (marks cc ex (pickShorter cc ex) i fs)
      ∧ Adds m.novel m'.novel (marks cc ex (pickNovel cc ex) i fs)
  | [], i, ids, _, h, m => by
    rw [callTree, List.flatMap_nil, LocatedL] at h
    subst h
    exact ⟨m, rfl, by simp [Adds, marks], by simp [Adds, marks], by simp [Adds, marks]⟩
  | f :: fs, i, ids, hw, h, m => by
    rw [callTree, List.flatMap_cons] at h
    obtain ⟨id, rest, rfl, h1, nl, rest, rfl, h2, h3⟩ := h
    obtain ⟨m1, hm1, a1, a2, a3⟩ := addCallMarkers_eq (hw f (by simp)) h1 m
    rw [nodeSize, flat_size (callNodes_flat cc ex f), nodeSize] at h3
    obtain ⟨m2, hm2, b1, b2, b3⟩ := callMarkersLoop_eq (fun g hg => hw g (by simp [hg])) h3 m1
    have e : i + (1 + (callNodes cc ex f).length) + 1 = i + (callNodes cc ex f).length + 2 := by omega
    rw [e] at b1 b2 b3
    have hm : ∀ pick, marks cc ex pick i (f :: fs)
        = marks cc ex pick i [f] ++ marks cc ex pick (i + (callNodes cc ex f).length + 2) fs := by
      intro pick
      simp [marks]
    refine ⟨m2, ?_, ?_, ?_, ?_⟩
    · rw [callMarkersLoop, if_pos h1.2.1, hm1, ok_bind_eq, callMarkersLoop, if_neg (by rw [h2.2.1]; simp)]
      exact hm2
    · rw [hm]; exact adds_trans a1 b1
    · rw [hm]; exact adds_trans a2 b2
    · rw [hm]; exact adds_trans a3 b3

/-! ### The regions of the tree -/

theorem marks_ge (pick : FoundCall → Option (Nat × Nat)) : ∀ (fs : List FoundCall) (i : Nat),
    ∀ j ∈ marks cc ex pick i fs, i ≤ j
  | [], _, j, hj => by simp [marks] at hj
  | f :: fs, i, j, hj => by
    rw [marks, List.mem_append] at hj
    rcases hj with hj | hj
    · split at hj
      · simp at hj
      · simp only [List.mem_cons, List.not_mem_nil, or_false] at hj
        omega
    · have := marks_ge pick fs _ j hj
      omega

/-- A region of a call, or none, and what is shown then. -/
def Picked (cc : CharClass) (ex : List Text) (f : FoundCall) (pick : Option (Nat × Nat)) (out : List MarkedToken) : Prop :=
  match pick with
  | none => out = flagged false ((callNodes cc ex f).filterMap ownText ++ [['\n']])
  | some (a, b) => ∃ A B C, callNodes cc ex f = A ++ .rstart :: (B ++ .rend :: C) ∧ a = A.length ∧ b = a + 1 + B.length
      ∧ (∃ n ∈ B, ownText n ≠ none)
      ∧ out = flagged false (A.filterMap ownText) ++ flagged true (B.filterMap ownText)
        ++ flagged false (C.filterMap ownText ++ [['\n']])

theorem blocks_tree {P : Nat → Bool} {pick : FoundCall → Option (Nat × Nat)} {sh : FoundCall → List MarkedToken} :
    ∀ (fs : List FoundCall) (c i : Nat), (∀ f ∈ fs, Picked cc ex f (pick f) (sh f)) →
    (∀ j, i ≤ j → (P j = true ↔ j ∈ marks cc ex pick i fs)) →
    Blocks P (pl [] c i (callTree cc ex fs)) (fs.flatMap sh)
  | [], c, i, _, _ => .nil
  | f :: fs, c, i, hp, hP => by
    have hfl := callNodes_flat cc ex f
    have hsz := flat_size hfl
    have hrest := blocks_tree (P := P) (pick := pick) (sh := sh) fs (c + 2) (i + (callNodes cc ex f).length + 2)
      (fun g hg => hp g (by simp [hg])) (by
        intro j hj
        rw [hP j (by omega), marks, List.mem_append]
        constructor
        · rintro (h | h)
          · exfalso
            have hpick := hp f (by simp)
            split at h
            · simp at h
            · rename_i a b hab
              rw [hab] at hpick
              obtain ⟨A, B, C, h1, h2, h3, -⟩ := hpick
              have := congrArg List.length h1
              simp only [List.length_append, List.length_cons] at this
              simp only [List.mem_cons, List.not_mem_nil, or_false] at h
              omega
          · exact h
        · exact .inr)
    have hoff : ∀ j, i ≤ j → j < i + (callNodes cc ex f).length + 2 →
        (P j = true ↔ j ∈ (match pick f with
          | none => []
          | some (a, b) => [i + 1 + a, i + 1 + b])) := by
      intro j h1 h2
      rw [hP j h1, marks, List.mem_append]
      constructor
      · rintro (h | h)
        · exact h
        · have := marks_ge pick fs _ j h
          omega
      · exact .inl
    have hpl : pl [] c i (callTree cc ex (f :: fs))
        = ⟨i, [c], .group (callNodes cc ex f) .apiCall⟩ :: (pl [c] 0 (i + 1) (callNodes cc ex f)
          ++ ⟨i + (callNodes cc ex f).length + 1, [c + 1], .deco ['\n']⟩
            :: pl [] (c + 2) (i + (callNodes cc ex f).length + 2) (callTree cc ex fs)) := by
      rw [callTree, List.flatMap_cons]
      change pl [] c i (.group (callNodes cc ex f) .apiCall :: .deco ['\n'] :: callTree cc ex fs) = _
      rw [pl_cons, pl_cons]
      simp only [below, nodeSize, hsz, List.nil_append]
      rw [show i + (1 + (callNodes cc ex f).length) = i + (callNodes cc ex f).length + 1 by omega]
    rw [hpl, List.flatMap_cons]
    have hg : P i = false := by
      rw [← Bool.not_eq_true, hoff i (by omega) (by omega)]
      split
      · simp
      · simp; omega
    have hnl : P (i + (callNodes cc ex f).length + 1) = false := by
      have hpick := hp f (by simp)
      rw [← Bool.not_eq_true, hoff _ (by omega) (by omega)]
      split
      · simp
      · rename_i a b hab
        rw [hab] at hpick
        obtain ⟨A, B, C, h1, h2, h3, -⟩ := hpick
        have := congrArg List.length h1
        simp only [List.length_append, List.length_cons] at this
        simp only [List.mem_cons, List.not_mem_nil, or_false]
        omega
    have hpick := hp f (by simp)
    cases hab : pick f with
    | none =>
      rw [hab] at hpick
      rw [hpick]
      have hno : ∀ x ∈ pl [c] 0 (i + 1) (callNodes cc ex f), P x.idx = false := by
        intro x hx
        have := pl_range _ _ _ _ x hx
        rw [hsz] at this
        rw [← Bool.not_eq_true, hoff _ (by omega) (by omega), hab]
        simp
      have := Blocks.plain (x := ⟨i, [c], .group (callNodes cc ex f) .apiCall⟩) hg
        (blocks_plain _ hno (Blocks.plain (x := ⟨i + (callNodes cc ex f).length + 1, [c + 1], .deco ['\n']⟩) hnl hrest))
      rw [flat_texts hfl] at this
      simpa [flagged, Placed.text] using this
    | some ab =>
      obtain ⟨a, b⟩ := ab
      rw [hab] at hpick
      obtain ⟨A, B, C, h1, h2, h3, ⟨n, hn, hne⟩, h4⟩ := hpick
      rw [h4]
      have hlen := congrArg List.length h1
      simp only [List.length_append, List.length_cons] at hlen
      rw [h1] at hfl
      have hfA : Flat A := fun n hn => hfl n (by simp [hn])
      have hfB : Flat B := fun n hn => hfl n (by simp [hn])
      have hfC : Flat C := fun n hn => hfl n (by simp [hn])
      have hin : ∀ j, i ≤ j → j < i + (callNodes cc ex f).length + 2 → (P j = true ↔ j = i + 1 + a ∨ j = i + 1 + b) := by
        intro j h5 h6
        rw [hoff j h5 h6, hab]
        simp
      have hrange : ∀ {ns : List (Node CallType)} {c' k : Nat}, Flat ns → i ≤ k →
          k + ns.length ≤ i + (callNodes cc ex f).length + 2 → (k + ns.length ≤ i + 1 + a ∨ i + 1 + a < k) →
          (k + ns.length ≤ i + 1 + b ∨ i + 1 + b < k) → ∀ x ∈ pl [c] c' k ns, P x.idx = false := by
        intro ns c' k hns h5 h6 h7 h8 x hx
        have := pl_range _ _ _ _ x hx
        rw [flat_size hns] at this
        rw [← Bool.not_eq_true, hin _ (by omega) (by omega)]
        omega
      have hsplit : pl [c] 0 (i + 1) (callNodes cc ex f) = pl [c] 0 (i + 1) A ++
          ⟨i + 1 + A.length, [c] ++ [A.length], .rstart⟩ :: (pl [c] (A.length + 1) (i + 1 + A.length + 1) B ++
          ⟨i + 1 + A.length + 1 + B.length, [c] ++ [A.length + 1 + B.length], .rend⟩
            :: pl [c] (A.length + 1 + B.length + 1) (i + 1 + A.length + 1 + B.length + 1) C) := by
        rw [h1, pl_append, pl_cons, pl_append, pl_cons, flat_size hfA, flat_size hfB]
        simp only [below, nodeSize, List.nil_append, Nat.zero_add]
      rw [hsplit, List.append_assoc, List.cons_append, List.append_assoc, List.cons_append]
      have hC := blocks_plain (pl [c] (A.length + 1 + B.length + 1) (i + 1 + A.length + 1 + B.length + 1) C)
        (hrange hfC (by omega) (by omega) (by omega) (by omega))
        (Blocks.plain (x := ⟨i + (callNodes cc ex f).length + 1, [c + 1], .deco ['\n']⟩) hnl hrest)
      have hR := Blocks.region (P := P) (s := ⟨i + 1 + A.length, [c] ++ [A.length], .rstart⟩)
        (B := pl [c] (A.length + 1) (i + 1 + A.length + 1) B)
        (e := ⟨i + 1 + A.length + 1 + B.length, [c] ++ [A.length + 1 + B.length], .rend⟩) rfl
        (by rw [hin _ (by simp; omega) (by simp; omega)]; left; simp; omega)
        (hrange hfB (by omega) (by omega) (by omega) (by omega))
        (by
          have ht := flat_texts hfB [c] (A.length + 1) (i + 1 + A.length + 1)
          obtain ⟨t, ht'⟩ := Option.ne_none_iff_exists'.mp hne
          have hm : t ∈ B.filterMap ownText := List.mem_filterMap.mpr ⟨n, hn, ht'⟩
          rw [← ht, List.mem_filterMap] at hm
          obtain ⟨x, hx, hx'⟩ := hm
          exact ⟨x, hx, by rw [hx']; simp⟩)
        rfl (by rw [hin _ (by simp; omega) (by simp; omega)]; right; simp; omega)
        (by simp) hC
      have hA := blocks_plain (pl [c] 0 (i + 1) A) (hrange hfA (by omega) (by omega) (by omega) (by omega)) hR
      have hG := Blocks.plain (x := ⟨i, [c], .group (callNodes cc ex f) .apiCall⟩) hg hA
      rw [flat_texts hfA, flat_texts hfB, flat_texts hfC] at hG
      simpa [flagged, Placed.text] using hG

theorem callTree_noExit : ∀ (fs : List FoundCall), ∀ x ∈ placed (callTree cc ex fs), x.node ≠ .exit := by
  have flatNo : ∀ {ns : List (Node CallType)} (_ : Flat ns) (_ : .exit ∉ ns) (pp : List Nat) (c i : Nat),
      ∀ x ∈ pl pp c i ns, x.node ≠ .exit := by
    intro ns
    induction ns with
    | nil => intro _ _ pp c i x hx; simp [pl_nil] at hx
    | cons n ns ih =>
      intro hf he pp c i x hx
      have hb : below (pp ++ [c]) (i + 1) n = [] := by
        have := hf n (by simp)
        cases n with
        | group cs mt => exact absurd rfl (this cs mt)
        | _ => rfl
      rw [pl_cons, hb, List.nil_append, List.mem_cons] at hx
      rcases hx with rfl | hx
      · rintro rfl
        simp at he
      · exact ih (fun m hm => hf m (by simp [hm])) (fun h => he (by simp [h])) _ _ _ x hx
  have key : ∀ (fs : List FoundCall) (c i : Nat), ∀ x ∈ pl [] c i (callTree cc ex fs), x.node ≠ .exit := by
    intro fs
    induction fs with
    | nil => intro c i x hx; simp [callTree, pl_nil] at hx
    | cons f fs ih =>
      intro c i x hx
      change x ∈ pl [] c i (.group (callNodes cc ex f) .apiCall :: .deco ['\n'] :: callTree cc ex fs) at hx
      rw [pl_cons, pl_cons] at hx
      simp only [below, List.nil_append, List.mem_cons, List.mem_append] at hx
      rcases hx with rfl | hx | rfl | hx
      · simp
      · refine flatNo (callNodes_flat cc ex f) ?_ _ _ _ x hx
        unfold callNodes
        simp only [List.mem_cons, List.mem_append, List.mem_flatMap, List.not_mem_nil, or_false, not_or, reduceCtorEq,
          not_false_eq_true, and_true, true_and, not_exists, not_and]
        intro n _ hn
        unfold callPart at hn
        split at hn <;> [split at hn; split at hn; skip] <;> simp at hn
      · simp
      · exact ih _ _ x hx
  intro fs x hx
  rw [placed_eq] at hx
  exact key fs 0 0 x hx

theorem marks_lt {pick : FoundCall → Option (Nat × Nat)} {sh : FoundCall → List MarkedToken} :
    ∀ (fs : List FoundCall) (i : Nat), (∀ f ∈ fs, Picked cc ex f (pick f) (sh f)) → ∀ j ∈ marks cc ex pick i fs,
    j < i + seqSize (callTree cc ex fs)
  | [], _, _, j, hj => by simp [marks] at hj
  | f :: fs, i, hp, j, hj => by
    change j < i + seqSize (.group (callNodes cc ex f) .apiCall :: .deco ['\n'] :: callTree cc ex fs)
    simp only [seqSize, nodeSize, flat_size (callNodes_flat cc ex f)]
    rw [marks, List.mem_append] at hj
    rcases hj with hj | hj
    · have hpick := hp f (by simp)
      split at hj
      · simp at hj
      · rename_i a b hab
        rw [hab] at hpick
        obtain ⟨A, B, C, h1, h2, h3, -⟩ := hpick
        have := congrArg List.length h1
        simp only [List.length_append, List.length_cons] at this
        simp only [List.mem_cons, List.not_mem_nil, or_false] at hj
        omega
    · have := marks_lt fs _ (fun g hg => hp g (by simp [hg])) j hj
      omega

theorem placed_length {M : Type} (proto : List (Node M)) : (placed proto).length = seqSize proto := by
  rw [placed_eq, pl]
  simp [walkFrom_length]

/-- A choice of regions for the calls gives decisions that determine what is shown. -/
theorem suggestion_determines {fs : List FoundCall} {indices : List Int} {pick : FoundCall → Option (Nat × Nat)}
    {sh : FoundCall → List MarkedToken} (hp : ∀ f ∈ fs, Picked cc ex f (pick f) (sh f))
    (hi : Adds [] indices (marks cc ex pick 0 fs)) :
    ∃ d, makeSuggestion (pack (callTree cc ex fs)) indices = .ok d ∧ Determines (callTree cc ex fs) d (fs.flatMap sh) := by
  have hb : Blocks (fun n => decide (n ∈ marks cc ex pick 0 fs)) (placed (callTree cc ex fs)) (fs.flatMap sh) := by
    rw [placed_eq]
    exact blocks_tree fs 0 0 hp (fun j _ => by simp)
  refine blocks_determine hb (callTree_noExit fs) ?_ ?_
  · intro n
    rw [hi]
    simp
  · intro j hj
    rw [hi] at hj
    rcases hj with hj | ⟨n, hn, rfl⟩
    · simp at hj
    · have hlt := marks_lt fs 0 hp n hn
      rw [Nat.zero_add, ← placed_length] at hlt
      refine ⟨(placed (callTree cc ex fs))[n], List.getElem_mem hlt, ?_⟩
      have : placed (callTree cc ex fs) = (placed (callTree cc ex fs)).take n
          ++ (placed (callTree cc ex fs))[n] :: (placed (callTree cc ex fs)).drop (n + 1) := by
        rw [← List.drop_eq_getElem_cons hlt, List.take_append_drop]
      rw [placed_idx this, List.length_take, Nat.min_eq_left (by omega)]

theorem picked_full (f : FoundCall) : Picked cc ex f (pickFull cc ex f) f.showFull := by
  refine ⟨[], f.name.flatMap (callPart cc ex)
    ++ [.tok ['('] .startCall, .rend, .tok (text [f.args]) (if text [f.args] = [] then .emptyArgs else .args),
        .tok [')'] .endCall], [], ?_, rfl, ?_, ⟨.tok ['('] .startCall, by simp, by simp [ownText]⟩, ?_⟩
  · simp [callNodes]
  · simp [callNodes_length]; omega
  · rw [List.filterMap_append, callPart_texts]
    simp [FoundCall.showFull, flagged, ownText, List.filterMap_cons]

theorem picked_shorter {f : FoundCall} (hw : ∀ t, .deco t ∈ f.name → IsWhite cc t) :
    Picked cc ex f (pickShorter cc ex f) f.showShorter := by
  obtain ⟨h1, -⟩ := headNodes_eq cc ex hw
  refine ⟨headNodes cc ex f, f.part.flatMap (callPart cc ex) ++ [.tok ['('] .startCall],
    [.tok (text [f.args]) (if text [f.args] = [] then .emptyArgs else .args), .tok [')'] .endCall, .rend], ?_, rfl, ?_,
    ⟨.tok ['('] .startCall, by simp, by simp [ownText]⟩, ?_⟩
  · unfold callNodes
    rw [← List.cons_append, h1]
    simp
  · have := congrArg List.length h1
    simp only [List.length_cons, List.length_append] at this
    simp only [callNodes_length, List.length_append, List.length_cons, List.length_nil]
    omega
  · have hh : (headNodes cc ex f).filterMap ownText = nodeTexts f.before := by
      have h2 : (Node.rstart :: f.before.flatMap (callPart cc ex)) = headNodes cc ex f ++ [.rstart] := by
        have : Node.rstart :: (f.before ++ f.part).flatMap (callPart cc ex)
            = headNodes cc ex f ++ .rstart :: f.part.flatMap (callPart cc ex) := by rw [before_part]; exact h1
        rw [List.flatMap_append, ← List.cons_append,
          show headNodes cc ex f ++ .rstart :: f.part.flatMap (callPart cc ex)
            = (headNodes cc ex f ++ [.rstart]) ++ f.part.flatMap (callPart cc ex) by simp] at this
        exact List.append_cancel_right this
      have h3 := congrArg (List.filterMap ownText) h2
      rw [List.filterMap_cons, List.filterMap_append, callPart_texts] at h3
      simpa [ownText, List.filterMap_cons] using h3.symm
    rw [List.filterMap_append, callPart_texts, hh]
    simp [FoundCall.showShorter, flagged, ownText, List.filterMap_cons]

theorem picked_novel {f : FoundCall} (hw : ∀ t, .deco t ∈ f.name → IsWhite cc t) :
    Picked cc ex f (pickNovel cc ex f) (if f.isNovel ex then f.showShorter else f.showNone) := by
  unfold pickNovel
  by_cases h : f.isNovel ex = true
  · rw [if_pos h, if_pos h]
    exact picked_shorter hw
  · rw [if_neg h, if_neg h]
    simp only [Picked, FoundCall.showNone]
    congr 1
    unfold callNodes
    rw [List.filterMap_cons, List.filterMap_append, callPart_texts]
    simp [ownText, List.filterMap_cons]

/-- All baselines are found. -/
theorem callBaselines_ok {fs : List FoundCall} (hw : WhiteNames cc fs) :
    ∃ b, callBaselines (pack (callTree cc ex fs)) = .ok b
      ∧ Determines (callTree cc ex fs) b.full (fs.flatMap FoundCall.showFull)
      ∧ Determines (callTree cc ex fs) b.shorter (fs.flatMap FoundCall.showShorter)
      ∧ Determines (callTree cc ex fs) b.novel
        (fs.flatMap fun f => if f.isNovel ex then f.showShorter else f.showNone) := by
  obtain ⟨m, hm, h1, h2, h3⟩ := callMarkersLoop_eq (ex := ex) hw (located_pack _) ⟨[], [], []⟩
  obtain ⟨d1, e1, g1⟩ := suggestion_determines (fun f _ => picked_full f) h1
  obtain ⟨d2, e2, g2⟩ := suggestion_determines (fun f hf => picked_shorter (hw f hf)) h2
  obtain ⟨d3, e3, g3⟩ := suggestion_determines (fun f hf => picked_novel (hw f hf)) h3
  refine ⟨⟨d1, d2, d3⟩, ?_, g1, g2, g3⟩
  unfold callBaselines
  rw [hm, ok_bind_eq, e1, ok_bind_eq, e2, ok_bind_eq, e3, ok_bind_eq]
  rfl

end

end RUSure.Lemmas
