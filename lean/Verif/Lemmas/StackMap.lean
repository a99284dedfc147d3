import Verif.Model.Desugar
import Mathlib.Data.List.Basic
import Mathlib.Logic.Function.Basic

/-!
# Parsing does not depend on how tokens are represented
-/

namespace RUSure.Lemmas
open RUSure
variable {T U : Type} [DecidableEq T] [DecidableEq U] {f : T → U}

/-- Both tokens of a pair. -/
def both (f : T → U) (p : T × T) : U × U := (f p.1, f p.2)

section
variable (hf : Function.Injective f)
include hf

theorem isOpener_both (pairs : List (T × T)) (t : T) :
    isOpener (pairs.map (both f)) (f t) = isOpener pairs t := by
  unfold isOpener
  induction pairs with
  | nil => rfl
  | cons p ps ih =>
    simp only [List.map_cons, List.contains_cons, both]
    rw [show (f t == f p.1) = (t == p.1) by
      rw [Bool.eq_iff_iff, beq_iff_eq, beq_iff_eq]; exact hf.eq_iff]
    rw [List.map_map] at ih ⊢
    rw [← ih]

theorem find_both (g : T × T → T) (g' : U × U → U) (hg : ∀ p, g' (both f p) = f (g p)) (t : T) :
    ∀ pairs : List (T × T), (pairs.map (both f)).find? (fun p => g' p == f t)
      = (pairs.find? fun p => g p == t).map (both f)
  | [] => rfl
  | p :: ps => by
    rw [List.map_cons, List.find?_cons, List.find?_cons, hg,
      show (f (g p) == f t) = (g p == t) by
        rw [Bool.eq_iff_iff, beq_iff_eq, beq_iff_eq]; exact hf.eq_iff, find_both g g' hg t ps]
    cases g p == t <;> rfl

theorem openerOf_both (pairs : List (T × T)) (t : T) :
    openerOf (pairs.map (both f)) (f t) = (openerOf pairs t).map f := by
  unfold openerOf
  rw [← List.map_reverse, find_both hf Prod.snd Prod.snd (fun _ => rfl)]
  cases List.find? (fun p => p.2 == t) pairs.reverse <;> rfl

theorem closerOf_both (pairs : List (T × T)) (t : T) :
    closerOf (pairs.map (both f)) (f t) = (closerOf pairs t).map f := by
  unfold closerOf
  rw [← List.map_reverse, find_both hf Prod.fst Prod.fst (fun _ => rfl)]
  cases List.find? (fun p => p.1 == t) pairs.reverse <;> rfl

/-- The state of the matcher with other tokens. -/
def mapState (f : T → U) (st : MatchState T) : MatchState U :=
  ⟨st.stack.map fun g => ⟨f g.opener, g.lo, g.before⟩, st.children⟩

theorem matchStep_map (pairs : List (T × T)) (tol : Bool) (i : Nat) (t : T) (st : MatchState T) :
    matchStep (pairs.map (both f)) tol i (f t) (mapState f st)
      = (matchStep pairs tol i t st).map (mapState f) := by
  unfold matchStep
  rw [isOpener_both hf, openerOf_both hf]
  obtain ⟨stack, cs⟩ := st
  split
  · rfl
  · cases ho : openerOf pairs t with
    | none => simp [mapState, Except.map]
    | some o =>
      cases stack with
      | nil => rfl
      | cons g gs =>
        simp only [mapState, List.map_cons, Option.map_some, hf.eq_iff]
        split
        · rfl
        · split <;> rfl

theorem matchLoop_map (pairs : List (T × T)) (tol : Bool) : ∀ (ts : List T) (i : Nat) (st : MatchState T),
    matchLoop (pairs.map (both f)) tol i (ts.map f) (mapState f st)
      = (matchLoop pairs tol i ts st).map (mapState f)
  | [], _, _ => rfl
  | t :: ts, i, st => by
    rw [List.map_cons, matchLoop, matchLoop, matchStep_map hf]
    cases matchStep pairs tol i t st with
    | error e => rfl
    | ok st' => exact matchLoop_map pairs tol ts (i + 1) st'

omit [DecidableEq T] [DecidableEq U] hf in
theorem closeUp_map : ∀ (st : List (OpenGroup T)) (cs : List PNode),
    closeUp (st.map fun g => (⟨f g.opener, g.lo, g.before⟩ : OpenGroup U)) cs = closeUp st cs
  | [], _ => rfl
  | g :: gs, cs => by
    rw [List.map_cons, closeUp, closeUp, closeUp_map gs]

theorem bracketMatch_map (pairs : List (T × T)) (tol : Bool) (ts : List T) :
    bracketMatch (pairs.map (both f)) tol (ts.map f) = bracketMatch pairs tol ts := by
  unfold bracketMatch
  rw [show (⟨[], []⟩ : MatchState U) = mapState f ⟨[], []⟩ from rfl, matchLoop_map hf]
  cases matchLoop pairs tol 0 ts ⟨[], []⟩ with
  | error e => rfl
  | ok st =>
    simp only [Except.map, mapState, closeUp_map, List.length_map, ne_eq, List.map_eq_nil_iff]

theorem correctStep_map (pairs : List (T × T)) (t : T) (st : List T × List T) :
    correctStep (pairs.map (both f)) (f t) (st.1.map f, st.2.map f)
      = ((correctStep pairs t st).1.map f, (correctStep pairs t st).2.map f) := by
  unfold correctStep
  rw [isOpener_both hf, openerOf_both hf]
  obtain ⟨s, p⟩ := st
  split
  · rfl
  · cases ho : openerOf pairs t with
    | none => rfl
    | some o =>
      cases s with
      | nil => rfl
      | cons o' os =>
        simp only [List.map_cons, Option.map_some, hf.eq_iff]
        split <;> rfl

theorem correctLoop_map (pairs : List (T × T)) : ∀ (ts : List T) (st : List T × List T),
    correctLoop (pairs.map (both f)) (ts.map f) (st.1.map f, st.2.map f)
      = ((correctLoop pairs ts st).1.map f, (correctLoop pairs ts st).2.map f)
  | [], _ => rfl
  | t :: ts, st => by
    rw [List.map_cons, correctLoop, correctLoop, correctStep_map hf, correctLoop_map pairs ts]

theorem correction_map (pairs : List (T × T)) (ts : List T) :
    correction (pairs.map (both f)) (ts.map f)
      = ((correction pairs ts).1.map f, (correction pairs ts).2.map f) := by
  unfold correction
  have := correctLoop_map hf pairs ts ([], [])
  rw [List.map_nil] at this
  rw [this]
  simp only [List.filterMap_map]
  rw [List.map_filterMap]
  congr 2
  funext t
  exact closerOf_both hf pairs t

omit [DecidableEq T] [DecidableEq U] hf in
theorem tokenAt_map (ts : List T) (i : Nat) : tokenAt (ts.map f) i = (tokenAt ts i).map f := by
  unfold tokenAt
  rw [List.getElem?_map]
  cases ts[i]? <;> rfl

omit [DecidableEq T] [DecidableEq U] hf in
theorem tokenBefore_map (ts : List T) (hi : Option Nat) :
    tokenBefore (ts.map f) hi = (tokenBefore ts hi).map f := by
  unfold tokenBefore
  cases hi with
  | none => rfl
  | some i =>
    cases i with
    | zero =>
      rw [List.getLast?_map]
      cases ts.getLast? <;> rfl
    | succ i => exact tokenAt_map ts i

omit [DecidableEq T] [DecidableEq U] hf in
theorem pairTokens_map (ts : List T) (cs : List PNode) :
    pairTokens (ts.map f) cs = (pairTokens ts cs).map (both f) := by
  unfold pairTokens
  split
  · rw [tokenAt_map, tokenBefore_map]
    rename_i a m b
    cases tokenAt ts a.lo with
    | error e => rfl
    | ok l =>
      cases tokenBefore ts b.hi with
      | error e => rfl
      | ok r => rfl
  · rfl

theorem unsplittable_map (ts : List T) (pairs : List (T × T)) (cs : List PNode) :
    unsplittable (ts.map f) (pairs.map (both f)) cs = unsplittable ts pairs cs := by
  unfold unsplittable
  split
  · rw [tokenAt_map, tokenBefore_map]
    rename_i a m b
    cases tokenAt ts a.lo with
    | error e => rfl
    | ok l =>
      simp only [Except.map, bind, Except.bind]
      rw [find_both hf Prod.fst Prod.fst (fun _ => rfl)]
      cases pairs.find? fun p => p.1 == l with
      | none => rfl
      | some p =>
        simp only [Option.map_some]
        cases tokenBefore ts b.hi with
        | error e => rfl
        | ok r =>
          simp only [both]
          rw [show (f r == f p.2) = (r == p.2) by
            rw [Bool.eq_iff_iff, beq_iff_eq, beq_iff_eq]; exact hf.eq_iff]
  · rfl

theorem contains_map (l : List T) (t : T) : (l.map f).contains (f t) = l.contains t := by
  rw [Bool.eq_iff_iff, List.contains_iff_mem, List.contains_iff_mem]
  exact List.mem_map_of_injective hf

theorem isSplitter_map (ts sp : List T) (c : PNode) :
    isSplitter (ts.map f) (sp.map f) c = isSplitter ts sp c := by
  unfold isSplitter
  rw [tokenAt_map]
  cases c.len with
  | error e => rfl
  | ok n =>
    simp only [bind, Except.bind]
    split
    · cases tokenAt ts c.lo with
      | error e => rfl
      | ok t =>
        simp only [Except.map, contains_map hf]
    · rfl

mutual
theorem splitWith_map (ts sp : List T) (un : List (T × T)) : ∀ n : PNode,
    n.splitWith (ts.map f) (sp.map f) (un.map (both f)) = n.splitWith ts sp un
  | .mk lo hi ann cs => by
    have ih := splitList_map ts sp un cs
    unfold PNode.splitWith
    rw [unsplittable_map hf, ih]
    have : isSplitter (ts.map f) (sp.map f) = isSplitter ts sp := funext fun c => isSplitter_map hf ts sp c
    rw [this]

theorem splitList_map (ts sp : List T) (un : List (T × T)) : ∀ cs : List PNode,
    PNode.splitList (ts.map f) (sp.map f) (un.map (both f)) cs = PNode.splitList ts sp un cs
  | [] => rfl
  | c :: cs => by
    have ih1 := splitWith_map ts sp un c
    have ih2 := splitList_map ts sp un cs
    unfold PNode.splitList
    rw [ih1, ih2]
end

omit [DecidableEq T] [DecidableEq U] in
theorem both_inj {p q : T × T} : both f p = both f q ↔ p = q := by
  unfold both
  rw [Prod.mk.injEq, hf.eq_iff, hf.eq_iff, Prod.ext_iff]

theorem subHits_map (ts : List T) (sub : T × T) : ∀ cs : List PNode,
    subHits (ts.map f) (both f sub) cs = subHits ts sub cs
  | [] => rfl
  | p :: ps => by
    rw [subHits, subHits, subHits_map ts sub ps, pairTokens_map]
    cases subHits ts sub ps with
    | error e => rfl
    | ok n =>
      simp only [bind, Except.bind]
      split
      · cases pairTokens ts p.children with
        | error e => rfl
        | ok q => simp only [Except.map, both_inj hf]
      · rfl

mutual
theorem subMatch_map (ts : List T) (sub : T × T) : ∀ n : PNode,
    n.subMatch (ts.map f) (both f sub) = n.subMatch ts sub
  | .mk lo hi ann cs => by
    have ih := subMatchList_map ts sub cs
    unfold PNode.subMatch
    rw [pairTokens_map, ih]
    have : (fun c : PNode => subHits (ts.map f) (both f sub) c.children)
        = fun c : PNode => subHits ts sub c.children := funext fun c => subHits_map hf ts sub c.children
    rw [this]
    cases pairTokens ts cs <;> rfl

theorem subMatchList_map (ts : List T) (sub : T × T) : ∀ cs : List PNode,
    PNode.subMatchList (ts.map f) (both f sub) cs = PNode.subMatchList ts sub cs
  | [] => rfl
  | c :: cs => by
    have ih1 := subMatch_map ts sub c
    have ih2 := subMatchList_map ts sub cs
    unfold PNode.subMatchList
    rw [ih1, ih2]
end

theorem splitParse_map (root : PNode) (ts sp : List T) (un : List (T × T)) (sub : Option (T × T)) :
    splitParse root (ts.map f) (sp.map f) (un.map (both f)) (sub.map (both f))
      = splitParse root ts sp un sub := by
  unfold splitParse
  rw [splitWith_map hf]
  cases sub with
  | none =>
    rw [show (List.map f sp).isEmpty = sp.isEmpty by cases sp <;> rfl]
    rfl
  | some p =>
    rw [show (List.map f sp).isEmpty = sp.isEmpty by cases sp <;> rfl]
    simp only [Option.map_some, subMatch_map hf]

theorem lineSlices_map (enc : List T) (nl : T) : ∀ (cs : List PNode) (first : Option PNode),
    lineSlices (enc.map f) (f nl) cs first = lineSlices enc nl cs first
  | [], none => rfl
  | [], some _ => rfl
  | c :: cs, first => by
    rw [lineSlices, lineSlices, tokenBefore_map, lineSlices_map enc nl cs none]
    cases firstOfLine first c with
    | error e => rfl
    | ok g =>
      cases tokenBefore enc c.hi with
      | error e => rfl
      | ok t =>
        simp only [Except.map, bind, Except.bind, hf.eq_iff]
        rw [lineSlices_map enc nl cs (some g)]

theorem changeDepth_map (ind ded nl : T) (cur depth : Nat) (out : List T) :
    changeDepth (f ind) (f ded) (f nl) cur depth (out.map f)
      = (changeDepth ind ded nl cur depth out).map (List.map f) := by
  unfold changeDepth
  split
  · simp [Except.map]
  · split
    · rw [List.getLast?_map]
      cases out.getLast? with
      | none => rfl
      | some p =>
        simp only [Option.map_some, hf.eq_iff]
        split
        · simp [Except.map, List.map_dropLast]
        · rfl
    · rfl

theorem desugarLoop_map (cc : CharClass) (tokens : List Text) (enc : List T) (ind ded nl : T) (spaces : Nat) :
    ∀ (ss : List (Nat × Nat)) (cur : Nat) (out : List T),
      desugarLoop cc tokens (enc.map f) (f ind) (f ded) (f nl) spaces ss cur (out.map f)
        = (desugarLoop cc tokens enc ind ded nl spaces ss cur out).map (List.map f)
  | [], cur, out => changeDepth_map hf ind ded nl cur 0 out
  | s :: ss, cur, out => by
    rw [desugarLoop, desugarLoop]
    cases lineIndent cc spaces (sliceOf tokens s).flatten with
    | error e => rfl
    | ok d =>
      simp only [bind, Except.bind]
      rw [changeDepth_map hf]
      cases changeDepth ind ded nl cur (d.getD cur) out with
      | error e => rfl
      | ok out' =>
        simp only [Except.map]
        rw [show sliceOf (enc.map f) s = (sliceOf enc s).map f by
          simp [sliceOf, List.map_drop, List.map_take], ← List.map_append]
        exact desugarLoop_map cc tokens enc ind ded nl spaces ss _ _

theorem desugar_map (cc : CharClass) (root : PNode) (tokens : List Text) (enc : List T)
    (ind ded nl : T) (spaces : Nat) :
    desugar cc root tokens (enc.map f) (f ind) (f ded) (f nl) spaces
      = (desugar cc root tokens enc ind ded nl spaces).map (List.map f) := by
  unfold desugar
  rw [lineSlices_map hf]
  cases lineSlices enc nl root.children none with
  | error e => rfl
  | ok ss => exact desugarLoop_map hf cc tokens enc ind ded nl spaces ss 0 []

end

end RUSure.Lemmas
