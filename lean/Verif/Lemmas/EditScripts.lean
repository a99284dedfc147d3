import Verif.Lemmas.EditTopo
import Verif.Lemmas.Transforms
import Verif.Lemmas.Placement

/-!
# Facts about edit scripts
-/

set_option linter.unusedSimpArgs false
set_option linter.unusedSectionVars false

namespace RUSure.Lemmas
open RUSure RUSure.Spec
variable {M : Type} {prm : Params}

/-! ### The edges once more -/

section
variable [DecidableEq M] {A B : TreeTable M}

theorem editEdges_local (prm : Params) (proto target : List (Node M)) :
    ∀ e ∈ editEdges prm proto target,
      e ∈ editOut prm (treeTable proto) (treeTable target) e.source := by
  have hA := treeTable_fits proto
  have hB := treeTable_fits target
  have hl : ((treeTable proto).path none).length = ((treeTable target).path none).length := by
    simp [treeTable_path]
  have hend := fits_end hA
  have hend' := fits_end hB
  rw [Nat.zero_add] at hend hend'
  intro e he
  rcases List.mem_append.mp he with he | he
  · exact matchEdges_local proto none 0 0 none 0 target hA hB hl e he
  · rw [List.mem_singleton] at he
    subst he
    show _ ∈ editOut prm _ _ (.at .matching .high none proto.length none target.length)
    simp [editOut, hend, hend', insertOut, matchOut, treeTable_parent, endOut]

/-- Costs are finite, and edges that show nothing cost nothing. -/
def Fair (e : EditEdge) : Prop := e.cost < ⊤ ∧ (e.req = none → e.info = none → e.cost = 0)

theorem fair_silent (s t : EditState) : Fair (silentEdge s t) :=
  ⟨WithTop.coe_lt_top (0 : ℚ), fun _ _ => rfl⟩

theorem advanceOut_fair {al allow c q p t u} {x : Option (Nat × Node M)} {e}
    (h : e ∈ advanceOut prm al allow c q p t u x) : Fair e := by
  match x, c, h with
  | some (i, .deco _), _, h => 
    simp [advanceOut] at h; rw [h]; exact ⟨WithTop.coe_lt_top (0 : ℚ), by simp⟩
  | some (i, .tok _ _), c, h =>
    cases allow <;> simp [advanceOut] at h
    rw [h]
    cases c <;> exact ⟨WithTop.coe_lt_top _, by simp⟩
  | some (i, .group _ _), _, h =>
    cases allow <;> simp [advanceOut] at h
    rw [h]; exact ⟨WithTop.coe_lt_top (0 : ℚ), by simp⟩
  | some (i, .rstart), .high, h =>
    simp [advanceOut] at h
    rcases h with rfl | rfl
    · exact ⟨WithTop.coe_lt_top (0 : ℚ), by simp⟩
    · exact ⟨WithTop.coe_lt_top _, by simp⟩
  | some (i, .rstart), .low, h =>
    simp [advanceOut] at h; rw [h]; exact ⟨WithTop.coe_lt_top (0 : ℚ), by simp⟩
  | some (i, .rend), .low, h =>
    simp [advanceOut] at h
    rcases h with rfl | rfl <;> exact ⟨WithTop.coe_lt_top (0 : ℚ), by simp⟩
  | some (i, .rend), .high, h =>
    simp [advanceOut] at h; rw [h]; exact ⟨WithTop.coe_lt_top (0 : ℚ), by simp⟩
  | some (i, .exit), _, h =>
    simp [advanceOut] at h
    rcases h with rfl | rfl <;> exact ⟨WithTop.coe_lt_top (0 : ℚ), by simp⟩

theorem insertOut_fair {al allow c q p t u} {x : Option (Nat × Node M)} {e}
    (h : e ∈ insertOut prm al allow c q p t u x) : Fair e := by
  match x, h with
  | some (i, .deco _), h =>
    simp [insertOut] at h; rw [h]; exact ⟨WithTop.coe_lt_top (0 : ℚ), by simp⟩
  | some (i, .tok _ _), h =>
    cases allow <;> simp [insertOut] at h
    rw [h]; exact ⟨WithTop.coe_lt_top _, by simp⟩
  | some (i, .group _ _), h =>
    cases allow <;> simp [insertOut] at h
    rw [h]; exact fair_silent _ _

theorem matchOut_fair {c q p t u} {x y : Option (Nat × Node M)} {e}
    (h : e ∈ matchOut prm c q p t u x y) : Fair e := by
  unfold matchOut at h
  split at h
  · split at h <;> simp at h
    rw [h]
    cases c <;> exact ⟨WithTop.coe_lt_top _, by simp⟩
  · split at h <;> simp at h
    rw [h]; exact ⟨WithTop.coe_lt_top (0 : ℚ), by simp⟩
  · simp at h

theorem endOut_fair {c q p t u x y e} (h : e ∈ endOut c q p t u x y) : Fair e := by
  unfold endOut at h
  split at h
  · simp at h; rw [h]; exact fair_silent _ _
  · split at h <;> simp at h; rw [h]; exact fair_silent _ _
  · simp at h

theorem editOut_fair {s e} (h : e ∈ editOut prm A B s) : Fair e := by
  match s with
  | .final => simp [editOut] at h
  | .at .process c q p t u =>
    simp only [editOut, List.mem_append, List.mem_cons, List.not_mem_nil, or_false] at h
    rcases h with h | rfl | rfl
    · exact advanceOut_fair h
    · cases c <;> exact ⟨WithTop.coe_lt_top _, by simp⟩
    · exact fair_silent _ _
  | .at .mayDelete c q p t u =>
    simp only [editOut, List.mem_append, List.mem_cons, List.not_mem_nil, or_false] at h
    rcases h with h | rfl
    · exact advanceOut_fair h
    · exact fair_silent _ _
  | .at .mayInsert c q p t u =>
    simp only [editOut, List.mem_append, List.mem_cons, List.not_mem_nil, or_false] at h
    rcases h with h | rfl
    · exact insertOut_fair h
    · exact fair_silent _ _
  | .at .matching c q p t u =>
    simp only [editOut, List.mem_append] at h
    rcases h with (h | h) | h
    · exact insertOut_fair h
    · exact matchOut_fair h
    · split at h
      · exact endOut_fair h
      · simp at h
  | .at .recDelete c q p t u =>
    simp only [editOut] at h
    split at h
    · exact advanceOut_fair h
    · split at h <;> simp at h; rw [h]; exact fair_silent _ _
  | .at .recInsert c q p t u =>
    simp only [editOut] at h
    split at h
    · exact insertOut_fair h
    · split at h <;> simp at h; rw [h]; exact fair_silent _ _

theorem editEdges_fair (prm : Params) (proto target : List (Node M)) :
    ∀ e ∈ editEdges prm proto target, Fair e :=
  fun e he => editOut_fair (editEdges_local prm proto target e he)

end

/-! ### Scripts of paths -/

/-- The edits of a script. -/
def edits (ss : List EditStep) : List EditInfo := ss.filterMap EditStep.edit

/-- The decisions of a script. -/
def decs (ss : List EditStep) : List Decision := ss.filterMap EditStep.decision

@[simp] theorem edits_append (a b : List EditStep) : edits (a ++ b) = edits a ++ edits b :=
  List.filterMap_append ..

@[simp] theorem decs_append (a b : List EditStep) : decs (a ++ b) = decs a ++ decs b :=
  List.filterMap_append ..

theorem edits_cons (s : EditStep) (ss : List EditStep) :
    edits (s :: ss) = s.edit.toList ++ edits ss := by
  cases h : s.edit <;> simp [edits, h]

theorem decs_cons (s : EditStep) (ss : List EditStep) :
    decs (s :: ss) = s.decision.toList ++ decs ss := by
  cases h : s.decision <;> simp [decs, h]

theorem script_edits (p : List EditEdge) : editsOf p = edits (scriptOf p) := by
  induction p with
  | nil => rfl
  | cons e p ih =>
    rw [show scriptOf (e :: p) = editLabel e ++ scriptOf p from rfl, edits_append, ← ih]
    unfold editLabel editsOf
    split
    · next h => simp [h.2, edits]
    · cases h : e.info <;> simp [edits, h]

theorem script_decs (p : List EditEdge) : decisionsOf p = decs (scriptOf p) := by
  induction p with
  | nil => rfl
  | cons e p ih =>
    rw [show scriptOf (e :: p) = editLabel e ++ scriptOf p from rfl, decs_append, ← ih]
    unfold editLabel decisionsOf
    split
    · next h => simp [h.1, decs]
    · cases h : e.req <;> simp [decs, h]

theorem script_cost (p : List EditEdge) (h : ∀ e ∈ p, Fair e) :
    weight Edge.cost p = ((scriptOf p).map EditStep.cost).sum := by
  induction p with
  | nil => rfl
  | cons e p ih =>
    rw [show scriptOf (e :: p) = editLabel e ++ scriptOf p from rfl, List.map_append, List.sum_append,
      ← ih fun e he => h e (by simp [he])]
    unfold weight
    rw [List.map_cons, List.sum_cons]
    congr 1
    unfold editLabel
    split
    · next h' => rw [(h e (by simp)).2 h'.1 h'.2]; simp
    · simp

/-! ### Prefixes -/

/-- `l` is all of `X`, or a prefix of it if there was an exit. -/
def Upto {α : Type} (r : Option Conf) (l X : List α) : Prop := if r = none then l <+: X else l = X

theorem Upto.prefix {α : Type} {r : Option Conf} {l X : List α} (h : Upto r l X) : l <+: X := by
  unfold Upto at h
  split at h
  · exact h
  · rw [h]; exact List.prefix_refl _

theorem upto_rfl {α : Type} {r : Option Conf} {l : List α} : Upto r l l := by
  unfold Upto; split
  · exact List.prefix_refl _
  · rfl

theorem upto_nil {α : Type} {X : List α} : Upto none [] X := by simp [Upto]

theorem Upto.app {α : Type} {r : Option Conf} {a l X : List α} (h : Upto r l X) :
    Upto r (a ++ l) (a ++ X) := by
  unfold Upto at *
  split
  · next hr => rw [if_pos hr] at h; exact (List.prefix_append_right_inj a).mpr h
  · next hr => rw [if_neg hr] at h; rw [h]

theorem Upto.app' {α : Type} {r : Option Conf} {c : Conf} {l l' X X' : List α}
    (h : Upto (some c) l X) (h' : Upto r l' X') : Upto r (l ++ l') (X ++ X') := by
  have : l = X := by simpa [Upto] using h
  subst this
  exact h'.app

theorem Upto.ext {α : Type} {l X Y : List α} (h : Upto none l X) : Upto none l (X ++ Y) := by
  simp only [Upto, if_true] at h ⊢
  exact h.trans (List.prefix_append _ _)

theorem Upto.some {α : Type} {c : Conf} {l X : List α} (h : Upto (some c) l X) : l = X := by
  simpa [Upto] using h

/-! ### What is reported about tokens -/

/-- Prototype tokens that a script keeps or deletes. -/
def usedP (ss : List EditStep) : List Nat := (edits ss).filterMap EditInfo.usesProto
/-- Target tokens that a script keeps or inserts. -/
def usedT (ss : List EditStep) : List Nat := (edits ss).filterMap EditInfo.usesTarget
/-- Pairs of tokens that a script keeps. -/
def keptBy (ss : List EditStep) : List (Nat × Nat) := (edits ss).filterMap EditInfo.keptPair

@[simp] theorem usedP_nil : usedP [] = [] := rfl
@[simp] theorem usedT_nil : usedT [] = [] := rfl
@[simp] theorem kept_nil : keptBy [] = [] := rfl
@[simp] theorem decs_nil : decs [] = [] := rfl
@[simp] theorem usedP_append (a b : List EditStep) : usedP (a ++ b) = usedP a ++ usedP b := by
  simp [usedP]
@[simp] theorem usedT_append (a b : List EditStep) : usedT (a ++ b) = usedT a ++ usedT b := by
  simp [usedT]
@[simp] theorem kept_append (a b : List EditStep) : keptBy (a ++ b) = keptBy a ++ keptBy b := by
  simp [keptBy]

/-- What a single step reports. -/
structure Shows (s : EditStep) (d : List Decision) (p t : List Nat) (k : List (Nat × Nat)) : Prop where
  decs : ∀ ss, decs (s :: ss) = d ++ decs ss
  usedP : ∀ ss, usedP (s :: ss) = p ++ usedP ss
  usedT : ∀ ss, usedT (s :: ss) = t ++ usedT ss
  keptBy : ∀ ss, keptBy (s :: ss) = k ++ keptBy ss

theorem shows_pass {c i} {n : Node M} {s c'} (h : Pass prm c i n s c') :
    Shows s s.decision.toList [] [] [] := by
  cases h <;> constructor <;> intro ss <;> rfl

theorem shows_keep {c i j len} : Shows (keepStep prm c i j len) [seenAt i c] [i] [j] [(i, j)] := by
  constructor <;> intro ss <;> rfl

theorem shows_delete {c i len} : Shows (deleteStep prm c i len) [seenAt i c] [i] [] [] := by
  constructor <;> intro ss <;> rfl

theorem shows_insert {j len} : Shows (insertStep prm j len) [] [] [j] [] := by
  constructor <;> intro ss <;> rfl

theorem shows_targetDeco {c j} : Shows (targetDecoStep c j) [] [] [] [] := by
  constructor <;> intro ss <;> rfl

theorem shows_enter {c i} : Shows (enterStep c i) [seenAt i c] [] [] [] := by
  constructor <;> intro ss <;> rfl

theorem shows_start {c} : Shows (startEditStep prm c) [] [] [] [] := by
  constructor <;> intro ss <;> rfl

theorem shows_exit {c i} : Shows (exitStep c i) [(⟨i, .exit⟩, .yes)] [] [] [] := by
  constructor <;> intro ss <;> rfl

theorem tokens_pass {c i} {n : Node M} {s c'} (h : Pass prm c i n s c') (ns : List (Node M)) :
    tokens i (n :: ns) = tokens (i + 1) ns := by
  cases h <;> simp [tokens]

/-- The indices of the tokens. -/
def idx (i : Nat) (ns : List (Node M)) : List Nat := (tokens i ns).map Prod.fst

theorem idx_pass {c i} {n : Node M} {s c'} (h : Pass prm c i n s c') (ns : List (Node M)) :
    idx i (n :: ns) = idx (i + 1) ns := by rw [idx, tokens_pass h, idx]

theorem idx_tok {i t} {mt : M} {ns : List (Node M)} : idx i (.tok t mt :: ns) = i :: idx (i + 1) ns := by
  simp [idx, tokens]

theorem idx_group {i} {cs : List (Node M)} {mt : M} {ns : List (Node M)} :
    idx i (.group cs mt :: ns) = idx (i + 1) cs ++ idx (i + 1 + seqSize cs) ns := by
  simp [idx, tokens]

theorem idx_exit {i} {ns : List (Node M)} : idx i (.exit :: ns) = idx (i + 1) ns := by
  simp [idx, tokens]
theorem idx_deco {i t} {ns : List (Node M)} : idx i (.deco t :: ns) = idx (i + 1) ns := by
  simp [idx, tokens]
@[simp] theorem idx_nil {i} : idx i ([] : List (Node M)) = [] := by
  simp [idx, tokens]

/-- Deleting uses up the prototype tokens and nothing else. -/
theorem deletes_used {c i} {ns : List (Node M)} {ss r} (h : Deletes prm c i ns ss r) :
    Upto r (usedP ss) (idx i ns) ∧ usedT ss = [] ∧ keptBy ss = [] := by
  induction h with
  | nil c i => rw [idx_nil]; exact ⟨upto_rfl, rfl, rfl⟩
  | pass hp _ ih =>
    rw [(shows_pass hp).usedP, (shows_pass hp).usedT, (shows_pass hp).keptBy, idx_pass hp]
    exact ih
  | exit c i ns =>
    rw [shows_exit.usedP, shows_exit.usedT, shows_exit.keptBy]
    exact ⟨upto_nil, rfl, rfl⟩
  | tok _ ih =>
    rw [shows_delete.usedP, shows_delete.usedT, shows_delete.keptBy, idx_tok]
    exact ⟨ih.1.app (a := [_]), ih.2⟩
  | group _ _ ih ih' =>
    rw [List.cons_append, shows_enter.usedP, shows_enter.usedT, shows_enter.keptBy, idx_group,
      usedP_append, usedT_append, kept_append, ih.2.1, ih.2.2, ih'.2.1, ih'.2.2]
    exact ⟨ih.1.app' ih'.1, rfl, rfl⟩
  | groupExit _ ih =>
    rw [shows_enter.usedP, shows_enter.usedT, shows_enter.keptBy, idx_group]
    exact ⟨ih.1.ext, ih.2⟩

/-- Inserting uses up the target tokens and nothing else, and decides nothing. -/
theorem inserts_used {c j} {ms : List (Node M)} {ss} (h : Inserts prm c j ms ss) :
    usedT ss = idx j ms ∧ usedP ss = [] ∧ keptBy ss = [] ∧ decs ss = [] := by
  induction h with
  | nil j => rw [idx_nil]; exact ⟨rfl, rfl, rfl, rfl⟩
  | deco _ ih =>
    rw [shows_targetDeco.usedP, shows_targetDeco.usedT, shows_targetDeco.keptBy, shows_targetDeco.decs,
      idx_deco]
    exact ih
  | tok _ ih =>
    rw [shows_insert.usedP, shows_insert.usedT, shows_insert.keptBy, shows_insert.decs, idx_tok, ih.1]
    exact ⟨rfl, ih.2⟩
  | group _ _ ih ih' =>
    rw [idx_group, usedP_append, usedT_append, kept_append, decs_append, ih.1, ih'.1]
    obtain ⟨-, a, b, c⟩ := ih
    obtain ⟨-, a', b', c'⟩ := ih'
    rw [a, b, c, a', b', c']
    exact ⟨rfl, rfl, rfl, rfl⟩

/-- A script uses up the tokens of both sides, unless it exits. -/
theorem edits_used {ph c i} {ns : List (Node M)} {j} {ms : List (Node M)} {ss r}
    (h : Edits prm ph c i ns j ms ss r) :
    Upto r (usedP ss) (idx i ns) ∧ Upto r (usedT ss) (idx j ms) := by
  induction h with
  | pass _ hp _ ih =>
    rw [(shows_pass hp).usedP, (shows_pass hp).usedT, idx_pass hp]
    exact ih
  | exit =>
    rw [shows_exit.usedP, shows_exit.usedT]
    exact ⟨upto_nil, upto_nil⟩
  | startEditing _ ih =>
    rw [shows_start.usedP, shows_start.usedT]
    exact ih
  | noEditing _ ih => exact ih
  | delete _ ih =>
    rw [shows_delete.usedP, shows_delete.usedT, idx_tok]
    exact ⟨ih.1.app (a := [_]), ih.2⟩
  | deleteGroup hd _ ih =>
    obtain ⟨h1, h2, -⟩ := deletes_used hd
    rw [List.cons_append, shows_enter.usedP, shows_enter.usedT, idx_group, usedP_append, usedT_append,
      h2]
    exact ⟨h1.app' ih.1, ih.2⟩
  | deleteGroupExit hd =>
    obtain ⟨h1, h2, -⟩ := deletes_used hd
    rw [shows_enter.usedP, shows_enter.usedT, idx_group, h2]
    exact ⟨h1.ext, upto_nil⟩
  | stopDeleting _ ih => exact ih
  | targetDeco _ _ ih =>
    rw [shows_targetDeco.usedP, shows_targetDeco.usedT, idx_deco]
    exact ih
  | insert _ ih =>
    rw [shows_insert.usedP, shows_insert.usedT, idx_tok]
    exact ⟨ih.1, ih.2.app (a := [_])⟩
  | insertGroup hi _ ih =>
    obtain ⟨h1, h2, -⟩ := inserts_used hi
    rw [usedP_append, usedT_append, idx_group, h1, h2]
    exact ⟨ih.1, ih.2.app⟩
  | stopInserting _ ih => exact ih
  | keep _ ih =>
    rw [shows_keep.usedP, shows_keep.usedT, idx_tok, idx_tok]
    exact ⟨ih.1.app (a := [_]), ih.2.app (a := [_])⟩
  | matchGroup _ _ ih ih' =>
    rw [List.cons_append, shows_enter.usedP, shows_enter.usedT, usedP_append, usedT_append, idx_group,
      idx_group]
    exact ⟨ih.1.app' ih'.1, ih.2.app' ih'.2⟩
  | matchGroupExit _ ih =>
    rw [shows_enter.usedP, shows_enter.usedT, idx_group, idx_group]
    exact ⟨ih.1.ext, ih.2.ext⟩
  | done => rw [idx_nil, idx_nil]; exact ⟨upto_rfl, upto_rfl⟩

/-! ### Keys -/

/-- The keys decided by a script. -/
def keysOf (ss : List EditStep) : List DecisionKey := (decs ss).map Prod.fst

theorem keysOf_append (a b : List EditStep) : keysOf (a ++ b) = keysOf a ++ keysOf b := by
  simp [keysOf]

theorem keysOf_cons {s d p t k} (h : Shows s d p t k) (ss : List EditStep) :
    keysOf (s :: ss) = d.map Prod.fst ++ keysOf ss := by
  simp [keysOf, h.decs]

theorem seqKeys_pass {c i} {n : Node M} {s c'} (h : Pass prm c i n s c') (ns : List (Node M)) :
    seqKeys i (n :: ns) = s.decision.toList.map Prod.fst ++ seqKeys (i + 1) ns := by
  cases h <;> simp [seqKeys, nodeKeys, nodeSize]

theorem seqKeys_tok {i t} {mt : M} {ns : List (Node M)} :
    seqKeys i (.tok t mt :: ns) = [⟨i, .inRegion⟩] ++ seqKeys (i + 1) ns := by
  simp [seqKeys, nodeKeys, nodeSize]

theorem seqKeys_exit {i} {ns : List (Node M)} :
    seqKeys i (.exit :: ns) = [⟨i, .exit⟩] ++ seqKeys (i + 1) ns := by
  simp [seqKeys, nodeKeys, nodeSize]

theorem seqKeys_group {i} {cs : List (Node M)} {mt : M} {ns : List (Node M)} :
    seqKeys i (.group cs mt :: ns) =
      [⟨i, .inRegion⟩] ++ (seqKeys (i + 1) cs ++ seqKeys (i + 1 + seqSize cs) ns) := by
  simp [seqKeys, nodeKeys, nodeSize, Nat.add_assoc]

theorem deletes_keys {c i} {ns : List (Node M)} {ss r} (h : Deletes prm c i ns ss r) :
    Upto r (keysOf ss) (seqKeys i ns) := by
  induction h with
  | nil c i => exact upto_rfl
  | pass hp _ ih =>
    rw [keysOf_cons (shows_pass hp), seqKeys_pass hp]
    exact ih.app
  | exit c i ns =>
    rw [keysOf_cons shows_exit, seqKeys_exit]
    exact upto_nil.app
  | tok _ ih =>
    rw [keysOf_cons shows_delete, seqKeys_tok]
    exact ih.app
  | group _ _ ih ih' =>
    rw [List.cons_append, keysOf_cons shows_enter, seqKeys_group, keysOf_append]
    exact (ih.app' ih').app
  | groupExit _ ih =>
    rw [keysOf_cons shows_enter, seqKeys_group]
    exact ih.ext.app

theorem edits_keys {ph c i} {ns : List (Node M)} {j} {ms : List (Node M)} {ss r}
    (h : Edits prm ph c i ns j ms ss r) : Upto r (keysOf ss) (seqKeys i ns) := by
  induction h with
  | pass _ hp _ ih =>
    rw [keysOf_cons (shows_pass hp), seqKeys_pass hp]
    exact ih.app
  | exit =>
    rw [keysOf_cons shows_exit, seqKeys_exit]
    exact upto_nil.app
  | startEditing _ ih =>
    rw [keysOf_cons shows_start]
    exact ih
  | noEditing _ ih => exact ih
  | delete _ ih =>
    rw [keysOf_cons shows_delete, seqKeys_tok]
    exact ih.app
  | deleteGroup hd _ ih =>
    rw [List.cons_append, keysOf_cons shows_enter, seqKeys_group, keysOf_append]
    exact ((deletes_keys hd).app' ih).app
  | deleteGroupExit hd =>
    rw [keysOf_cons shows_enter, seqKeys_group]
    exact (deletes_keys hd).ext.app
  | stopDeleting _ ih => exact ih
  | targetDeco _ _ ih =>
    rw [keysOf_cons shows_targetDeco]
    exact ih
  | insert _ ih =>
    rw [keysOf_cons shows_insert]
    exact ih
  | insertGroup hi _ ih =>
    rw [keysOf_append, show keysOf _ = [] from by rw [keysOf, (inserts_used hi).2.2.2]; rfl]
    exact ih
  | stopInserting _ ih => exact ih
  | keep _ ih =>
    rw [keysOf_cons shows_keep, seqKeys_tok]
    exact ih.app
  | matchGroup _ _ ih ih' =>
    rw [List.cons_append, keysOf_cons shows_enter, seqKeys_group, keysOf_append]
    exact (ih.app' ih').app
  | matchGroupExit _ ih =>
    rw [keysOf_cons shows_enter, seqKeys_group]
    exact ih.ext.app
  | done => exact upto_rfl

end RUSure.Lemmas
