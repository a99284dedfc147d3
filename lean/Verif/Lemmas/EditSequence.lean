import Verif.Lemmas.EditScripts
import Verif.Lemmas.EditAlign
import Verif.Lemmas.EditReads
import Verif.Lemmas.ConstraintFlat
import Verif.Lemmas.TokenProbAlign
import Verif.Spec.EditSequence
import Verif.Props.Edit

/-!
# Showing edit sequences
-/

set_option linter.unusedSimpArgs false
set_option linter.unusedSectionVars false

namespace RUSure.Lemmas
open RUSure RUSure.Spec
variable {M : Type} {prm : Params}

/-! ## Nodes in document order -/

theorem walk_nodes :
    (∀ (n : Node M) (p q : List Nat),
      (walkNode true false p n).map Prod.fst = (walkNode true false q n).map Prod.fst)
    ∧ (∀ (ns : List (Node M)) (p q : List Nat) (i j : Nat),
      (walkFrom true false p i ns).map Prod.fst = (walkFrom true false q j ns).map Prod.fst) := by
  apply Node.induct
  case hdeco => intros; simp [walkNode]
  case htok => intros; simp [walkNode]
  case hs => intros; simp [walkNode]
  case he => intros; simp [walkNode]
  case hx => intros; simp [walkNode]
  case hg => intro cs mt ih p q; simp [walkNode]; exact ih _ _ _ _
  case hnil => intros; simp [walkFrom]
  case hcons =>
    intro n ns h1 h2 p q i j
    simp only [walkFrom, List.map_append]
    rw [h1 _ (q ++ [j]), h2 _ q _ (j + 1)]

/-- What is in a node. -/
def nodesIn : Node M → List (Node M)
  | .group cs _ => cs
  | _ => []

theorem docNodes_nil : docNodes ([] : List (Node M)) = [] := rfl

theorem docNodes_cons (n : Node M) (ns : List (Node M)) :
    docNodes (n :: ns) = n :: (docNodes (nodesIn n) ++ docNodes ns) := by
  have h : docNodes (n :: ns) = (walkNode true false [0] n).map Prod.fst ++ docNodes ns := by
    show ((walkFrom true false [] 0 (n :: ns)).map Prod.fst) = _
    simp only [walkFrom, List.map_append]
    congr 1
    exact walk_nodes.2 ns _ _ _ _
  rw [h]
  cases n with
  | group cs mt =>
    simp [walkNode, nodesIn]
    exact walk_nodes.2 cs _ _ _ _
  | _ => simp [walkNode, nodesIn, docNodes_nil]

theorem docNodes_length (ns : List (Node M)) : (docNodes ns).length = seqSize ns := by
  simp [docNodes, walkWithPaths, walkFrom_length]

/-- The nodes `ns` are in the sequence from index `i` on. -/
def PlacedAt (seq : List (Node M)) (i : Nat) (ns : List (Node M)) : Prop :=
  ∀ k n, (docNodes ns)[k]? = some n → (docNodes seq)[i + k]? = some n

theorem placedAt_all (seq : List (Node M)) : PlacedAt seq 0 seq := by
  intro k n h
  simpa using h

theorem PlacedAt.head {seq : List (Node M)} {i n ns} (h : PlacedAt seq i (n :: ns)) :
    (docNodes seq)[i]? = some n := by
  have := h 0 n (by simp [docNodes_cons])
  simpa using this

theorem PlacedAt.leaf {seq : List (Node M)} {i n ns} (h : PlacedAt seq i (n :: ns)) (hn : nodesIn n = []) :
    PlacedAt seq (i + 1) ns := by
  intro k m hk
  have := h (k + 1) m (by rw [docNodes_cons, hn]; simpa [docNodes_nil] using hk)
  rwa [show i + 1 + k = i + (k + 1) by omega]

theorem PlacedAt.children {seq : List (Node M)} {i cs mt ns} (h : PlacedAt seq i (.group cs mt :: ns)) :
    PlacedAt seq (i + 1) cs := by
  intro k m hk
  have hlt : k < (docNodes cs).length := by
    by_contra hc
    rw [List.getElem?_eq_none (by omega)] at hk
    cases hk
  have := h (k + 1) m (by
    rw [docNodes_cons]
    simp only [List.getElem?_cons_succ, nodesIn]
    rw [List.getElem?_append_left hlt]; exact hk)
  rwa [show i + 1 + k = i + (k + 1) by omega]

theorem PlacedAt.rest {seq : List (Node M)} {i cs mt ns} (h : PlacedAt seq i (.group cs mt :: ns)) :
    PlacedAt seq (i + 1 + seqSize cs) ns := by
  intro k m hk
  have := h (k + seqSize cs + 1) m (by
    rw [docNodes_cons]
    simp only [List.getElem?_cons_succ, nodesIn]
    rw [List.getElem?_append_right (by rw [docNodes_length]; omega), docNodes_length,
      show k + seqSize cs - seqSize cs = k by omega]
    exact hk)
  rwa [show i + 1 + seqSize cs + k = i + (k + seqSize cs + 1) by omega]

theorem PlacedAt.text {seq : List (Node M)} {i n ns} (h : PlacedAt seq i (n :: ns)) :
    textAt seq i = leafText n := by
  rw [textAt, h.head]

/-! ## What edits refer to -/

/-- What the indices of a step refer to, and what it costs if it is not shown. -/
inductive GoodStep (proto target : List (Node M)) : EditStep → Prop
  | none (d) : GoodStep proto target ⟨d, none, 0⟩
  | keep {i t mt j} (d c cost) : (docNodes proto)[i]? = some (.tok t mt) → (docNodes target)[j]? = some (.tok t mt) →
      GoodStep proto target ⟨d, some ⟨some i, some j, .keep, some c⟩, cost⟩
  | delete {i t mt} (d c cost) : (docNodes proto)[i]? = some (.tok t mt) →
      GoodStep proto target ⟨d, some ⟨some i, none, .delete, some c⟩, cost⟩
  | insert {j t mt} (d cost) : (docNodes target)[j]? = some (.tok t mt) →
      GoodStep proto target ⟨d, some ⟨none, some j, .insert, none⟩, cost⟩
  | protoDeco {i t} (d c) : (docNodes proto)[i]? = some (.deco t) →
      GoodStep proto target ⟨d, some ⟨some i, none, .protoDeco, some c⟩, 0⟩
  | targetDeco {j t} (d c) : (docNodes target)[j]? = some (.deco t) →
      GoodStep proto target ⟨d, some ⟨none, some j, .targetDeco, some c⟩, 0⟩
  | startLow {i} (d cost) : (docNodes proto)[i]? = some .rstart →
      GoodStep proto target ⟨d, some ⟨some i, none, .startLow, none⟩, cost⟩
  | startEditing (d c cost) : GoodStep proto target ⟨d, some ⟨none, none, .startEditing, some c⟩, cost⟩
  | earlyExit {i} (d c) : (docNodes proto)[i]? = some .exit →
      GoodStep proto target ⟨d, some ⟨some i, none, .earlyExit, some c⟩, 0⟩

theorem pass_nodesIn {c i} {n : Node M} {s c'} (h : Pass prm c i n s c') : nodesIn n = [] := by
  cases h <;> rfl

theorem pass_good {proto target : List (Node M)} {c i} {n : Node M} {s c'} (h : Pass prm c i n s c')
    (hi : (docNodes proto)[i]? = some n) : GoodStep proto target s := by
  cases h
  case deco => exact .protoDeco _ _ hi
  case start => exact .startLow _ _ hi
  all_goals exact .none _

theorem deletes_good {proto target : List (Node M)} {c i} {ns : List (Node M)} {ss r}
    (h : Deletes prm c i ns ss r) (hi : PlacedAt proto i ns) : ∀ s ∈ ss, GoodStep proto target s := by
  induction h with
  | nil c i => simp
  | pass hp _ ih =>
    exact List.forall_mem_cons.2 ⟨pass_good hp hi.head, ih (hi.leaf (pass_nodesIn hp))⟩
  | exit c i ns => exact List.forall_mem_singleton.2 (.earlyExit _ _ hi.head)
  | tok _ ih => exact List.forall_mem_cons.2 ⟨.delete _ _ _ hi.head, ih (hi.leaf rfl)⟩
  | group _ _ ih ih' =>
    exact List.forall_mem_cons.2 ⟨.none _, List.forall_mem_append.2 ⟨ih hi.children, ih' hi.rest⟩⟩
  | groupExit _ ih => exact List.forall_mem_cons.2 ⟨.none _, ih hi.children⟩

theorem inserts_good {proto target : List (Node M)} {c j} {ms : List (Node M)} {ss}
    (h : Inserts prm c j ms ss) (hj : PlacedAt target j ms) : ∀ s ∈ ss, GoodStep proto target s := by
  induction h with
  | nil j => simp
  | deco _ ih => exact List.forall_mem_cons.2 ⟨.targetDeco _ _ hj.head, ih (hj.leaf rfl)⟩
  | tok _ ih => exact List.forall_mem_cons.2 ⟨.insert _ _ hj.head, ih (hj.leaf rfl)⟩
  | group _ _ ih ih' => exact List.forall_mem_append.2 ⟨ih hj.children, ih' hj.rest⟩

theorem edits_good {proto target : List (Node M)} {ph c i} {ns : List (Node M)} {j} {ms : List (Node M)}
    {ss r} (h : Edits prm ph c i ns j ms ss r) (hi : PlacedAt proto i ns) (hj : PlacedAt target j ms) :
    ∀ s ∈ ss, GoodStep proto target s := by
  induction h with
  | pass _ hp _ ih =>
    exact List.forall_mem_cons.2 ⟨pass_good hp hi.head, ih (hi.leaf (pass_nodesIn hp)) hj⟩
  | exit => exact List.forall_mem_singleton.2 (.earlyExit _ _ hi.head)
  | startEditing _ ih => exact List.forall_mem_cons.2 ⟨.startEditing _ _ _, ih hi hj⟩
  | noEditing _ ih => exact ih hi hj
  | delete _ ih => exact List.forall_mem_cons.2 ⟨.delete _ _ _ hi.head, ih (hi.leaf rfl) hj⟩
  | deleteGroup hd _ ih =>
    exact List.forall_mem_cons.2 ⟨.none _,
      List.forall_mem_append.2 ⟨deletes_good hd hi.children, ih hi.rest hj⟩⟩
  | deleteGroupExit hd => exact List.forall_mem_cons.2 ⟨.none _, deletes_good hd hi.children⟩
  | stopDeleting _ ih => exact ih hi hj
  | targetDeco _ _ ih => exact List.forall_mem_cons.2 ⟨.targetDeco _ _ hj.head, ih hi (hj.leaf rfl)⟩
  | insert _ ih => exact List.forall_mem_cons.2 ⟨.insert _ _ hj.head, ih hi (hj.leaf rfl)⟩
  | insertGroup hd _ ih =>
    exact List.forall_mem_append.2 ⟨inserts_good hd hj.children, ih hi hj.rest⟩
  | stopInserting _ ih => exact ih hi hj
  | keep _ ih =>
    exact List.forall_mem_cons.2 ⟨.keep _ _ _ hi.head hj.head, ih (hi.leaf rfl) (hj.leaf rfl)⟩
  | matchGroup _ _ ih ih' =>
    exact List.forall_mem_cons.2 ⟨.none _,
      List.forall_mem_append.2 ⟨ih hi.children hj.children, ih' hi.rest hj.rest⟩⟩
  | matchGroupExit _ ih => exact List.forall_mem_cons.2 ⟨.none _, ih hi.children hj.children⟩
  | done => simp

/-! ## The text of the prototype -/

/-- The text an edit takes from the prototype. -/
def protoTextOf (f : Nat → Text) (x : EditInfo) : Text :=
  match x.action, x.proto with
  | .keep, some i => f i
  | .delete, some i => f i
  | .protoDeco, some i => f i
  | _, _ => []

/-- The text a script takes from the prototype. -/
def ptext (f : Nat → Text) (ss : List EditStep) : Text := (edits ss).flatMap (protoTextOf f)

/-- The exits among decisions. -/
def exitsIn (ds : List Decision) : List Nat :=
  ds.filterMap fun d => if d.1.cat = .exit ∧ d.2 = .yes then some d.1.index else none

theorem mem_exitsIn {ds : List Decision} {k : Nat} : k ∈ exitsIn ds ↔ ((⟨k, .exit⟩, .yes) : Decision) ∈ ds := by
  simp only [exitsIn, List.mem_filterMap]
  constructor
  · rintro ⟨⟨⟨i, cat⟩, v⟩, hm, h⟩
    split at h
    · next h' => obtain ⟨rfl, rfl⟩ := h'; cases h; exact hm
    · cases h
  · intro h
    exact ⟨_, h, by simp⟩

/-- Script steps that go over the prototype nodes `ns`, up to an exit. -/
structure Covers (f : Nat → Text) (r : Option Conf) (i : Nat) (ns : List (Node M)) (ss : List EditStep) : Prop where
  all : ∀ c, r = some c → ptext f ss = (docNodes ns).flatMap leafText ∧ exitsIn (decs ss) = []
  cut : r = none → ∃ k, k < (docNodes ns).length
    ∧ ptext f ss = ((docNodes ns).take k).flatMap leafText ∧ exitsIn (decs ss) = [i + k]

/-- The step takes a text from the prototype, and there is no exit. -/
def Takes (f : Nat → Text) (s : EditStep) (t : Text) : Prop :=
  (∀ ss, ptext f (s :: ss) = t ++ ptext f ss) ∧ ∀ ss, exitsIn (decs (s :: ss)) = exitsIn (decs ss)

theorem ptext_append (f : Nat → Text) (a b : List EditStep) : ptext f (a ++ b) = ptext f a ++ ptext f b := by
  simp [ptext]

theorem exits_append (a b : List Decision) : exitsIn (a ++ b) = exitsIn a ++ exitsIn b :=
  List.filterMap_append ..

theorem Covers.leaf {f : Nat → Text} {r i} {n : Node M} {ns s ss} (hn : nodesIn n = [])
    (hs : Takes f s (leafText n)) (h : Covers f r (i + 1) ns ss) : Covers f r i (n :: ns) (s :: ss) := by
  have hd : docNodes (n :: ns) = n :: docNodes ns := by rw [docNodes_cons, hn]; simp [docNodes_nil]
  constructor
  · intro c hc
    obtain ⟨h1, h2⟩ := h.all c hc
    rw [hs.1, hs.2, h1, h2, hd]
    exact ⟨by simp, rfl⟩
  · intro hr
    obtain ⟨k, hk, h1, h2⟩ := h.cut hr
    refine ⟨k + 1, by rw [hd]; simpa using hk, ?_, ?_⟩
    · rw [hs.1, h1, hd]; simp
    · rw [hs.2, h2, show i + 1 + k = i + (k + 1) by omega]

theorem Covers.skip {f : Nat → Text} {r i} {ns : List (Node M)} {s ss}
    (hs : Takes f s []) (h : Covers f r i ns ss) : Covers f r i ns (s :: ss) := by
  constructor
  · intro c hc
    rw [hs.1, hs.2]
    exact h.all c hc
  · intro hr
    rw [hs.1, hs.2]
    exact h.cut hr

theorem Covers.before {f : Nat → Text} {r i} {ns : List (Node M)} {ss ss'}
    (h1 : ptext f ss = []) (h2 : decs ss = []) (h : Covers f r i ns ss') : Covers f r i ns (ss ++ ss') := by
  constructor
  · intro c hc
    rw [ptext_append, decs_append, h1, h2]
    exact h.all c hc
  · intro hr
    rw [ptext_append, decs_append, h1, h2]
    exact h.cut hr

theorem Covers.exit {f : Nat → Text} {i c} {ns : List (Node M)} :
    Covers f none i (.exit :: ns) [exitStep c i] := by
  constructor
  · intro c h; cases h
  · intro _
    exact ⟨0, by simp [docNodes_cons], by simp [ptext, edits, exitStep, protoTextOf],
      by simp [decs, exitStep, exitsIn]⟩

theorem Covers.group {f : Nat → Text} {r i c} {cs : List (Node M)} {mt ns s ss ss'} (hs : Takes f s [])
    (h : Covers f (some c) (i + 1) cs ss) (h' : Covers f r (i + 1 + seqSize cs) ns ss') :
    Covers f r i (.group cs mt :: ns) (s :: ss ++ ss') := by
  have hd : docNodes (.group cs mt :: ns) = .group cs mt :: (docNodes cs ++ docNodes ns) := docNodes_cons _ _
  obtain ⟨h1, h2⟩ := h.all c rfl
  constructor
  · intro c' hc
    obtain ⟨h1', h2'⟩ := h'.all c' hc
    rw [List.cons_append, hs.1, hs.2, ptext_append, decs_append, exits_append, h1, h2, h1', h2', hd]
    exact ⟨by simp [leafText], rfl⟩
  · intro hr
    obtain ⟨k, hk, h1', h2'⟩ := h'.cut hr
    refine ⟨(docNodes cs).length + k + 1, by rw [hd]; simp; omega, ?_, ?_⟩
    · rw [List.cons_append, hs.1, ptext_append, h1, h1', hd, List.take_succ_cons, List.take_length_add_append]
      simp [leafText]
    · rw [List.cons_append, hs.2, decs_append, exits_append, h2, h2', docNodes_length]
      simp; omega

theorem Covers.groupExit {f : Nat → Text} {i} {cs : List (Node M)} {mt ns s ss} (hs : Takes f s [])
    (h : Covers f none (i + 1) cs ss) : Covers f none i (.group cs mt :: ns) (s :: ss) := by
  have hd : docNodes (.group cs mt :: ns) = .group cs mt :: (docNodes cs ++ docNodes ns) := docNodes_cons _ _
  constructor
  · intro c' hc; cases hc
  · intro hr
    obtain ⟨k, hk, h1', h2'⟩ := h.cut hr
    refine ⟨k + 1, by rw [hd]; simp; omega, ?_, ?_⟩
    · rw [hs.1, h1', hd, List.take_succ_cons, List.take_append_of_le_length (by omega)]
      simp [leafText]
    · rw [hs.2, h2']; simp; omega

theorem takes_enter {f : Nat → Text} {c i} : Takes f (enterStep c i) [] :=
  ⟨fun _ => rfl, fun _ => by cases c <;> rfl⟩

theorem takes_start {f : Nat → Text} {c} : Takes f (startEditStep prm c) [] := ⟨fun _ => rfl, fun _ => rfl⟩

theorem takes_insert {f : Nat → Text} {j len} : Takes f (insertStep prm j len) [] := ⟨fun _ => rfl, fun _ => rfl⟩

theorem takes_targetDeco {f : Nat → Text} {c j} : Takes f (targetDecoStep c j) [] := ⟨fun _ => rfl, fun _ => rfl⟩

theorem takes_delete {f : Nat → Text} {c i len} : Takes f (deleteStep prm c i len) (f i) :=
  ⟨fun _ => rfl, fun _ => by cases c <;> rfl⟩

theorem takes_keep {f : Nat → Text} {c i j len} : Takes f (keepStep prm c i j len) (f i) :=
  ⟨fun _ => rfl, fun _ => by cases c <;> rfl⟩

theorem takes_pass {f : Nat → Text} {c i} {n : Node M} {s c'} (h : Pass prm c i n s c')
    (hf : f i = leafText n) : Takes f s (leafText n) := by
  cases h
  case deco => rw [← hf]; exact ⟨fun _ => rfl, fun _ => rfl⟩
  all_goals exact ⟨fun _ => rfl, fun _ => rfl⟩

theorem deletes_covers {proto : List (Node M)} {c i} {ns : List (Node M)} {ss r}
    (h : Deletes prm c i ns ss r) (hi : PlacedAt proto i ns) : Covers (textAt proto) r i ns ss := by
  induction h with
  | nil c i => exact ⟨fun _ _ => ⟨rfl, rfl⟩, by simp⟩
  | pass hp _ ih =>
    exact Covers.leaf (pass_nodesIn hp) (takes_pass hp hi.text) (ih (hi.leaf (pass_nodesIn hp)))
  | exit c i ns => exact Covers.exit
  | tok _ ih =>
    refine Covers.leaf rfl ?_ (ih (hi.leaf rfl))
    rw [← hi.text]; exact takes_delete
  | group _ _ ih ih' => exact Covers.group takes_enter (ih hi.children) (ih' hi.rest)
  | groupExit _ ih => exact Covers.groupExit takes_enter (ih hi.children)

theorem inserts_ptext {f : Nat → Text} {c j} {ms : List (Node M)} {ss} (h : Inserts prm c j ms ss) :
    ptext f ss = [] := by
  induction h with
  | nil j => rfl
  | deco _ ih => rw [takes_targetDeco.1, ih]; rfl
  | tok _ ih => rw [takes_insert.1, ih]; rfl
  | group _ _ ih ih' => rw [ptext_append, ih, ih']; rfl

theorem edits_covers {proto : List (Node M)} {ph c i} {ns : List (Node M)} {j} {ms : List (Node M)}
    {ss r} (h : Edits prm ph c i ns j ms ss r) (hi : PlacedAt proto i ns) :
    Covers (textAt proto) r i ns ss := by
  induction h with
  | pass _ hp _ ih =>
    exact Covers.leaf (pass_nodesIn hp) (takes_pass hp hi.text) (ih (hi.leaf (pass_nodesIn hp)))
  | exit => exact Covers.exit
  | startEditing _ ih => exact Covers.skip takes_start (ih hi)
  | noEditing _ ih => exact ih hi
  | delete _ ih =>
    refine Covers.leaf rfl ?_ (ih (hi.leaf rfl))
    rw [← hi.text]; exact takes_delete
  | deleteGroup hd _ ih => exact Covers.group takes_enter (deletes_covers hd hi.children) (ih hi.rest)
  | deleteGroupExit hd => exact Covers.groupExit takes_enter (deletes_covers hd hi.children)
  | stopDeleting _ ih => exact ih hi
  | targetDeco _ _ ih => exact Covers.skip takes_targetDeco (ih hi)
  | insert _ ih => exact Covers.skip takes_insert (ih hi)
  | insertGroup hd _ ih => exact Covers.before (inserts_ptext hd) (inserts_used hd).2.2.2 (ih hi)
  | stopInserting _ ih => exact ih hi
  | keep _ ih =>
    refine Covers.leaf rfl ?_ (ih (hi.leaf rfl))
    rw [← hi.text]; exact takes_keep
  | matchGroup _ _ ih ih' => exact Covers.group takes_enter (ih hi.children) (ih' hi.rest)
  | matchGroupExit _ ih => exact Covers.groupExit takes_enter (ih hi.children)
  | done => exact ⟨fun _ _ => ⟨rfl, rfl⟩, by simp⟩

/-! ## The groups -/

/-- The edges of a path can be shown: `textOf` are the texts of the edits, and other edges cost
nothing. -/
def Showable (P T : Storage M) (textOf : EditInfo → Text) (p : List EditEdge) : Prop :=
  ∀ e ∈ p, (e.info = none → e.cost = 0) ∧ ∀ x, e.info = some x → editContent P T x = some (textOf x)

/-- The state of the loop: `run` is the current run and `before` are the edits so far. -/
structure RunState (s : GroupState) (run : List ShownEdit) (before : List EditInfo) : Prop where
  last : s.last = lastShown before
  empty : run = [] → s.action = none ∧ s.conf = none
  action : ∀ x ∈ run, s.action = some x.action
  conf : ∀ x ∈ run, s.conf = some x.conf
  parts : s.parts = run.map ShownEdit.text
  cost : s.cost = (run.map ShownEdit.cost).sum

theorem RunState.flush {s : GroupState} {run before} (h : RunState s run before) :
    (run = [] → s.flush = []) ∧
    (run ≠ [] → ∃ g, s.flush = [g] ∧ SumsUp run g ∧ g.action = s.action ∧ g.conf = s.conf) := by
  constructor
  · intro hr
    obtain ⟨h1, h2⟩ := h.empty hr
    have h3 := h.cost
    rw [hr] at h3
    have h3 : s.cost = 0 := h3
    simp [GroupState.flush, h1, h3]
  · intro hr
    obtain ⟨x, hx⟩ := List.exists_mem_of_ne_nil _ hr
    have h1 := h.action x hx
    refine ⟨⟨s.parts.flatten, s.action, s.conf, s.cost⟩, ?_, ⟨hr, h.action, h.conf, ?_, h.cost⟩, rfl, rfl⟩
    · simp [GroupState.flush, h1]
    · show s.parts.flatten = _
      rw [h.parts, List.flatMap_def]

/-- Adjacent groups differ. -/
def Differ (g g' : EditGroup) : Prop := g.action ≠ g'.action ∨ g.conf ≠ g'.conf

/-- What the loop yields. -/
structure Yields (s : GroupState) (run : List ShownEdit) (todo : List ShownEdit) (gs : List EditGroup) : Prop where
  runs : ∃ runs : List (List ShownEdit), runs.flatten = run ++ todo ∧ List.Forall₂ SumsUp runs gs
  chain : gs.IsChain Differ
  head : run ≠ [] → ∃ g r, gs = g :: r ∧ g.action = s.action ∧ g.conf = s.conf

theorem add_yields {s : GroupState} {run before} (h : RunState s run before) (x : EditInfo) (y : ShownEdit)
    (hl : (if some y.action ≠ none ∧ some y.action ≠ some .startLow ∧ some y.action ≠ some .startEditing then
      some y.action else s.last) = lastShown (x :: before)) :
    ∃ run', RunState (s.add y.text (some y.action) (some y.conf) y.cost).2 run' (x :: before)
      ∧ ∀ todo gs, Yields (s.add y.text (some y.action) (some y.conf) y.cost).2 run' todo gs →
        Yields s run (y :: todo) ((s.add y.text (some y.action) (some y.conf) y.cost).1 ++ gs) := by
  unfold GroupState.add
  dsimp only
  rw [hl]
  obtain ⟨hf1, hf2⟩ := h.flush
  by_cases hc : some y.action ≠ s.action ∨ some y.conf ≠ s.conf
  · rw [if_pos hc]
    refine ⟨[y], ⟨rfl, by simp, by simp, by simp, by simp, by simp⟩, ?_⟩
    intro todo gs hy
    obtain ⟨runs, hr, hs⟩ := hy.runs
    obtain ⟨g', r', rfl, ha, hc'⟩ := hy.head (by simp)
    by_cases hrun : run = []
    · subst hrun
      rw [hf1 rfl]
      exact ⟨⟨runs, by simpa using hr, hs⟩, hy.chain, by simp⟩
    · obtain ⟨g, hg, hsum, hga, hgc⟩ := hf2 hrun
      rw [hg]
      refine ⟨⟨run :: runs, by simp [hr], List.Forall₂.cons hsum hs⟩, ?_, fun _ => ⟨g, _, rfl, hga, hgc⟩⟩
      refine List.IsChain.cons_cons ?_ hy.chain
      unfold Differ
      rw [hga, hgc, ha, hc']
      exact hc.imp Ne.symm Ne.symm
  · rw [if_neg hc]
    push Not at hc
    obtain ⟨h1, h2⟩ := hc
    have hne : run ≠ [] := by
      intro hr
      have := (h.empty hr).1
      rw [← h1] at this
      cases this
    refine ⟨run ++ [y], ⟨rfl, by simp, ?_, ?_, ?_, ?_⟩, ?_⟩
    · intro z hz
      rcases List.mem_append.1 hz with hz | hz
      · exact h.action z hz
      · rw [List.mem_singleton.1 hz]; exact h1.symm
    · intro z hz
      rcases List.mem_append.1 hz with hz | hz
      · exact h.conf z hz
      · rw [List.mem_singleton.1 hz]; exact h2.symm
    · show s.parts ++ [y.text] = _
      rw [h.parts]; simp
    · show s.cost + y.cost = _
      rw [h.cost]; simp
    · intro todo gs hy
      obtain ⟨runs, hr, hs⟩ := hy.runs
      exact ⟨⟨runs, by rw [hr]; simp, hs⟩, hy.chain, fun _ => hy.head (by simp)⟩

theorem groupLoop_yields {P T : Storage M} {textOf : EditInfo → Text} :
    ∀ (p : List EditEdge) {s : GroupState} {run before}, Showable P T textOf p → RunState s run before →
      ∃ gs, groupLoop P T s p = some gs ∧ Yields s run (showEdits textOf before (costedEdits p)) gs := by
  intro p
  induction p with
  | nil =>
    intro s run before _ h
    obtain ⟨hf1, hf2⟩ := h.flush
    refine ⟨s.flush, rfl, ?_⟩
    show Yields s run [] s.flush
    by_cases hrun : run = []
    · subst hrun
      rw [hf1 rfl]
      exact ⟨⟨[], rfl, .nil⟩, .nil, by simp⟩
    · obtain ⟨g, hg, hsum, hga, hgc⟩ := hf2 hrun
      rw [hg]
      exact ⟨⟨[run], by simp, .cons hsum .nil⟩, .singleton _, fun _ => ⟨g, _, rfl, hga, hgc⟩⟩
  | cons e p ih =>
    intro s run before hp h
    obtain ⟨h0, hx⟩ := hp e (by simp)
    have hp' : Showable P T textOf p := fun e he => hp e (by simp [he])
    rw [groupLoop]
    match hi : e.info with
    | none =>
      obtain ⟨gs, hg, hy⟩ := ih hp' h
      refine ⟨gs, by simp [h0 hi, hg], ?_⟩
      have : costedEdits (e :: p) = costedEdits p := by simp [costedEdits, hi]
      rw [this]; exact hy
    | some x =>
      have hce : costedEdits (e :: p) = (x, e.cost) :: costedEdits p := by simp [costedEdits, hi]
      rw [hce]
      simp only [hx x hi]
      rw [showEdits]
      -- the general case
      have general : ∀ y : ShownEdit, s.rewrite x.action x.conf = some (y.action, y.conf) →
          y.text = textOf x → y.cost = e.cost → showEdit textOf before x e.cost = [y] →
          (if some y.action ≠ none ∧ some y.action ≠ some .startLow ∧ some y.action ≠ some .startEditing then
            some y.action else s.last) = lastShown (x :: before) →
          ∃ gs, (match s.rewrite x.action x.conf with
            | none => groupLoop P T s p
            | some (a, c) =>
              match groupLoop P T (s.add (textOf x) (some a) (some c) e.cost).2 p with
              | none => none
              | some r => some ((s.add (textOf x) (some a) (some c) e.cost).1 ++ r)) = some gs
            ∧ Yields s run (showEdit textOf before x e.cost ++ showEdits textOf (x :: before) (costedEdits p)) gs := by
        intro y h1 h2 h3 h4 h5
        obtain ⟨run', hr, hy⟩ := add_yields h x y h5
        rw [h2, h3] at hr hy
        obtain ⟨gs, hg, hy'⟩ := ih hp' hr
        rw [h1]
        simp only [hg]
        exact ⟨_, rfl, by rw [h4]; exact hy _ _ hy'⟩
      obtain ⟨xp, xt, action, conf⟩ := x
      cases action
      case protoDeco =>
        refine general ⟨_, if lastShown before = some .delete then .delete else .keep, conf, _⟩ ?_ rfl rfl rfl ?_
        · simp [GroupState.rewrite, h.last]
        · simp only [lastShown]; split <;> simp
      case targetDeco =>
        by_cases hk : lastShown before = some .keep
        · have hr : RunState s run (⟨xp, xt, .targetDeco, conf⟩ :: before) :=
            ⟨by rw [h.last]; simp [lastShown, hk], h.empty, h.action, h.conf, h.parts, h.cost⟩
          obtain ⟨gs, hg, hy⟩ := ih hp' hr
          refine ⟨gs, by simp [GroupState.rewrite, h.last, hk, hg], ?_⟩
          simpa [showEdit, hk] using hy
        · refine general ⟨_, .insert, none, _⟩ ?_ rfl rfl ?_ ?_
          · simp [GroupState.rewrite, h.last, hk]
          · simp [showEdit, hk]
          · simp [lastShown, hk]
      case startLow => exact general ⟨_, _, _, _⟩ rfl rfl rfl rfl (by simp [lastShown, h.last])
      case startEditing => exact general ⟨_, _, _, _⟩ rfl rfl rfl rfl (by simp [lastShown, h.last])
      case keep => exact general ⟨_, _, _, _⟩ rfl rfl rfl rfl (by simp [lastShown])
      case delete => exact general ⟨_, _, _, _⟩ rfl rfl rfl rfl (by simp [lastShown])
      case insert => exact general ⟨_, _, _, _⟩ rfl rfl rfl rfl (by simp [lastShown])
      case earlyExit => exact general ⟨_, _, _, _⟩ rfl rfl rfl rfl (by simp [lastShown])

theorem groupEdits_yields {P T : Storage M} {textOf : EditInfo → Text} {p : List EditEdge}
    (h : Showable P T textOf p) :
    ∃ gs, groupEdits P T p = some gs
      ∧ (∃ runs : List (List ShownEdit), runs.flatten = showEdits textOf [] (costedEdits p)
        ∧ List.Forall₂ SumsUp runs gs)
      ∧ gs.IsChain Differ := by
  obtain ⟨gs, h1, h2⟩ := groupLoop_yields p (s := {}) (run := []) (before := []) h
    ⟨rfl, fun _ => ⟨rfl, rfl⟩, by simp, by simp, rfl, rfl⟩
  exact ⟨gs, h1, by simpa using h2.runs, h2.chain⟩

/-! ## Edges of solutions -/

theorem content_leaf {seq : List (Node M)} {i : Nat} {n : Node M} (h : (docNodes seq)[i]? = some n)
    (hn : nodesIn n = []) (hg : ∀ cs mt, n ≠ .group cs mt) :
    (pack seq).preorder[i]?.bind (pack seq).renderNode = some (textAt seq i) := by
  obtain ⟨hl, hr⟩ := docNodes_ids seq
  have hi : i < (pack seq).preorder.length := by
    rw [hl]
    by_contra hc
    rw [List.getElem?_eq_none (by omega)] at h
    cases h
  obtain ⟨-, h2⟩ := hr i _ n (List.getElem?_eq_getElem hi) h
  rw [List.getElem?_eq_getElem hi, Option.bind_some, textAt, h]
  unfold Storage.renderNode
  rw [(render_represents _).1 n _ _ h2 (by cases n <;> first | (exact absurd rfl (hg _ _)) | simp [nestingN])]
  cases n <;> first | (exact absurd rfl (hg _ _)) | simp [renderText, leafText]

theorem good_content {proto target : List (Node M)} {d x cost}
    (h : GoodStep proto target ⟨d, some x, cost⟩) :
    editContent (pack proto) (pack target) x = some (editText proto target x) := by
  cases h <;> simp only [editContent, editText] <;>
    (apply content_leaf <;> first | assumption | rfl | (intro cs mt hh; cases hh))

theorem script_step {p : List EditEdge} {e : EditEdge} (he : e ∈ p) :
    (e.req = none ∧ e.info = none) ∨ ⟨e.req, e.info, e.cost⟩ ∈ scriptOf p := by
  by_cases hc : e.req = none ∧ e.info = none
  · exact .inl hc
  · refine .inr (List.mem_flatMap.2 ⟨e, he, ?_⟩)
    simp [editLabel, hc]

section
variable [DecidableEq M]

theorem solution_good {proto target : List (Node M)} {d : Dag EditState DecisionKey DecisionValue (Option EditInfo)}
    (h : constructEditDag prm proto target = .ok d) {p : List EditEdge} (hp : DagSolution d p) :
    (∀ s ∈ scriptOf p, GoodStep proto target s)
    ∧ (∀ e ∈ p, e.info = none → e.cost = 0)
    ∧ ∃ r, (r = none ↔ TakesExit (decisionsOf p)) ∧ Covers (textAt proto) r 0 proto (scriptOf p) := by
  obtain ⟨r, hr, he⟩ := (Props.C46_scripts prm proto target d h _).1 ⟨p, hp, rfl⟩
  have hgood := edits_good he (placedAt_all proto) (placedAt_all target)
  refine ⟨hgood, ?_, r, ?_, edits_covers he (placedAt_all proto)⟩
  · intro e hm hi
    rw [constructEditDag_ok, Except.ok.injEq] at h
    subst h
    rcases script_step hm with hc | hc
    · exact (editEdges_fair prm proto target e (Walk.mem hp.1 e hm)).2 hc.1 hc.2
    · have := hgood _ hc
      rw [hi] at this
      generalize hcost : e.cost = cost at this
      cases this
      rfl
  · rw [script_decs]; exact edits_exit he

theorem solution_showable {proto target : List (Node M)}
    {d : Dag EditState DecisionKey DecisionValue (Option EditInfo)}
    (h : constructEditDag prm proto target = .ok d) {p : List EditEdge} (hp : DagSolution d p) :
    Showable (pack proto) (pack target) (editText proto target) p := by
  obtain ⟨h1, h2, -⟩ := solution_good h hp
  intro e he
  refine ⟨h2 e he, fun x hx => ?_⟩
  rcases script_step he with hc | hc
  · rw [hx] at hc; cases hc.2
  · rw [hx] at hc; exact good_content (h1 _ hc)

end

end RUSure.Lemmas
