import Verif.Lemmas.EditGrammar
import Verif.Lemmas.TreeTable
import Verif.Lemmas.Reads

/-!
# The edges of the edit DAG, state by state
-/

set_option linter.unusedSimpArgs false
set_option linter.unusedSectionVars false

namespace RUSure.Lemmas
open RUSure RUSure.Spec
variable {M : Type} [DecidableEq M]

/-- Edges leaving a state that have to do with the prototype node only. -/
def advanceOut (prm : Params) (al : EditAlign) (allow : Bool) (c : Conf) (q : Option Nat) (p : Nat)
    (t : Option Nat) (u : Nat) : Option (Nat × Node M) → List EditEdge
  | none => []
  | some (i, .deco _) => [⟨.at al c q p t u, .at al c q (p + 1) t u, 0, none,
      some ⟨some i, none, .protoDeco, some c⟩⟩]
  | some (i, .tok txt _) =>
    if allow then [⟨.at al c q p t u, .at al c q (p + 1) t u,
        (match c with
          | .high => ((prm.forToken txt.length).highDelete : ℚ)
          | .low => ((prm.forToken txt.length).lowDelete : ℚ)),
        some (⟨i, .inRegion⟩, lowValue c), some ⟨some i, none, .delete, some c⟩⟩]
    else []
  | some (i, .group _ _) =>
    if allow then [⟨.at al c q p t u, .at .recDelete c (some i) 0 t u, 0,
        some (⟨i, .inRegion⟩, lowValue c), none⟩]
    else []
  | some (i, .rstart) =>
    match c with
    | .high =>
      [⟨.at al .high q p t u, .at al .high q (p + 1) t u, 0, some (⟨i, .start⟩, .no), none⟩,
      ⟨.at al .high q p t u, .at al .low q (p + 1) t u, (prm.regionCost : ℚ),
        some (⟨i, .start⟩, .yes), some ⟨some i, none, .startLow, none⟩⟩]
    | .low => [⟨.at al .low q p t u, .at al .low q (p + 1) t u, 0, some (⟨i, .start⟩, .na), none⟩]
  | some (i, .rend) =>
    match c with
    | .low =>
      [⟨.at al .low q p t u, .at al .low q (p + 1) t u, 0, some (⟨i, .stop⟩, .no), none⟩,
      ⟨.at al .low q p t u, .at al .high q (p + 1) t u, 0, some (⟨i, .stop⟩, .yes), none⟩]
    | .high =>
      [⟨.at al .high q p t u, .at al .high q (p + 1) t u, 0, some (⟨i, .stop⟩, .na), none⟩]
  | some (i, .exit) =>
      [⟨.at al c q p t u, .final, 0, some (⟨i, .exit⟩, .yes),
          some ⟨some i, none, .earlyExit, some c⟩⟩,
        ⟨.at al c q p t u, .at al c q (p + 1) t u, 0, some (⟨i, .exit⟩, .no), none⟩]

/-- Edges leaving a state that have to do with the target node only. -/
def insertOut (prm : Params) (al : EditAlign) (allow : Bool) (c : Conf) (q : Option Nat) (p : Nat)
    (t : Option Nat) (u : Nat) : Option (Nat × Node M) → List EditEdge
  | some (j, .deco _) => [⟨.at al c q p t u, .at al c q p t (u + 1), 0, none,
      some ⟨none, some j, .targetDeco, some c⟩⟩]
  | some (j, .tok txt _) =>
    if allow then [⟨.at al c q p t u, .at al c q p t (u + 1),
        ((prm.forToken txt.length).insertCost : ℚ), none, some ⟨none, some j, .insert, none⟩⟩]
    else []
  | some (j, .group _ _) =>
    if allow then [silentEdge (.at al c q p t u) (.at .recInsert c q p (some j) 0)] else []
  | _ => []

/-- Edges that keep a token or enter two groups. -/
def matchOut (prm : Params) (c : Conf) (q : Option Nat) (p : Nat) (t : Option Nat) (u : Nat) :
    Option (Nat × Node M) → Option (Nat × Node M) → List EditEdge
  | some (i, .tok txt mt), some (j, .tok txt' mt') =>
    if txt' = txt ∧ mt' = mt then
      [⟨.at .matching c q p t u, .at .process c q (p + 1) t (u + 1),
        (match c with
          | .high => (-(prm.forToken txt.length).highMatch : ℚ)
          | .low => (-(prm.forToken txt.length).lowMatch : ℚ)),
        some (⟨i, .inRegion⟩, lowValue c), some ⟨some i, some j, .keep, some c⟩⟩]
    else []
  | some (i, .group _ mt), some (j, .group _ mt') =>
    if mt' = mt then
      [⟨.at .matching c q p t u, .at .process c (some i) 0 (some j) 0, 0,
        some (⟨i, .inRegion⟩, lowValue c), none⟩]
    else []
  | _, _ => []

/-- Edges that leave two matched sequences. -/
def endOut (c : Conf) (q : Option Nat) (p : Nat) (t : Option Nat) (u : Nat) :
    Option (Option Nat × Nat) → Option (Option Nat × Nat) → List EditEdge
  | some (q', p'), some (t', u') =>
    [silentEdge (.at .matching c q p t u) (.at .process c q' (p' + 1) t' (u' + 1))]
  | none, none =>
    if c = .high then [silentEdge (.at .matching c q p t u) .final] else []
  | _, _ => []

/-- The edges leaving a state, as the trees have it. -/
def editOut (prm : Params) (A B : TreeTable M) : EditState → List EditEdge
  | .final => []
  | .at .process c q p t u =>
    advanceOut prm .process false c q p t u (A.node q p)
    ++ [⟨.at .process c q p t u, .at .mayDelete c q p t u,
        (match c with
          | .high => (prm.highStart : ℚ)
          | .low => (prm.lowStart : ℚ)),
        none, some ⟨none, none, .startEditing, some c⟩⟩,
      silentEdge (.at .process c q p t u) (.at .matching c q p t u)]
  | .at .mayDelete c q p t u =>
    advanceOut prm .mayDelete true c q p t u (A.node q p)
    ++ [silentEdge (.at .mayDelete c q p t u) (.at .mayInsert c q p t u)]
  | .at .mayInsert c q p t u =>
    insertOut prm .mayInsert true c q p t u (B.node t u)
    ++ [silentEdge (.at .mayInsert c q p t u) (.at .matching c q p t u)]
  | .at .matching c q p t u =>
    insertOut prm .matching false c q p t u (B.node t u)
    ++ matchOut prm c q p t u (A.node q p) (B.node t u)
    ++ (if A.node q p = none ∧ B.node t u = none then endOut c q p t u (A.parent q) (B.parent t)
      else [])
  | .at .recDelete c q p t u =>
    match A.node q p with
    | some x => advanceOut prm .recDelete true c q p t u (some x)
    | none =>
      match A.parent q with
      | some (q', p') => [silentEdge (.at .recDelete c q p t u)
          (.at (if (A.path q').length = (B.path t).length then .mayDelete else .recDelete)
            c q' (p' + 1) t u)]
      | none => []
  | .at .recInsert c q p t u =>
    match B.node t u with
    | some x => insertOut prm .recInsert true c q p t u (some x)
    | none =>
      match B.parent t with
      | some (t', u') => [silentEdge (.at .recInsert c q p t u)
          (.at (if (B.path t').length = (A.path q).length then .mayInsert else .recInsert)
            c q p t' (u' + 1))]
      | none => []

/-! ### Edges are where they belong -/

variable {prm : Params} {A B : TreeTable M}

omit [DecidableEq M] in
theorem fits_end : ∀ {ns : List (Node M)} {seq : Option Nat} {pos i : Nat}, Fits A seq pos i ns →
    A.node seq (pos + ns.length) = none
  | [], _, _, _, h => by simpa using fits_nil.mp h
  | n :: ns, seq, pos, i, h => by
    have := fits_end (fits_cons.mp h).2.2
    rw [List.length_cons, ← this]
    congr 1; omega

theorem advanceOut_source {al allow c q p t u} {x : Option (Nat × Node M)} {e}
    (h : e ∈ advanceOut prm al allow c q p t u x) : e.source = .at al c q p t u := by
  match x, c, h with
  | some (i, .deco _), _, h => simp [advanceOut] at h; rw [h]
  | some (i, .tok _ _), _, h => cases allow <;> simp [advanceOut] at h; rw [h]
  | some (i, .group _ _), _, h => cases allow <;> simp [advanceOut] at h; rw [h]
  | some (i, .rstart), .high, h => simp [advanceOut] at h; rcases h with rfl | rfl <;> rfl
  | some (i, .rstart), .low, h => simp [advanceOut] at h; rw [h]
  | some (i, .rend), .low, h => simp [advanceOut] at h; rcases h with rfl | rfl <;> rfl
  | some (i, .rend), .high, h => simp [advanceOut] at h; rw [h]
  | some (i, .exit), _, h => simp [advanceOut] at h; rcases h with rfl | rfl <;> rfl

theorem insertOut_source {al allow c q p t u} {x : Option (Nat × Node M)} {e}
    (h : e ∈ insertOut prm al allow c q p t u x) : e.source = .at al c q p t u := by
  match x, h with
  | some (i, .deco _), h => simp [insertOut] at h; rw [h]
  | some (i, .tok _ _), h => cases allow <;> simp [insertOut] at h; rw [h]
  | some (i, .group _ _), h => cases allow <;> simp [insertOut] at h; rw [h]; rfl

theorem matchOut_source {c q p t u} {x y : Option (Nat × Node M)} {e}
    (h : e ∈ matchOut prm c q p t u x y) : e.source = .at .matching c q p t u := by
  unfold matchOut at h
  split at h
  · split at h <;> simp at h; rw [h]
  · split at h <;> simp at h; rw [h]
  · simp at h

theorem endOut_source {c q p t u x y e} (h : e ∈ endOut c q p t u x y) :
    e.source = .at .matching c q p t u := by
  unfold endOut at h
  split at h
  · simp at h; rw [h]; rfl
  · split at h <;> simp at h; rw [h]; rfl
  · simp at h

theorem editOut_source {s e} (h : e ∈ editOut prm A B s) : e.source = s := by
  match s with
  | .final => simp [editOut] at h
  | .at .process c q p t u =>
    simp only [editOut, List.mem_append, List.mem_cons, List.not_mem_nil, or_false] at h
    rcases h with h | rfl | rfl
    · exact advanceOut_source h
    · rfl
    · rfl
  | .at .mayDelete c q p t u =>
    simp only [editOut, List.mem_append, List.mem_cons, List.not_mem_nil, or_false] at h
    rcases h with h | rfl
    · exact advanceOut_source h
    · rfl
  | .at .mayInsert c q p t u =>
    simp only [editOut, List.mem_append, List.mem_cons, List.not_mem_nil, or_false] at h
    rcases h with h | rfl
    · exact insertOut_source h
    · rfl
  | .at .matching c q p t u =>
    simp only [editOut, List.mem_append] at h
    rcases h with (h | h) | h
    · exact insertOut_source h
    · exact matchOut_source h
    · split at h
      · exact endOut_source h
      · simp at h
  | .at .recDelete c q p t u =>
    simp only [editOut] at h
    split at h
    · exact advanceOut_source h
    · split at h <;> simp at h; rw [h]; rfl
  | .at .recInsert c q p t u =>
    simp only [editOut] at h
    split at h
    · exact insertOut_source h
    · split at h <;> simp at h; rw [h]; rfl

theorem mem_bothConf {f : Conf → List EditEdge} {e} : e ∈ bothConf f ↔ ∃ c, e ∈ f c := by
  rw [bothConf, List.mem_append]
  constructor
  · rintro (h | h)
    · exact ⟨_, h⟩
    · exact ⟨_, h⟩
  · rintro ⟨c, h⟩
    cases c
    · exact .inl h
    · exact .inr h

/-- What the builder adds for one prototype node. -/
theorem mem_deleteNode {al allow q p i t u} {n : Node M} {e : EditEdge} :
    e ∈ deleteNode prm al allow q p i t u n ↔
      (∃ c, e ∈ advanceOut prm al allow c q p t u (some (i, n)))
      ∨ (allow = true ∧ ∃ cs mt, n = .group cs mt ∧ (e ∈ deleteSeq prm (some i) 0 (i + 1) t u cs
        ∨ ∃ c, e = silentEdge (.at .recDelete c (some i) cs.length t u)
          (.at al c q (p + 1) t u))) := by
  have hc : ∀ P : Conf → Prop, (∃ c, P c) ↔ P .high ∨ P .low := fun P =>
    ⟨fun ⟨c, h⟩ => by cases c; exacts [.inl h, .inr h], fun h => h.elim (⟨_, ·⟩) (⟨_, ·⟩)⟩
  cases n with
  | deco txt => simp [deleteNode, advanceOut, hc, bothConf]
  | tok txt mt => cases allow <;> simp [deleteNode, advanceOut, hc, bothConf]
  | group cs mt =>
    cases allow
    · simp [deleteNode, advanceOut]
    · simp only [deleteNode, advanceOut, if_true, List.mem_append, mem_bothConf, List.mem_singleton,
        true_and, Node.group.injEq, or_assoc]
      refine or_congr Iff.rfl ?_
      constructor
      · intro h
        exact ⟨cs, mt, ⟨rfl, rfl⟩, h⟩
      · rintro ⟨_, _, ⟨rfl, rfl⟩, h⟩
        exact h
  | rstart => simp [deleteNode, advanceOut, hc, or_assoc]
  | rend =>
    simp only [deleteNode, advanceOut, hc, List.mem_cons, List.not_mem_nil, or_false, reduceCtorEq,
      false_and, exists_false, and_false]
    tauto
  | exit => simp [deleteNode, advanceOut, hc, bothConf, or_assoc]

/-- What the builder adds for one target node. -/
theorem mem_insertNode {al allow q p t u j} {m : Node M} {e : EditEdge} :
    e ∈ insertNode prm al allow q p t u j m ↔
      (∃ c, e ∈ insertOut prm al allow c q p t u (some (j, m)))
      ∨ (allow = true ∧ ∃ cs mt, m = .group cs mt ∧ (e ∈ insertSeq prm q p (some j) 0 (j + 1) cs
        ∨ ∃ c, e = silentEdge (.at .recInsert c q p (some j) cs.length)
          (.at al c q p t (u + 1)))) := by
  cases m with
  | deco txt => simp [insertNode, insertOut, mem_bothConf]
  | tok txt mt => cases allow <;> simp [insertNode, insertOut, mem_bothConf]
  | group cs mt =>
    cases allow
    · simp [insertNode, insertOut]
    · simp only [insertNode, insertOut, if_true, List.mem_append, mem_bothConf, List.mem_singleton,
        true_and, Node.group.injEq, or_assoc]
      refine or_congr Iff.rfl ?_
      constructor
      · intro h
        exact ⟨cs, mt, ⟨rfl, rfl⟩, h⟩
      · rintro ⟨_, _, ⟨rfl, rfl⟩, h⟩
        exact h
  | rstart => simp [insertNode, insertOut]
  | rend => simp [insertNode, insertOut]
  | exit => simp [insertNode, insertOut]

/-- A state from which things are deleted, and whether it is at the level of the matching. -/
def DeleteAt (A B : TreeTable M) (al : EditAlign) (allow : Bool) (q t : Option Nat) : Prop :=
  (al = .process ∧ allow = false)
  ∨ (al = .mayDelete ∧ allow = true ∧ (A.path q).length = (B.path t).length)
  ∨ (al = .recDelete ∧ allow = true ∧ (B.path t).length < (A.path q).length)

theorem advanceOut_editOut {al allow c q p t u i} {n : Node M} {e}
    (hd : DeleteAt A B al allow q t) (hn : A.node q p = some (i, n))
    (h : e ∈ advanceOut prm al allow c q p t u (some (i, n))) :
    e ∈ editOut prm A B (.at al c q p t u) := by
  rcases hd with ⟨rfl, rfl⟩ | ⟨rfl, rfl, -⟩ | ⟨rfl, rfl, -⟩
  · simp only [editOut, hn]; exact List.mem_append_left _ h
  · simp only [editOut, hn]; exact List.mem_append_left _ h
  · simp only [editOut, hn]; exact h

theorem deleteNode_local {al allow q p i t u} {n : Node M} (hd : DeleteAt A B al allow q t)
    (hn : A.node q p = some (i, n)) (hb : FitsBelow A q p i n)
    (hrec : ∀ cs mt, n = .group cs mt → (B.path t).length < (A.path (some i)).length →
      Fits A (some i) 0 (i + 1) cs →
      ∀ e ∈ deleteSeq prm (some i) 0 (i + 1) t u cs, e ∈ editOut prm A B e.source) :
    ∀ e ∈ deleteNode prm al allow q p i t u n, e ∈ editOut prm A B e.source := by
  intro e he
  rcases mem_deleteNode.mp he with ⟨c, h⟩ | ⟨ha, cs, mt, hg, h⟩
  · rw [advanceOut_source h]
    exact advanceOut_editOut hd hn h
  · subst hg
    simp only [FitsBelow] at hb
    have hl : (B.path t).length < (A.path (some i)).length := by
      rw [hb.2.1, List.length_append]
      rcases hd with ⟨-, h⟩ | ⟨-, -, h⟩ | ⟨-, -, h⟩
      · rw [ha] at h; simp at h
      · simp; omega
      · simp; omega
    rcases h with h | ⟨c, rfl⟩
    · exact hrec cs mt rfl hl hb.2.2 e h
    · have hend := fits_end hb.2.2
      rw [Nat.zero_add] at hend
      simp only [silentEdge, editOut, hend, hb.1, List.mem_singleton]
      rcases hd with ⟨-, h⟩ | ⟨rfl, -, h⟩ | ⟨rfl, -, h⟩
      · rw [ha] at h; simp at h
      · rw [if_pos h]
      · rw [if_neg (by omega)]

theorem deleteSeq_local {t u} : ∀ (ns : List (Node M)) (q : Option Nat) (p i : Nat),
    (B.path t).length < (A.path q).length → Fits A q p i ns →
    ∀ e ∈ deleteSeq prm q p i t u ns, e ∈ editOut prm A B e.source
  | [], _, _, _, _, _, e, he => by simp [deleteSeq] at he
  | n :: ns, q, p, i, hl, hf, e, he => by
    obtain ⟨h1, h2, h3⟩ := fits_cons.mp hf
    rw [deleteSeq, List.mem_append] at he
    rcases he with he | he
    · refine deleteNode_local (.inr (.inr ⟨rfl, rfl, hl⟩)) h1 h2 ?_ e he
      cases n with
      | group cs mt =>
        rintro _ _ ⟨⟩ h4 h5
        exact deleteSeq_local cs (some i) 0 (i + 1) h4 h5
      | _ => rintro _ _ ⟨⟩
    · exact deleteSeq_local ns q (p + 1) _ hl h3 e he

/-- A state from which things are inserted, and whether it is at the level of the matching. -/
def InsertAt (A B : TreeTable M) (al : EditAlign) (allow : Bool) (q t : Option Nat) : Prop :=
  (al = .matching ∧ allow = false)
  ∨ (al = .mayInsert ∧ allow = true ∧ (B.path t).length = (A.path q).length)
  ∨ (al = .recInsert ∧ allow = true ∧ (A.path q).length < (B.path t).length)

theorem insertOut_editOut {al allow c q p t u j} {m : Node M} {e}
    (hd : InsertAt A B al allow q t) (hn : B.node t u = some (j, m))
    (h : e ∈ insertOut prm al allow c q p t u (some (j, m))) :
    e ∈ editOut prm A B (.at al c q p t u) := by
  rcases hd with ⟨rfl, rfl⟩ | ⟨rfl, rfl, -⟩ | ⟨rfl, rfl, -⟩
  · simp only [editOut, hn]; exact List.mem_append_left _ (List.mem_append_left _ h)
  · simp only [editOut, hn]; exact List.mem_append_left _ h
  · simp only [editOut, hn]; exact h

theorem insertNode_local {al allow q p t u j} {m : Node M} (hd : InsertAt A B al allow q t)
    (hn : B.node t u = some (j, m)) (hb : FitsBelow B t u j m)
    (hrec : ∀ cs mt, m = .group cs mt → (A.path q).length < (B.path (some j)).length →
      Fits B (some j) 0 (j + 1) cs →
      ∀ e ∈ insertSeq prm q p (some j) 0 (j + 1) cs, e ∈ editOut prm A B e.source) :
    ∀ e ∈ insertNode prm al allow q p t u j m, e ∈ editOut prm A B e.source := by
  intro e he
  rcases mem_insertNode.mp he with ⟨c, h⟩ | ⟨ha, cs, mt, hg, h⟩
  · rw [insertOut_source h]
    exact insertOut_editOut hd hn h
  · subst hg
    simp only [FitsBelow] at hb
    have hl : (A.path q).length < (B.path (some j)).length := by
      rw [hb.2.1, List.length_append]
      rcases hd with ⟨-, h⟩ | ⟨-, -, h⟩ | ⟨-, -, h⟩
      · rw [ha] at h; simp at h
      · simp; omega
      · simp; omega
    rcases h with h | ⟨c, rfl⟩
    · exact hrec cs mt rfl hl hb.2.2 e h
    · have hend := fits_end hb.2.2
      rw [Nat.zero_add] at hend
      simp only [silentEdge, editOut, hend, hb.1, List.mem_singleton]
      rcases hd with ⟨-, h⟩ | ⟨rfl, -, h⟩ | ⟨rfl, -, h⟩
      · rw [ha] at h; simp at h
      · rw [if_pos h]
      · rw [if_neg (by omega)]

theorem insertSeq_local {q p} : ∀ (ms : List (Node M)) (t : Option Nat) (u j : Nat),
    (A.path q).length < (B.path t).length → Fits B t u j ms →
    ∀ e ∈ insertSeq prm q p t u j ms, e ∈ editOut prm A B e.source
  | [], _, _, _, _, _, e, he => by simp [insertSeq] at he
  | m :: ms, t, u, j, hl, hf, e, he => by
    obtain ⟨h1, h2, h3⟩ := fits_cons.mp hf
    rw [insertSeq, List.mem_append] at he
    rcases he with he | he
    · refine insertNode_local (.inr (.inr ⟨rfl, rfl, hl⟩)) h1 h2 ?_ e he
      cases m with
      | group cs mt =>
        rintro _ _ ⟨⟩ h4 h5
        exact insertSeq_local cs (some j) 0 (j + 1) h4 h5
      | _ => rintro _ _ ⟨⟩
    · exact insertSeq_local ms t (u + 1) _ hl h3 e he

end RUSure.Lemmas
