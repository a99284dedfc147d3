import Verif.Lemmas.EditLocal
import Verif.Lemmas.ConstraintReads

/-!
# The language of the edit DAG
-/

set_option linter.unusedSimpArgs false
set_option linter.unusedSectionVars false

namespace RUSure.Lemmas
open RUSure RUSure.Spec
variable {M : Type} [DecidableEq M] {prm : Params} {A B : TreeTable M}

/-! ### The cells of a matching subproblem -/

/-- Edges of the subproblem of a cell. -/
def innerEdges (prm : Params) (i j : Nat) (n m : Option (Node M)) : List EditEdge :=
  match n with
  | some (.group cs _) =>
    (match m with
      | some (.group cs' _) => matchEdges prm (some i) 0 (i + 1) (some j) (j + 1) cs' cs
      | _ => [])
  | _ => []

/-- All edges of a cell. -/
def cellOf (prm : Params) (q : Option Nat) (p i : Nat) (t : Option Nat) (u j : Nat)
    (n m : Option (Node M)) : List EditEdge :=
  cellEdges prm q p i t u j n m (innerEdges prm i j n m)

omit [DecidableEq M] in
theorem mem_overTarget {body : Nat → Nat → Option (Node M) → List EditEdge} {e : EditEdge} :
    ∀ {ms : List (Node M)} {u j : Nat}, e ∈ overTarget body u j ms ↔
      ∃ pre ms', ms = pre ++ ms' ∧ e ∈ body (u + pre.length) (j + seqSize pre) ms'.head?
  | [], u, j => by
    rw [overTarget]
    constructor
    · intro h; exact ⟨[], [], rfl, by simpa [seqSize] using h⟩
    · rintro ⟨pre, ms', h, h'⟩
      obtain ⟨rfl, rfl⟩ := List.append_eq_nil_iff.mp h.symm
      simpa [seqSize] using h'
  | m :: ms, u, j => by
    rw [overTarget, List.mem_append, mem_overTarget]
    constructor
    · rintro (h | ⟨pre, ms', rfl, h⟩)
      · exact ⟨[], m :: ms, rfl, by simpa [seqSize] using h⟩
      · exact ⟨m :: pre, ms', rfl, by
          simpa [seqSize, Nat.add_assoc, Nat.add_comm 1] using h⟩
    · rintro ⟨pre, ms', h, h'⟩
      cases pre with
      | nil =>
        simp only [List.nil_append] at h
        subst h
        exact .inl (by simpa [seqSize] using h')
      | cons x pre =>
        simp only [List.cons_append, List.cons.injEq] at h
        obtain ⟨rfl, rfl⟩ := h
        exact .inr ⟨pre, ms', rfl, by simpa [seqSize, Nat.add_assoc, Nat.add_comm 1] using h'⟩

theorem matchEdges_nil {q p i t j} {T : List (Node M)} :
    matchEdges prm q p i t j T [] = overTarget (fun u j' m => cellOf prm q p i t u j' none m) 0 j T := by
  simp [matchEdges, cellOf, innerEdges]

theorem matchEdges_cons {q p i t j} {T : List (Node M)} {n : Node M} {ns : List (Node M)} :
    matchEdges prm q p i t j T (n :: ns)
      = overTarget (fun u j' m => cellOf prm q p i t u j' (some n) m) 0 j T
        ++ matchEdges prm q (p + 1) (i + nodeSize n) t j T ns := by
  cases n <;> simp only [matchEdges, cellOf, innerEdges]; rfl

theorem mem_matchEdges {e : EditEdge} {q t : Option Nat} {j : Nat} {T : List (Node M)} :
    ∀ {ns : List (Node M)} {p i : Nat}, e ∈ matchEdges prm q p i t j T ns ↔
      ∃ pre ns' pre' ms', ns = pre ++ ns' ∧ T = pre' ++ ms'
        ∧ e ∈ cellOf prm q (p + pre.length) (i + seqSize pre) t pre'.length (j + seqSize pre')
          ns'.head? ms'.head?
  | [], p, i => by
    rw [matchEdges_nil, mem_overTarget]
    constructor
    · rintro ⟨pre', ms', h, h'⟩
      exact ⟨[], [], pre', ms', rfl, h, by simpa [seqSize] using h'⟩
    · rintro ⟨pre, ns', pre', ms', h, h1, h2⟩
      obtain ⟨rfl, rfl⟩ := List.append_eq_nil_iff.mp h.symm
      exact ⟨pre', ms', h1, by simpa [seqSize] using h2⟩
  | n :: ns, p, i => by
    rw [matchEdges_cons, List.mem_append, mem_overTarget, mem_matchEdges]
    constructor
    · rintro (⟨pre', ms', h, h'⟩ | ⟨pre, ns', pre', ms', rfl, h, h'⟩)
      · exact ⟨[], n :: ns, pre', ms', rfl, h, by simpa [seqSize] using h'⟩
      · exact ⟨n :: pre, ns', pre', ms', rfl, h, by
          simpa [seqSize, Nat.add_assoc, Nat.add_comm 1] using h'⟩
    · rintro ⟨pre, ns', pre', ms', h, h1, h2⟩
      cases pre with
      | nil =>
        simp only [List.nil_append] at h
        subst h
        exact .inl ⟨pre', ms', h1, by simpa [seqSize] using h2⟩
      | cons x pre =>
        simp only [List.cons_append, List.cons.injEq] at h
        obtain ⟨rfl, rfl⟩ := h
        exact .inr ⟨pre, ns', pre', ms', rfl, h1, by
          simpa [seqSize, Nat.add_assoc, Nat.add_comm 1] using h2⟩

omit [DecidableEq M] in
theorem fits_drop : ∀ {pre : List (Node M)} {ns q p i}, Fits A q p i (pre ++ ns) →
    Fits A q (p + pre.length) (i + seqSize pre) ns
  | [], ns, q, p, i, h => by simpa [seqSize] using h
  | x :: pre, ns, q, p, i, h => by
    have := fits_drop (fits_cons.mp h).2.2
    simpa [seqSize, Nat.add_assoc, Nat.add_comm 1] using this

omit [DecidableEq M] in
theorem fits_head {ns : List (Node M)} {q p i} (h : Fits A q p i ns) :
    A.node q p = ns.head?.map fun n => (i, n) := by
  cases ns with
  | nil => simpa using fits_nil.mp h
  | cons n ns => simpa using (fits_cons.mp h).1

/-! ### All edges are where they belong -/

theorem cell_local {q p i t u j} {ns ms : List (Node M)} (hA : Fits A q p i ns)
    (hB : Fits B t u j ms) (hl : (A.path q).length = (B.path t).length)
    (hinner : ∀ e ∈ innerEdges prm i j ns.head? ms.head?, e ∈ editOut prm A B e.source) :
    ∀ e ∈ cellOf prm q p i t u j ns.head? ms.head?, e ∈ editOut prm A B e.source := by
  have hdel : ∀ al allow, DeleteAt A B al allow q t →
      ∀ e ∈ deleteNode? prm al allow q p i t u ns.head?, e ∈ editOut prm A B e.source := by
    intro al allow hd e he
    cases ns with
    | nil => simp [deleteNode?] at he
    | cons n ns =>
      obtain ⟨h1, h2, h3⟩ := fits_cons.mp hA
      exact deleteNode_local hd h1 h2 (fun cs mt _ h4 h5 => deleteSeq_local cs _ _ _ h4 h5) e he
  have hins : ∀ al allow, InsertAt A B al allow q t →
      ∀ e ∈ insertNode? prm al allow q p t u j ms.head?, e ∈ editOut prm A B e.source := by
    intro al allow hd e he
    cases ms with
    | nil => simp [insertNode?] at he
    | cons m ms =>
      obtain ⟨h1, h2, h3⟩ := fits_cons.mp hB
      exact insertNode_local hd h1 h2 (fun cs mt _ h4 h5 => insertSeq_local cs _ _ _ h4 h5) e he
  intro e he
  simp only [cellOf, cellEdges, List.mem_append, mem_bothConf, List.mem_cons, List.not_mem_nil,
    or_false] at he
  rcases he with (((((((he | ⟨c, rfl | rfl⟩) | he) | ⟨c, rfl⟩) | he) | ⟨c, rfl⟩) | he) | he) | he
  · exact hdel _ _ (.inl ⟨rfl, rfl⟩) e he
  · cases c <;> simp [editOut]
  · simp [editOut, silentEdge]
  · exact hdel _ _ (.inr (.inl ⟨rfl, rfl, hl⟩)) e he
  · simp [editOut, silentEdge]
  · exact hins _ _ (.inr (.inl ⟨rfl, rfl, hl.symm⟩)) e he
  · simp [editOut, silentEdge]
  · exact hins _ _ (.inl ⟨rfl, rfl⟩) e he
  · match ns, ms, he with
    | .tok txt mt :: ns, .tok txt' mt' :: ms, he =>
      simp only [List.head?_cons, keepTokenEdges] at he
      split at he
      · next heq =>
        simp only [mem_bothConf, List.mem_singleton] at he
        obtain ⟨c, rfl⟩ := he
        obtain ⟨h1, -, -⟩ := fits_cons.mp hA
        obtain ⟨h1', -, -⟩ := fits_cons.mp hB
        cases c <;> simp [editOut, h1, h1', matchOut, heq]
      · simp at he
    | [], _, he => simp [keepTokenEdges] at he
    | .deco _ :: _, _, he => simp [keepTokenEdges] at he
    | .group _ _ :: _, _, he => simp [keepTokenEdges] at he
    | .rstart :: _, _, he => simp [keepTokenEdges] at he
    | .rend :: _, _, he => simp [keepTokenEdges] at he
    | .exit :: _, _, he => simp [keepTokenEdges] at he
    | .tok _ _ :: _, [], he => simp [keepTokenEdges] at he
    | .tok _ _ :: _, .deco _ :: _, he => simp [keepTokenEdges] at he
    | .tok _ _ :: _, .group _ _ :: _, he => simp [keepTokenEdges] at he
    | .tok _ _ :: _, .rstart :: _, he => simp [keepTokenEdges] at he
    | .tok _ _ :: _, .rend :: _, he => simp [keepTokenEdges] at he
    | .tok _ _ :: _, .exit :: _, he => simp [keepTokenEdges] at he
  · match ns, ms, he with
    | .group cs mt :: ns, .group cs' mt' :: ms, he =>
      simp only [List.head?_cons, matchGroupEdges] at he
      split at he
      · next heq =>
        simp only [List.mem_append, mem_bothConf, List.mem_singleton] at he
        obtain ⟨h1, h2, -⟩ := fits_cons.mp hA
        obtain ⟨h1', h2', -⟩ := fits_cons.mp hB
        rcases he with (⟨c, rfl⟩ | he) | ⟨c, rfl⟩
        · simp [editOut, h1, h1', matchOut, heq, insertOut]
        · exact hinner e he
        · simp only [FitsBelow] at h2 h2'
          have h3 := fits_end h2.2.2
          have h3' := fits_end h2'.2.2
          rw [Nat.zero_add] at h3 h3'
          simp [editOut, silentEdge, h3, h3', h2.1, h2'.1, endOut, insertOut, matchOut]
      · simp at he
    | [], _, he => simp [matchGroupEdges] at he
    | .deco _ :: _, _, he => simp [matchGroupEdges] at he
    | .tok _ _ :: _, _, he => simp [matchGroupEdges] at he
    | .rstart :: _, _, he => simp [matchGroupEdges] at he
    | .rend :: _, _, he => simp [matchGroupEdges] at he
    | .exit :: _, _, he => simp [matchGroupEdges] at he
    | .group _ _ :: _, [], he => simp [matchGroupEdges] at he
    | .group _ _ :: _, .deco _ :: _, he => simp [matchGroupEdges] at he
    | .group _ _ :: _, .tok _ _ :: _, he => simp [matchGroupEdges] at he
    | .group _ _ :: _, .rstart :: _, he => simp [matchGroupEdges] at he
    | .group _ _ :: _, .rend :: _, he => simp [matchGroupEdges] at he
    | .group _ _ :: _, .exit :: _, he => simp [matchGroupEdges] at he

theorem matchEdges_local : ∀ (ns : List (Node M)) (q : Option Nat) (p i : Nat) (t : Option Nat)
    (j : Nat) (T : List (Node M)), Fits A q p i ns → Fits B t 0 j T →
    (A.path q).length = (B.path t).length →
    ∀ e ∈ matchEdges prm q p i t j T ns, e ∈ editOut prm A B e.source
  | [], q, p, i, t, j, T, hA, hB, hl => by
    intro e he
    rw [matchEdges_nil, mem_overTarget] at he
    obtain ⟨pre, ms, rfl, he⟩ := he
    exact cell_local (ns := []) hA (fits_drop hB) hl (by simp [innerEdges]) e he
  | n :: ns, q, p, i, t, j, T, hA, hB, hl => by
    intro e he
    rw [matchEdges_cons, List.mem_append, mem_overTarget] at he
    rcases he with ⟨pre, ms, rfl, he⟩ | he
    · refine cell_local (ns := n :: ns) hA (fits_drop hB) hl ?_ e he
      cases n with
      | group cs mt =>
        match ms with
        | .group cs' mt' :: ms =>
          obtain ⟨-, h2, -⟩ := fits_cons.mp hA
          obtain ⟨-, h2', -⟩ := fits_cons.mp (fits_drop hB)
          simp only [FitsBelow] at h2 h2'
          exact matchEdges_local cs _ _ _ _ _ cs' h2.2.2 h2'.2.2 (by
            rw [h2.2.1, h2'.2.1, List.length_append, List.length_append, hl]; simp)
        | [] => simp [innerEdges]
        | .deco _ :: _ => simp [innerEdges]
        | .tok _ _ :: _ => simp [innerEdges]
        | .rstart :: _ => simp [innerEdges]
        | .rend :: _ => simp [innerEdges]
        | .exit :: _ => simp [innerEdges]
      | _ => simp [innerEdges]
    · exact matchEdges_local ns q (p + 1) _ t j T (fits_cons.mp hA).2.2 hB hl e he

/-! ### All edges that belong somewhere are there -/

theorem deleteNode?_out {al allow c q p i t u} {ns : List (Node M)} {e}
    (hA : Fits A q p i ns) (h : e ∈ advanceOut prm al allow c q p t u (A.node q p)) :
    e ∈ deleteNode? prm al allow q p i t u ns.head? := by
  rw [fits_head hA] at h
  cases ns with
  | nil => simp [advanceOut] at h
  | cons n ns => exact mem_deleteNode.mpr (.inl ⟨c, h⟩)

theorem insertNode?_out {al allow c q p t u j} {ms : List (Node M)} {e}
    (hB : Fits B t u j ms) (h : e ∈ insertOut prm al allow c q p t u (B.node t u)) :
    e ∈ insertNode? prm al allow q p t u j ms.head? := by
  rw [fits_head hB] at h
  cases ms with
  | nil => simp [insertOut] at h
  | cons m ms => exact mem_insertNode.mpr (.inl ⟨c, h⟩)

theorem matchOut_cell {c q p i t u j} {n m : Option (Node M)} {e}
    (h : e ∈ matchOut prm c q p t u (n.map fun n => (i, n)) (m.map fun m => (j, m))) :
    e ∈ keepTokenEdges prm q p i t u j n m
      ∨ e ∈ matchGroupEdges q p i t u j (innerEdges prm i j n m) n m := by
  unfold matchOut at h
  split at h
  · next h1 h2 =>
    obtain ⟨n, rfl, h1⟩ := Option.map_eq_some_iff.mp h1
    obtain ⟨m, rfl, h2⟩ := Option.map_eq_some_iff.mp h2
    cases h1; cases h2
    split at h
    · next heq =>
      left
      rw [keepTokenEdges, if_pos heq, mem_bothConf]
      exact ⟨c, h⟩
    · simp at h
  · next h1 h2 =>
    obtain ⟨n, rfl, h1⟩ := Option.map_eq_some_iff.mp h1
    obtain ⟨m, rfl, h2⟩ := Option.map_eq_some_iff.mp h2
    cases h1; cases h2
    split at h
    · next heq =>
      right
      rw [matchGroupEdges, if_pos heq, List.mem_append, List.mem_append, mem_bothConf]
      exact .inl (.inl ⟨c, h⟩)
    · simp at h
  · simp at h

theorem cell_process {c q p i t u j} {ns ms : List (Node M)} {e} (hA : Fits A q p i ns)
    (h : e ∈ editOut prm A B (.at .process c q p t u)) :
    e ∈ cellOf prm q p i t u j ns.head? ms.head? := by
  simp only [editOut, List.mem_append, List.mem_cons, List.not_mem_nil, or_false] at h
  simp only [cellOf, cellEdges, List.mem_append, mem_bothConf, List.mem_cons, List.not_mem_nil,
    or_false, or_assoc]
  rcases h with h | h
  · exact .inl (deleteNode?_out hA h)
  · exact .inr (.inl ⟨c, h⟩)

theorem cell_mayDelete {c q p i t u j} {ns ms : List (Node M)} {e} (hA : Fits A q p i ns)
    (h : e ∈ editOut prm A B (.at .mayDelete c q p t u)) :
    e ∈ cellOf prm q p i t u j ns.head? ms.head? := by
  simp only [editOut, List.mem_append, List.mem_cons, List.not_mem_nil, or_false] at h
  simp only [cellOf, cellEdges, List.mem_append, mem_bothConf, List.mem_cons, List.not_mem_nil,
    or_false, or_assoc]
  rcases h with h | h
  · exact .inr (.inr (.inl (deleteNode?_out hA h)))
  · exact .inr (.inr (.inr (.inl ⟨c, h⟩)))

theorem cell_mayInsert {c q p i t u j} {ns ms : List (Node M)} {e} (hB : Fits B t u j ms)
    (h : e ∈ editOut prm A B (.at .mayInsert c q p t u)) :
    e ∈ cellOf prm q p i t u j ns.head? ms.head? := by
  simp only [editOut, List.mem_append, List.mem_cons, List.not_mem_nil, or_false] at h
  simp only [cellOf, cellEdges, List.mem_append, mem_bothConf, List.mem_cons, List.not_mem_nil,
    or_false, or_assoc]
  rcases h with h | h
  · exact .inr (.inr (.inr (.inr (.inl (insertNode?_out hB h)))))
  · exact .inr (.inr (.inr (.inr (.inr (.inl ⟨c, h⟩)))))

theorem cell_matching {c q p i t u j} {ns ms : List (Node M)} {e} (hA : Fits A q p i ns)
    (hB : Fits B t u j ms) (hne : ¬(ns = [] ∧ ms = []))
    (h : e ∈ editOut prm A B (.at .matching c q p t u)) :
    e ∈ cellOf prm q p i t u j ns.head? ms.head? := by
  simp only [editOut, List.mem_append] at h
  simp only [cellOf, cellEdges, List.mem_append, or_assoc]
  rcases h with (h | h) | h
  · exact .inr (.inr (.inr (.inr (.inr (.inr (.inl (insertNode?_out hB h)))))))
  · rw [fits_head hA, fits_head hB] at h
    exact .inr (.inr (.inr (.inr (.inr (.inr (.inr (matchOut_cell h)))))))
  · rw [if_neg] at h
    · simp at h
    · rw [fits_head hA, fits_head hB]
      simpa using hne

/-! ### What is read -/

/-- Scripts read from a state on. -/
def EReads (E : List EditEdge) : EditState → ELang :=
  Reads Edge.source Edge.dest editLabel E .final

theorem eReads_out {E : List EditEdge} {s : EditState} {L : List EditEdge} {ds}
    (hE : ∀ e ∈ E, e ∈ editOut prm A B e.source) (hs : s ≠ .final)
    (h : ∀ e ∈ editOut prm A B s, e ∈ E) (hL : editOut prm A B s = L) :
    EReads E s ds ↔ ∃ e ∈ L, ∃ ds', ds = editLabel e ++ ds' ∧ EReads E e.dest ds' := by
  subst hL
  exact reads_out hs (fun e => ⟨fun ⟨h1, h2⟩ => h2 ▸ hE e h1, fun h1 => ⟨h e h1, editOut_source h1⟩⟩) ds

theorem eReads_final {E : List EditEdge} (hE : ∀ e ∈ E, e ∈ editOut prm A B e.source) {ds} :
    EReads E .final ds ↔ ds = [] :=
  reads_final (fun e he h => by have := hE e he; rw [h] at this; simp [editOut] at this) ds

/-- What is read when a list of edges leaves a state. -/
def ROut (E : List EditEdge) (L : List EditEdge) : ELang :=
  fun ds => ∃ e ∈ L, ∃ ds', ds = editLabel e ++ ds' ∧ EReads E e.dest ds'

theorem rOut_append {E L L' ds} : ROut E (L ++ L') ds ↔ ROut E L ds ∨ ROut E L' ds := by
  simp only [ROut, List.mem_append, or_and_right, exists_or]

theorem rOut_cons {E e L ds} : ROut E (e :: L) ds ↔
    (∃ ds', ds = editLabel e ++ ds' ∧ EReads E e.dest ds') ∨ ROut E L ds := by
  simp [ROut]

theorem rOut_nil {E ds} : ROut E [] ds ↔ False := by simp [ROut]

theorem rOut_silent {E s t ds} : ROut E [silentEdge s t] ds ↔ EReads E t ds := by
  rw [rOut_cons]
  simp [rOut_nil, silentEdge, editLabel]

theorem rOut_step {E e ds} (h : ¬(e.req = none ∧ e.info = none)) :
    ROut E [e] ds ↔ epre ⟨e.req, e.info, e.cost⟩ (EReads E e.dest) ds := by
  rw [rOut_cons]
  simp [rOut_nil, editLabel, h, epre]

theorem lowValue_eq (c : Conf) : lowValue c = inValue (decide (c = .low)) := by
  cases c <;> rfl

/-! ### One prototype node -/

section
variable {E : List EditEdge}

/-- What is read from the edges that have to do with a prototype node only. -/
def RAdvance (prm : Params) (E : List EditEdge) (al : EditAlign) (allow : Bool) (c : Conf)
    (q : Option Nat) (p i : Nat) (t : Option Nat) (u : Nat) : Node M → ELang
  | .tok txt _ => fun ds => allow = true ∧
      epre (deleteStep prm c i txt.length) (EReads E (.at al c q (p + 1) t u)) ds
  | .group _ _ => fun ds => allow = true ∧
      epre (enterStep c i) (EReads E (.at .recDelete c (some i) 0 t u)) ds
  | n => GP prm c i (fun c' => EReads E (.at al c' q (p + 1) t u)) n

theorem rOut_advance {al allow c q p i t u} {n : Node M} {ds}
    (hE : ∀ e ∈ E, e ∈ editOut prm A B e.source) :
    ROut E (advanceOut prm al allow c q p t u (some (i, n))) ds
      ↔ RAdvance prm E al allow c q p i t u n ds := by
  cases n with
  | deco txt => simp [advanceOut, rOut_step, RAdvance, GP]
  | tok txt mt =>
    cases allow
    · simp [advanceOut, RAdvance, rOut_nil]
    · cases c <;> simp [advanceOut, RAdvance, rOut_step, deleteStep, seenAt, lowValue_eq, deletePrice,
        Params.forToken]
  | group cs mt =>
    cases allow
    · simp [advanceOut, RAdvance, rOut_nil]
    · simp [advanceOut, RAdvance, rOut_step, enterStep, seenAt, lowValue_eq]
  | rstart =>
    cases c
    · simp only [advanceOut, RAdvance, GP]
      rw [← List.singleton_append, rOut_append, rOut_step (by simp), rOut_step (by simp)]
    · simp [advanceOut, rOut_step, RAdvance, GP]
  | rend =>
    cases c
    · simp [advanceOut, rOut_step, RAdvance, GP]
    · simp only [advanceOut, RAdvance, GP]
      rw [← List.singleton_append, rOut_append, rOut_step (by simp), rOut_step (by simp)]
  | exit =>
    simp only [advanceOut, RAdvance, GP]
    rw [← List.singleton_append, rOut_append, rOut_step (by simp), rOut_step (by simp)]
    refine or_congr ?_ Iff.rfl
    simp [epre, eReads_final hE, exitStep]

/-- What is read from the edges that have to do with a target node only. -/
def RInsert (prm : Params) (E : List EditEdge) (al : EditAlign) (allow : Bool) (c : Conf)
    (q : Option Nat) (p : Nat) (t : Option Nat) (u j : Nat) : Node M → ELang
  | .deco _ => epre (targetDecoStep c j) (EReads E (.at al c q p t (u + 1)))
  | .tok txt _ => fun ds => allow = true ∧
      epre (insertStep prm j txt.length) (EReads E (.at al c q p t (u + 1))) ds
  | .group _ _ => fun ds => allow = true ∧ EReads E (.at .recInsert c q p (some j) 0) ds
  | _ => fun _ => False

theorem rOut_insert {al allow c q p t u j} {m : Node M} {ds} :
    ROut E (insertOut prm al allow c q p t u (some (j, m))) ds
      ↔ RInsert prm E al allow c q p t u j m ds := by
  cases m with
  | deco txt => simp [insertOut, rOut_step, RInsert, targetDecoStep]
  | tok txt mt =>
    cases allow
    · simp [insertOut, RInsert, rOut_nil]
    · simp [insertOut, RInsert, rOut_step, insertStep, Params.forToken]
  | group cs mt =>
    cases allow
    · simp [insertOut, RInsert, rOut_nil]
    · simp [insertOut, RInsert, rOut_silent]
  | rstart => simp [insertOut, RInsert, rOut_nil]
  | rend => simp [insertOut, RInsert, rOut_nil]
  | exit => simp [insertOut, RInsert, rOut_nil]

/-! ### Deleting and inserting groups -/

theorem delete_end {al allow c q p i t u} {cs : List (Node M)} {mt : M}
    (hE : ∀ e ∈ E, e ∈ editOut prm A B e.source) (hd : DeleteAt A B al allow q t)
    (ha : allow = true) (hb : FitsBelow A q p i (.group cs mt))
    (h : ∀ c, silentEdge (.at .recDelete c (some i) cs.length t u) (.at al c q (p + 1) t u) ∈ E) :
    EReads E (.at .recDelete c (some i) cs.length t u) = EReads E (.at al c q (p + 1) t u) := by
  simp only [FitsBelow] at hb
  have hend := fits_end hb.2.2
  rw [Nat.zero_add] at hend
  have ho : editOut prm A B (.at .recDelete c (some i) cs.length t u)
      = [silentEdge (.at .recDelete c (some i) cs.length t u) (.at al c q (p + 1) t u)] := by
    simp only [editOut, hend, hb.1]
    rcases hd with ⟨-, h⟩ | ⟨rfl, -, h⟩ | ⟨rfl, -, h⟩
    · rw [ha] at h; simp at h
    · rw [if_pos h]
    · rw [if_neg (by omega)]
  funext ds
  apply propext
  rw [eReads_out hE (by simp) (by rw [ho]; simpa using h c) ho]
  exact rOut_silent

theorem delete_reads {t u} (hE : ∀ e ∈ E, e ∈ editOut prm A B e.source) :
    ∀ (ns : List (Node M)) (q : Option Nat) (p i : Nat) (K : Conf → ELang),
    (B.path t).length < (A.path q).length → Fits A q p i ns →
    (∀ e ∈ deleteSeq prm q p i t u ns, e ∈ E) →
    (∀ c, EReads E (.at .recDelete c q (p + ns.length) t u) = K c) →
    ∀ c, EReads E (.at .recDelete c q p t u) = GD prm c i ns K
  | [], q, p, i, K, _, _, _, hK, c => by
    funext ds
    rw [propext GD_nil, ← hK]
    rfl
  | n :: ns, q, p, i, K, hl, hf, hs, hK, c => by
    obtain ⟨h1, h2, h3⟩ := fits_cons.mp hf
    have hd : DeleteAt A B .recDelete true q t := .inr (.inr ⟨rfl, rfl, hl⟩)
    have ih := delete_reads hE ns q (p + 1) _ K hl h3
      (fun e he => hs e (by rw [deleteSeq]; exact List.mem_append_right _ he))
      (by intro c; rw [← hK c, List.length_cons]; congr 2; omega)
    have hn : ∀ e ∈ deleteNode prm .recDelete true q p i t u n, e ∈ E :=
      fun e he => hs e (by rw [deleteSeq]; exact List.mem_append_left _ he)
    funext ds
    apply propext
    rw [GD_cons, eReads_out hE (by simp) (L := advanceOut prm .recDelete true c q p t u (some (i, n)))
      (by
        intro e he
        simp only [editOut, h1] at he
        exact hn e (mem_deleteNode.mpr (.inl ⟨c, he⟩)))
      (by simp only [editOut, h1])]
    refine (rOut_advance hE).trans ?_
    have hP : GP prm c i (fun c' => EReads E (.at .recDelete c' q (p + 1) t u)) n
        = GP prm c i (fun c' => GD prm c' (i + nodeSize n) ns K) n := by
      congr 1; funext c'; exact ih c'
    cases n with
    | deco txt => exact iff_of_eq (congrFun hP ds)
    | rstart => exact iff_of_eq (congrFun hP ds)
    | rend => exact iff_of_eq (congrFun hP ds)
    | exit => exact iff_of_eq (congrFun hP ds)
    | tok txt mt => simp only [RAdvance, GDcons, ih, true_and]; rfl
    | group cs mt =>
      have hend := fun c => delete_end (c := c) hE hd rfl h2 (u := u)
        (fun c => hn _ (mem_deleteNode.mpr (.inr ⟨rfl, cs, mt, rfl, .inr ⟨c, rfl⟩⟩)))
      have hb := h2
      simp only [FitsBelow] at hb
      have := delete_reads hE cs (some i) 0 (i + 1)
        (fun c' => GD prm c' (i + 1 + seqSize cs) ns K) (t := t) (u := u)
        (by rw [hb.2.1, List.length_append]; simp; omega) hb.2.2
        (fun e he => hn e (mem_deleteNode.mpr (.inr ⟨rfl, cs, mt, rfl, .inl he⟩)))
        (by
          intro c'
          rw [Nat.zero_add, hend, ih]
          simp only [nodeSize]
          congr 1; omega)
      simp only [RAdvance, GDcons, true_and, this]

theorem insert_end {al allow c q p t u j} {cs : List (Node M)} {mt : M}
    (hE : ∀ e ∈ E, e ∈ editOut prm A B e.source) (hd : InsertAt A B al allow q t)
    (ha : allow = true) (hb : FitsBelow B t u j (.group cs mt))
    (h : ∀ c, silentEdge (.at .recInsert c q p (some j) cs.length) (.at al c q p t (u + 1)) ∈ E) :
    EReads E (.at .recInsert c q p (some j) cs.length) = EReads E (.at al c q p t (u + 1)) := by
  simp only [FitsBelow] at hb
  have hend := fits_end hb.2.2
  rw [Nat.zero_add] at hend
  have ho : editOut prm A B (.at .recInsert c q p (some j) cs.length)
      = [silentEdge (.at .recInsert c q p (some j) cs.length) (.at al c q p t (u + 1))] := by
    simp only [editOut, hend, hb.1]
    rcases hd with ⟨-, h⟩ | ⟨rfl, -, h⟩ | ⟨rfl, -, h⟩
    · rw [ha] at h; simp at h
    · rw [if_pos h]
    · rw [if_neg (by omega)]
  funext ds
  apply propext
  rw [eReads_out hE (by simp) (by rw [ho]; simpa using h c) ho]
  exact rOut_silent

theorem insert_reads {q p} (hE : ∀ e ∈ E, e ∈ editOut prm A B e.source) {c : Conf} :
    ∀ (ms : List (Node M)) (t : Option Nat) (u j : Nat) (K : ELang),
    (A.path q).length < (B.path t).length → Fits B t u j ms →
    (∀ e ∈ insertSeq prm q p t u j ms, e ∈ E) →
    EReads E (.at .recInsert c q p t (u + ms.length)) = K →
    EReads E (.at .recInsert c q p t u) = GI prm c j ms K
  | [], t, u, j, K, _, _, _, hK => by
    funext ds
    rw [propext GI_nil, ← hK]
    rfl
  | m :: ms, t, u, j, K, hl, hf, hs, hK => by
    obtain ⟨h1, h2, h3⟩ := fits_cons.mp hf
    have hd : InsertAt A B .recInsert true q t := .inr (.inr ⟨rfl, rfl, hl⟩)
    have ih := insert_reads hE ms t (u + 1) _ K hl h3
      (fun e he => hs e (by rw [insertSeq]; exact List.mem_append_right _ he))
      (by rw [← hK, List.length_cons]; congr 2; omega)
    have hn : ∀ e ∈ insertNode prm .recInsert true q p t u j m, e ∈ E :=
      fun e he => hs e (by rw [insertSeq]; exact List.mem_append_left _ he)
    funext ds
    apply propext
    rw [GI_cons, eReads_out hE (by simp) (L := insertOut prm .recInsert true c q p t u (some (j, m)))
      (by
        intro e he
        simp only [editOut, h1] at he
        exact hn e (mem_insertNode.mpr (.inl ⟨c, he⟩)))
      (by simp only [editOut, h1])]
    refine rOut_insert.trans ?_
    cases m with
    | deco txt => simp only [RInsert, GIcons, ih]; rfl
    | rstart => rfl
    | rend => rfl
    | exit => rfl
    | tok txt mt => simp only [RInsert, GIcons, ih, true_and]; rfl
    | group cs mt =>
      have hend := fun c => insert_end (c := c) hE hd rfl h2 (p := p)
        (fun c => hn _ (mem_insertNode.mpr (.inr ⟨rfl, cs, mt, rfl, .inr ⟨c, rfl⟩⟩)))
      have hb := h2
      simp only [FitsBelow] at hb
      have := insert_reads hE cs (some j) 0 (j + 1) (c := c)
        (GI prm c (j + 1 + seqSize cs) ms K) (q := q) (p := p)
        (by rw [hb.2.1, List.length_append]; simp; omega) hb.2.2
        (fun e he => hn e (mem_insertNode.mpr (.inr ⟨rfl, cs, mt, rfl, .inl he⟩)))
        (by
          rw [Nat.zero_add, hend, ih]
          simp only [nodeSize]
          congr 1; omega)
      simp only [RInsert, GIcons, true_and, this]

/-! ### Editing -/

/-- All cells of the suffixes of two sequences are there. -/
def Cells (prm : Params) (E : List EditEdge) (q : Option Nat) (p i : Nat) (t : Option Nat)
    (u j : Nat) (ns ms : List (Node M)) : Prop :=
  ∀ pre ns' pre' ms', ns = pre ++ ns' → ms = pre' ++ ms' →
    ∀ e ∈ cellOf prm q (p + pre.length) (i + seqSize pre) t (u + pre'.length) (j + seqSize pre')
      ns'.head? ms'.head?, e ∈ E

theorem cells_head {q p i t u j} {ns ms : List (Node M)} (h : Cells prm E q p i t u j ns ms) :
    ∀ e ∈ cellOf prm q p i t u j ns.head? ms.head?, e ∈ E := by
  have := h [] ns [] ms rfl rfl
  simpa [seqSize] using this

theorem cells_left {q p i t u j} {n : Node M} {ns ms : List (Node M)}
    (h : Cells prm E q p i t u j (n :: ns) ms) :
    Cells prm E q (p + 1) (i + nodeSize n) t u j ns ms := by
  rintro pre ns' pre' ms' rfl rfl
  have := h (n :: pre) ns' pre' ms' rfl rfl
  simpa [seqSize, Nat.add_assoc, Nat.add_comm 1] using this

theorem cells_right {q p i t u j} {m : Node M} {ns ms : List (Node M)}
    (h : Cells prm E q p i t u j ns (m :: ms)) :
    Cells prm E q p i t (u + 1) (j + nodeSize m) ns ms := by
  rintro pre ns' pre' ms' rfl rfl
  have := h pre ns' (m :: pre') ms' rfl rfl
  simpa [seqSize, Nat.add_assoc, Nat.add_comm 1] using this

theorem cells_match {q t j} {ns ms : List (Node M)} {p i} 
    (h : ∀ e ∈ matchEdges prm q p i t j ms ns, e ∈ E) : Cells prm E q p i t 0 j ns ms := by
  rintro pre ns' pre' ms' rfl rfl e he
  exact h e (mem_matchEdges.mpr ⟨pre, ns', pre', ms', rfl, rfl, by simpa using he⟩)

theorem edits_reads_aux (hE : ∀ e ∈ E, e ∈ editOut prm A B e.source) : ∀ (N : Nat)
    (ns ms : List (Node M)) (_ : seqSize ns + seqSize ms < N)
    (q : Option Nat) (p i : Nat) (t : Option Nat) (u j : Nat) (K : Conf → ELang)
    (_ : (A.path q).length = (B.path t).length) (_ : Fits A q p i ns) (_ : Fits B t u j ms)
    (_ : Cells prm E q p i t u j ns ms)
    (_ : ∀ c, EReads E (.at .matching c q (p + ns.length) t (u + ms.length)) = K c) (c : Conf),
    EReads E (.at .matching c q p t u) = GE prm .matching c i ns j ms K
    ∧ EReads E (.at .mayInsert c q p t u) = GE prm .inserting c i ns j ms K
    ∧ EReads E (.at .mayDelete c q p t u) = GE prm .deleting c i ns j ms K
    ∧ EReads E (.at .process c q p t u) = GE prm .advancing c i ns j ms K := by
  intro N
  induction N with
  | zero => intro ns ms h; omega
  | succ N IH => ?_
  intro ns ms hN q p i t u j K hl hA hB hC hK c
  have hcell := cells_head hC
  -- the rest of the prototype
  have hleft : ∀ n ns', ns = n :: ns' → ∀ c,
      EReads E (.at .mayDelete c q (p + 1) t u) = GE prm .deleting c (i + nodeSize n) ns' j ms K
      ∧ EReads E (.at .process c q (p + 1) t u)
        = GE prm .advancing c (i + nodeSize n) ns' j ms K := by
    intro n ns' hns c
    have hlt : seqSize ns' + seqSize ms < N := by
      have := nodeSize_pos n
      simp only [hns, seqSize] at hN; omega
    subst hns
    have := IH ns' ms hlt q (p + 1) (i + nodeSize n) t u j K hl (fits_cons.mp hA).2.2 hB
      (cells_left hC) (by
        intro c; rw [← hK c, List.length_cons]; congr 2; omega) c
    exact this.2.2
  -- the rest of the target
  have hright : ∀ m ms', ms = m :: ms' → ∀ c,
      EReads E (.at .matching c q p t (u + 1)) = GE prm .matching c i ns (j + nodeSize m) ms' K
      ∧ EReads E (.at .mayInsert c q p t (u + 1))
        = GE prm .inserting c i ns (j + nodeSize m) ms' K := by
    intro m ms' hms c
    have hlt : seqSize ns + seqSize ms' < N := by
      have := nodeSize_pos m
      simp only [hms, seqSize] at hN; omega
    subst hms
    have := IH ns ms' hlt q p i t (u + 1) (j + nodeSize m) K hl hA (fits_cons.mp hB).2.2
      (cells_right hC) (by
        intro c; rw [← hK c, List.length_cons]; congr 2; omega) c
    exact ⟨this.1, this.2.1⟩
  -- the rest of both
  have hboth : ∀ n ns' m ms', ns = n :: ns' → ms = m :: ms' → ∀ c,
      EReads E (.at .process c q (p + 1) t (u + 1))
        = GE prm .advancing c (i + nodeSize n) ns' (j + nodeSize m) ms' K := by
    intro n ns' m ms' hns hms c
    have hlt : seqSize ns' + seqSize ms' < N := by
      have := nodeSize_pos n
      simp only [hns, hms, seqSize] at hN; omega
    subst hns hms
    have := IH ns' ms' hlt q (p + 1) (i + nodeSize n) t (u + 1) (j + nodeSize m) K hl
      (fits_cons.mp hA).2.2 (fits_cons.mp hB).2.2
      (cells_right (cells_left hC)) (by
        intro c; rw [← hK c, List.length_cons, List.length_cons]; congr 2 <;> omega) c
    exact this.2.2.2
  -- two groups
  have hgroup : ∀ cs mt ns' cs' ms', ns = .group cs mt :: ns' → ms = .group cs' mt :: ms' → ∀ c,
      EReads E (.at .process c (some i) 0 (some j) 0)
        = GE prm .advancing c (i + 1) cs (j + 1) cs' fun c' =>
          GE prm .advancing c' (i + 1 + seqSize cs) ns' (j + 1 + seqSize cs') ms' K := by
    intro cs mt ns' cs' ms' hns hms c
    have hlt : seqSize cs + seqSize cs' < N := by
      simp only [hns, hms, seqSize, nodeSize] at hN; omega
    subst hns hms
    obtain ⟨-, h2, -⟩ := fits_cons.mp hA
    obtain ⟨-, h2', -⟩ := fits_cons.mp hB
    simp only [FitsBelow] at h2 h2'
    have hin : ∀ e ∈ matchGroupEdges q p i t u j (matchEdges prm (some i) 0 (i + 1) (some j) (j + 1)
        cs' cs) (some (.group cs mt)) (some (.group cs' mt)), e ∈ E := by
      intro e he
      refine hcell e ?_
      simp only [cellOf, cellEdges, innerEdges, List.head?_cons, List.mem_append]
      exact .inr he
    simp only [matchGroupEdges, if_true, List.mem_append] at hin
    have hend : ∀ c, EReads E (.at .matching c (some i) cs.length (some j) cs'.length)
        = EReads E (.at .process c q (p + 1) t (u + 1)) := by
      intro c
      have h3 := fits_end h2.2.2
      have h3' := fits_end h2'.2.2
      rw [Nat.zero_add] at h3 h3'
      have ho : editOut prm A B (.at .matching c (some i) cs.length (some j) cs'.length)
          = [silentEdge (.at .matching c (some i) cs.length (some j) cs'.length)
              (.at .process c q (p + 1) t (u + 1))] := by
        simp [editOut, h3, h3', h2.1, h2'.1, endOut, insertOut, matchOut]
      funext ds
      apply propext
      rw [eReads_out hE (by simp) (by
        rw [ho]
        intro e he
        exact hin e (.inr (mem_bothConf.mpr ⟨c, he⟩))) ho]
      exact rOut_silent
    have := IH cs cs' hlt (some i) 0 (i + 1) (some j) 0 (j + 1)
      (fun c' => GE prm .advancing c' (i + 1 + seqSize cs) ns' (j + 1 + seqSize cs') ms' K)
      (by rw [h2.2.1, h2'.2.1, List.length_append, List.length_append, hl]; simp) h2.2.2 h2'.2.2
      (cells_match fun e he => hin e (.inl (.inr he))) (by
        intro c
        rw [Nat.zero_add, Nat.zero_add, hend, hboth _ _ _ _ rfl rfl]
        simp only [nodeSize]
        congr 1 <;> omega) c
    exact this.2.2.2
  -- a deleted group
  have hdgroup : ∀ cs mt ns', ns = .group cs mt :: ns' → ∀ c,
      EReads E (.at .recDelete c (some i) 0 t u) = GD prm c (i + 1) cs fun c' =>
        GE prm .deleting c' (i + 1 + seqSize cs) ns' j ms K := by
    rintro cs mt ns' rfl c
    obtain ⟨-, h2, -⟩ := fits_cons.mp hA
    have hd : DeleteAt A B .mayDelete true q t := .inr (.inl ⟨rfl, rfl, hl⟩)
    have hn : ∀ e ∈ deleteNode prm .mayDelete true q p i t u (.group cs mt), e ∈ E := by
      intro e he
      refine hcell e ?_
      simp only [cellOf, cellEdges, List.mem_append, List.head?_cons, deleteNode?]
      tauto
    have hend := fun c => delete_end (c := c) hE hd rfl h2 (u := u)
      (fun c => hn _ (mem_deleteNode.mpr (.inr ⟨rfl, cs, mt, rfl, .inr ⟨c, rfl⟩⟩)))
    simp only [FitsBelow] at h2
    refine delete_reads hE cs (some i) 0 (i + 1) _
      (by rw [h2.2.1, List.length_append]; simp; omega) h2.2.2
      (fun e he => hn e (mem_deleteNode.mpr (.inr ⟨rfl, cs, mt, rfl, .inl he⟩))) ?_ c
    intro c'
    rw [Nat.zero_add, hend, (hleft _ _ rfl c').1]
    simp only [nodeSize]
    congr 1; omega
  -- an inserted group
  have higroup : ∀ cs mt ms', ms = .group cs mt :: ms' → ∀ c,
      EReads E (.at .recInsert c q p (some j) 0) = GI prm c (j + 1) cs
        (GE prm .inserting c i ns (j + 1 + seqSize cs) ms' K) := by
    rintro cs mt ms' rfl c
    obtain ⟨-, h2, -⟩ := fits_cons.mp hB
    have hd : InsertAt A B .mayInsert true q t := .inr (.inl ⟨rfl, rfl, hl.symm⟩)
    have hn : ∀ e ∈ insertNode prm .mayInsert true q p t u j (.group cs mt), e ∈ E := by
      intro e he
      refine hcell e ?_
      simp only [cellOf, cellEdges, List.mem_append, List.head?_cons, insertNode?]
      tauto
    have hend := fun c => insert_end (c := c) hE hd rfl h2 (p := p)
      (fun c => hn _ (mem_insertNode.mpr (.inr ⟨rfl, cs, mt, rfl, .inr ⟨c, rfl⟩⟩)))
    simp only [FitsBelow] at h2
    refine insert_reads hE cs (some j) 0 (j + 1) _
      (by rw [h2.2.1, List.length_append]; simp; omega) h2.2.2
      (fun e he => hn e (mem_insertNode.mpr (.inr ⟨rfl, cs, mt, rfl, .inl he⟩))) ?_
    rw [Nat.zero_add, hend, (hright _ _ rfl c).2]
    simp only [nodeSize]
    congr 1; omega
  have hmatch : ∀ c, EReads E (.at .matching c q p t u) = GE prm .matching c i ns j ms K := by
    intro c
    funext ds
    apply propext
    rw [GE_matching]
    by_cases hne : ns = [] ∧ ms = []
    · obtain ⟨rfl, rfl⟩ := hne
      exact iff_of_eq (congrFun (hK c) ds)
    rw [eReads_out hE (by simp) (fun e he => hcell e (cell_matching hA hB hne he)) rfl]
    have hno : ¬(A.node q p = none ∧ B.node t u = none) := by
      rw [fits_head hA, fits_head hB]
      simpa using hne
    simp only [editOut]
    rw [if_neg hno, List.append_nil, fits_head hA, fits_head hB]
    refine rOut_append.trans ?_
    match ms, hright with
    | [], _ =>
      simp only [List.head?_nil, Option.map_none]
      cases ns with
      | nil => simp at hne
      | cons n ns => cases n <;> simp [insertOut, matchOut, rOut_nil, GMhead]
    | m :: ms, hright =>
      simp only [List.head?_cons, Option.map_some, propext rOut_insert]
      cases m with
      | deco txt =>
        have : ∀ x : Option (Nat × Node M), matchOut prm c q p t u x (some (j, .deco txt)) = [] := by
          intro x
          match x with
          | none => rfl
          | some (_, n) => cases n <;> rfl
        rw [this, rOut_nil, or_false]
        simp only [RInsert, (hright _ _ rfl c).1]
        cases ns with
        | nil => rfl
        | cons n ns => cases n <;> rfl
      | tok txt' mt' =>
        simp only [RInsert, Bool.false_eq_true, false_and, false_or]
        cases ns with
        | nil => simp [matchOut, rOut_nil, GMhead]
        | cons n ns =>
          cases n with
          | tok txt mt =>
            simp only [List.head?_cons, Option.map_some, matchOut, GMhead]
            split
            · next h =>
              rw [rOut_step (by simp), hboth _ _ _ _ rfl rfl]
              simp only [h.1, h.2, true_and, nodeSize]
              cases c <;> simp [keepStep, seenAt, lowValue_eq, keepPrize, Params.forToken]
            · next h =>
              rw [rOut_nil, false_iff]
              rintro ⟨h1, h2, -⟩
              exact h ⟨h1, h2⟩
          | _ => simp [matchOut, rOut_nil, GMhead]
      | group cs' mt' =>
        simp only [RInsert, Bool.false_eq_true, false_and, false_or]
        cases ns with
        | nil => simp [matchOut, rOut_nil, GMhead]
        | cons n ns =>
          cases n with
          | group cs mt =>
            simp only [List.head?_cons, Option.map_some, matchOut, GMhead]
            split
            · next h =>
              subst h
              rw [rOut_step (by simp)]
              simp only [hgroup _ _ _ _ _ rfl rfl, true_and]
              simp [enterStep, seenAt, lowValue_eq]
            · next h =>
              rw [rOut_nil, false_iff]
              rintro ⟨h1, -⟩
              exact h h1
          | _ => simp [matchOut, rOut_nil, GMhead]
      | rstart =>
        cases ns with
        | nil => simp [matchOut, RInsert, rOut_nil, GMhead]
        | cons n ns => cases n <;> simp [matchOut, RInsert, rOut_nil, GMhead]
      | rend =>
        cases ns with
        | nil => simp [matchOut, RInsert, rOut_nil, GMhead]
        | cons n ns => cases n <;> simp [matchOut, RInsert, rOut_nil, GMhead]
      | exit =>
        cases ns with
        | nil => simp [matchOut, RInsert, rOut_nil, GMhead]
        | cons n ns => cases n <;> simp [matchOut, RInsert, rOut_nil, GMhead]
  have hins : ∀ c, EReads E (.at .mayInsert c q p t u) = GE prm .inserting c i ns j ms K := by
    intro c
    funext ds
    apply propext
    rw [GE_inserting, eReads_out hE (by simp) (fun e he => hcell e (cell_mayInsert hB he)) rfl]
    simp only [editOut, fits_head hB]
    refine rOut_append.trans ?_
    rw [rOut_silent, hmatch]
    refine or_congr ?_ Iff.rfl
    match ms, hright with
    | [], _ => simp [insertOut, rOut_nil, GIhead]
    | m :: ms, hright =>
      simp only [List.head?_cons, Option.map_some, propext rOut_insert]
      cases m with
      | deco txt => simp only [RInsert, GIhead, (hright _ _ rfl c).2, nodeSize]
      | tok txt mt => simp only [RInsert, GIhead, (hright _ _ rfl c).2, nodeSize, true_and]
      | group cs mt => simp only [RInsert, GIhead, higroup _ _ _ rfl, true_and]
      | rstart => rfl
      | rend => rfl
      | exit => rfl
  have hdel : ∀ c, EReads E (.at .mayDelete c q p t u) = GE prm .deleting c i ns j ms K := by
    intro c
    funext ds
    apply propext
    rw [GE_deleting, eReads_out hE (by simp) (fun e he => hcell e (cell_mayDelete hA he)) rfl]
    simp only [editOut, fits_head hA]
    refine rOut_append.trans ?_
    rw [rOut_silent, hins]
    refine or_congr ?_ Iff.rfl
    match ns, hleft with
    | [], _ => simp [advanceOut, rOut_nil, GDhead, GPhead]
    | n :: ns, hleft =>
      simp only [List.head?_cons, Option.map_some, propext (rOut_advance hE)]
      have hP := fun c => (hleft _ _ rfl c).1
      cases n with
      | deco txt => simp only [RAdvance, GDhead, GPhead, hP, nodeSize]
      | tok txt mt => simp only [RAdvance, GDhead, hP, nodeSize, true_and]
      | group cs mt => simp only [RAdvance, GDhead, hdgroup _ _ _ rfl, true_and]
      | rstart => simp only [RAdvance, GDhead, GPhead, hP, nodeSize]
      | rend => simp only [RAdvance, GDhead, GPhead, hP, nodeSize]
      | exit => simp only [RAdvance, GDhead, GPhead, hP, nodeSize]
  refine ⟨hmatch c, hins c, hdel c, ?_⟩
  funext ds
  apply propext
  rw [GE_advancing, eReads_out hE (by simp) (fun e he => hcell e (cell_process hA he)) rfl]
  simp only [editOut, fits_head hA]
  refine rOut_append.trans ?_
  rw [← List.singleton_append, rOut_append, rOut_silent, rOut_step (by simp), hmatch, hdel]
  refine or_congr ?_ (or_congr ?_ Iff.rfl)
  · match ns, hleft with
    | [], _ => simp [advanceOut, rOut_nil, GPhead]
    | n :: ns, hleft =>
      simp only [List.head?_cons, Option.map_some, propext (rOut_advance hE)]
      have hP := fun c => (hleft _ _ rfl c).2
      cases n with
      | deco txt => simp only [RAdvance, GPhead, hP, nodeSize]
      | tok txt mt => simp [RAdvance, GPhead, GP]
      | group cs mt => simp [RAdvance, GPhead, GP]
      | rstart => simp only [RAdvance, GPhead, hP, nodeSize]
      | rend => simp only [RAdvance, GPhead, hP, nodeSize]
      | exit => simp only [RAdvance, GPhead, hP, nodeSize]
  · cases c <;> simp [startEditStep, startPrice]

theorem edits_reads (hE : ∀ e ∈ E, e ∈ editOut prm A B e.source) (ns ms : List (Node M))
    (q : Option Nat) (p i : Nat) (t : Option Nat) (u j : Nat) (K : Conf → ELang)
    (hl : (A.path q).length = (B.path t).length) (hA : Fits A q p i ns) (hB : Fits B t u j ms)
    (hC : Cells prm E q p i t u j ns ms)
    (hK : ∀ c, EReads E (.at .matching c q (p + ns.length) t (u + ms.length)) = K c) (c : Conf) :
    EReads E (.at .matching c q p t u) = GE prm .matching c i ns j ms K
    ∧ EReads E (.at .mayInsert c q p t u) = GE prm .inserting c i ns j ms K
    ∧ EReads E (.at .mayDelete c q p t u) = GE prm .deleting c i ns j ms K
    ∧ EReads E (.at .process c q p t u) = GE prm .advancing c i ns j ms K :=
  edits_reads_aux hE _ ns ms (Nat.lt_succ_self _) q p i t u j K hl hA hB hC hK c

end

/-- The language of the whole DAG. -/
theorem editDag_reads (proto target : List (Node M)) (c : Conf) :
    EReads (editEdges prm proto target) (.at .process c none 0 none 0)
      = GE prm .advancing c 0 proto 0 target (fun c' ds => c' = .high ∧ ds = []) := by
  have hA := treeTable_fits proto
  have hB := treeTable_fits target
  have hl : ((treeTable proto).path none).length = ((treeTable target).path none).length := by
    simp [treeTable_path]
  have hend := fits_end hA
  have hend' := fits_end hB
  rw [Nat.zero_add] at hend hend'
  have ho : ∀ c, editOut prm (treeTable proto) (treeTable target)
      (.at .matching c none proto.length none target.length)
      = if c = .high then [silentEdge (.at .matching c none proto.length none target.length) .final]
        else [] := by
    intro c
    simp [editOut, hend, hend', insertOut, matchOut, treeTable_parent, endOut]
  have hE : ∀ e ∈ editEdges prm proto target,
      e ∈ editOut prm (treeTable proto) (treeTable target) e.source := by
    intro e he
    rcases List.mem_append.mp he with he | he
    · exact matchEdges_local proto none 0 0 none 0 target hA hB hl e he
    · rw [List.mem_singleton] at he
      subst he
      show _ ∈ editOut prm _ _ (.at .matching .high none proto.length none target.length)
      rw [ho]
      simp
  refine (edits_reads hE proto target none 0 0 none 0 0 _ hl hA hB
    (cells_match fun e he => List.mem_append_left _ he) ?_ c).2.2.2
  intro c
  rw [Nat.zero_add, Nat.zero_add]
  funext ds
  apply propext
  rw [eReads_out hE (by simp) (by
    intro e he
    rw [ho] at he
    split at he
    · next h => subst h; exact List.mem_append_right _ he
    · simp at he) (ho c)]
  cases c with
  | high =>
    refine rOut_silent.trans ?_
    rw [eReads_final hE]
    simp
  | low => simp

end RUSure.Lemmas
