import Verif.Model.Constraint

/-!
# Looking up the nodes of a tree by sequence and position

Sequences are named by the preorder index of their group, the root sequence by `none`.
-/

set_option linter.unusedSimpArgs false

namespace RUSure.Lemmas
open RUSure
variable {M : Type}

/-- What can be looked up: the node at a position (with its preorder index), where a group is, and
the positions that lead to a sequence. -/
structure TreeTable (M : Type) where
  node : Option Nat → Nat → Option (Nat × Node M)
  parent : Option Nat → Option (Option Nat × Nat)
  path : Option Nat → List Nat

/-- The table describes the nodes `ns`, which are at position `pos` and after it in the sequence
`seq`, the first having preorder index `i`, up to the end of the sequence. -/
def Fits (A : TreeTable M) (seq : Option Nat) (pos i : Nat) : List (Node M) → Prop
  | [] => A.node seq pos = none
  | n :: ns =>
    A.node seq pos = some (i, n)
    ∧ (match n with
        | .group cs _ => A.parent (some i) = some (seq, pos)
            ∧ A.path (some i) = A.path seq ++ [pos] ∧ Fits A (some i) 0 (i + 1) cs
        | _ => True)
    ∧ Fits A seq (pos + 1) (i + nodeSize n) ns

/-- What the table has to say about the nodes below a node. -/
def FitsBelow (A : TreeTable M) (seq : Option Nat) (pos i : Nat) (n : Node M) : Prop :=
  match n with
  | .group cs _ => A.parent (some i) = some (seq, pos)
      ∧ A.path (some i) = A.path seq ++ [pos] ∧ Fits A (some i) 0 (i + 1) cs
  | _ => True

theorem fits_nil {A : TreeTable M} {seq : Option Nat} {pos i : Nat} :
    Fits A seq pos i [] ↔ A.node seq pos = none := by simp [Fits]

theorem fits_cons {A : TreeTable M} {seq : Option Nat} {pos i : Nat} {n : Node M}
    {ns : List (Node M)} : Fits A seq pos i (n :: ns) ↔ A.node seq pos = some (i, n)
      ∧ FitsBelow A seq pos i n ∧ Fits A seq (pos + 1) (i + nodeSize n) ns := by
  cases n <;> simp [Fits, FitsBelow]

/-- Number of a sequence. -/
def seqNo : Option Nat → Nat
  | none => 0
  | some i => i + 1

/-- The node at a position. -/
def nodeAt (seq : Option Nat) (pos i : Nat) : List (Node M) → Option Nat → Nat →
    Option (Nat × Node M)
  | [], _, _ => none
  | n :: ns, q, p =>
    if q = seq ∧ p = pos then some (i, n)
    else
      (match n with
        | .group cs _ => nodeAt (some i) 0 (i + 1) cs q p
        | _ => none).or (nodeAt seq (pos + 1) (i + nodeSize n) ns q p)

/-- The position of a group and the path to its sequence. -/
def groupAt (seq : Option Nat) (path : List Nat) (pos i : Nat) : List (Node M) → Option Nat →
    Option (Option Nat × Nat × List Nat)
  | [], _ => none
  | n :: ns, q =>
    if q = some i then some (seq, pos, path ++ [pos])
    else
      (match n with
        | .group cs _ => groupAt (some i) (path ++ [pos]) 0 (i + 1) cs q
        | _ => none).or (groupAt seq path (pos + 1) (i + nodeSize n) ns q)

/-- Nodes below a node. -/
def nodeBelow (i : Nat) (n : Node M) (q : Option Nat) (p : Nat) : Option (Nat × Node M) :=
  match n with
  | .group cs _ => nodeAt (some i) 0 (i + 1) cs q p
  | _ => none

/-- Groups below a node. -/
def groupBelow (path : List Nat) (pos i : Nat) (n : Node M) (q : Option Nat) :
    Option (Option Nat × Nat × List Nat) :=
  match n with
  | .group cs _ => groupAt (some i) (path ++ [pos]) 0 (i + 1) cs q
  | _ => none

theorem nodeAt_nil (seq : Option Nat) (pos i : Nat) (q : Option Nat) (p : Nat) :
    nodeAt seq pos i ([] : List (Node M)) q p = none := by simp [nodeAt]

theorem groupAt_nil (seq : Option Nat) (path : List Nat) (pos i : Nat) (q : Option Nat) :
    groupAt seq path pos i ([] : List (Node M)) q = none := by simp [groupAt]

theorem nodeAt_cons (seq : Option Nat) (pos i : Nat) (n : Node M) (ns : List (Node M))
    (q : Option Nat) (p : Nat) :
    nodeAt seq pos i (n :: ns) q p = if q = seq ∧ p = pos then some (i, n)
      else (nodeBelow i n q p).or (nodeAt seq (pos + 1) (i + nodeSize n) ns q p) := by
  cases n <;> simp [nodeAt, nodeBelow]

theorem groupAt_cons (seq : Option Nat) (path : List Nat) (pos i : Nat) (n : Node M)
    (ns : List (Node M)) (q : Option Nat) :
    groupAt seq path pos i (n :: ns) q = if q = some i then some (seq, pos, path ++ [pos])
      else (groupBelow path pos i n q).or (groupAt seq path (pos + 1) (i + nodeSize n) ns q) := by
  cases n <;> simp [groupAt, groupBelow]

/-- The table of a tree. -/
def treeTable (root : List (Node M)) : TreeTable M where
  node := nodeAt none 0 0 root
  parent q := (groupAt none [] 0 0 root q).map fun x => (x.1, x.2.1)
  path q := ((groupAt none [] 0 0 root q).map fun x => x.2.2).getD []

theorem nodeAt_foot : ∀ (ns : List (Node M)) (seq : Option Nat) (pos i : Nat) (q : Option Nat)
    (p : Nat), nodeAt seq pos i ns q p ≠ none →
    (q = seq ∧ pos ≤ p ∧ p < pos + ns.length) ∨ (i < seqNo q ∧ seqNo q ≤ i + seqSize ns)
  | [], _, _, _, _, _ => by simp [nodeAt_nil]
  | n :: ns, seq, pos, i, q, p => by
    rw [nodeAt_cons]
    split
    · next h => intro _; left; simp [h]
    · intro h
      have : nodeBelow i n q p ≠ none ∨ nodeAt seq (pos + 1) (i + nodeSize n) ns q p ≠ none := by
        by_contra hc
        push Not at hc
        rw [hc.1, hc.2] at h
        exact h rfl
      rcases this with h | h
      · cases n with
        | group cs mt =>
          have := nodeAt_foot cs (some i) 0 (i + 1) q p h
          right
          simp only [seqSize, nodeSize]
          rcases this with ⟨rfl, -, -⟩ | h
          · simp only [seqNo]; omega
          · omega
        | _ => exact absurd rfl h
      · have := nodeAt_foot ns seq (pos + 1) _ q p h
        simp only [seqSize, List.length_cons]
        rcases this with ⟨rfl, h1, h2⟩ | h
        · left; exact ⟨rfl, by omega, by omega⟩
        · right; omega

theorem groupAt_foot : ∀ (ns : List (Node M)) (seq : Option Nat) (path : List Nat) (pos i : Nat)
    (q : Option Nat), groupAt seq path pos i ns q ≠ none → i < seqNo q ∧ seqNo q ≤ i + seqSize ns
  | [], _, _, _, _, _ => by simp [groupAt_nil]
  | n :: ns, seq, path, pos, i, q => by
    rw [groupAt_cons]
    have hn : 1 ≤ nodeSize n := by cases n <;> simp [nodeSize]
    split
    · next h => intro _; subst h; simp only [seqNo, seqSize]; omega
    · intro h
      have : groupBelow path pos i n q ≠ none ∨ groupAt seq path (pos + 1) (i + nodeSize n) ns q ≠ none := by
        by_contra hc
        push Not at hc
        rw [hc.1, hc.2] at h
        exact h rfl
      rcases this with h | h
      · cases n with
        | group cs mt =>
          have := groupAt_foot cs (some i) (path ++ [pos]) 0 (i + 1) q h
          simp only [seqSize, nodeSize]
          omega
        | _ => exact absurd rfl h
      · have := groupAt_foot ns seq path (pos + 1) _ q h
        simp only [seqSize]
        omega

theorem fits_of_agree : ∀ (ns : List (Node M)) (A : TreeTable M) (seq : Option Nat) (pos i : Nat),
    seqNo seq ≤ i →
    (∀ q p, (q = seq ∧ pos ≤ p) ∨ (i < seqNo q ∧ seqNo q ≤ i + seqSize ns) →
      A.node q p = nodeAt seq pos i ns q p) →
    (∀ q, i < seqNo q → seqNo q ≤ i + seqSize ns →
      A.parent q = (groupAt seq (A.path seq) pos i ns q).map (fun x => (x.1, x.2.1))
      ∧ A.path q = ((groupAt seq (A.path seq) pos i ns q).map fun x => x.2.2).getD []) →
    Fits A seq pos i ns
  | [], A, seq, pos, i, _, h1, _ => by
    rw [fits_nil, h1 seq pos (by simp), nodeAt_nil]
  | n :: ns, A, seq, pos, i, hs, h1, h2 => by
    have hn : 1 ≤ nodeSize n := by cases n <;> simp [nodeSize]
    have hloc : ∀ q p, (q = seq ∧ pos + 1 ≤ p)
        ∨ (i + nodeSize n < seqNo q ∧ seqNo q ≤ i + nodeSize n + seqSize ns) →
        nodeBelow i n q p = none := by
      intro q p h
      cases n with
      | group cs mt =>
        by_contra hc
        simp only [nodeSize] at h
        rcases nodeAt_foot cs (some i) 0 (i + 1) q p hc with ⟨rfl, -, -⟩ | h'
        · rcases h with ⟨rfl, -⟩ | h
          · simp only [seqNo] at hs; omega
          · simp only [seqNo] at h; omega
        · rcases h with ⟨rfl, -⟩ | h <;> omega
      | _ => rfl
    rw [fits_cons]
    refine ⟨?_, ?_, fits_of_agree ns A seq (pos + 1) (i + nodeSize n) (by omega) ?_ ?_⟩
    · rw [h1 _ _ (by simp)]; simp [nodeAt_cons]
    · cases n with
      | group cs mt =>
        obtain ⟨g1, g2⟩ := h2 (some i) (by simp [seqNo]) (by simp only [seqNo, seqSize]; omega)
        simp only [groupAt_cons, if_true, Option.map_some, Option.getD_some] at g1 g2
        refine ⟨g1, g2, fits_of_agree cs A (some i) 0 (i + 1) (by simp [seqNo]) ?_ ?_⟩
        · intro q p h
          have hq : i < seqNo q ∧ seqNo q ≤ i + 1 + seqSize cs := by
            rcases h with ⟨rfl, -⟩ | h
            · simp only [seqNo]; omega
            · omega
          rw [h1 q p (.inr (by simp only [seqSize, nodeSize]; omega)), nodeAt_cons,
            if_neg (by rintro ⟨rfl, -⟩; omega)]
          have : nodeAt seq (pos + 1) (i + nodeSize (.group cs mt)) ns q p = none := by
            by_contra hc
            rcases nodeAt_foot ns _ _ _ q p hc with ⟨rfl, -⟩ | h'
            · omega
            · simp only [nodeSize] at h'; omega
          rw [this]; simp [nodeBelow]
        · intro q hq1 hq2
          obtain ⟨g3, g4⟩ := h2 q (by omega) (by simp only [seqSize, nodeSize]; omega)
          have : groupAt seq (A.path seq) (pos + 1) (i + nodeSize (.group cs mt)) ns q = none := by
            by_contra hc
            have := groupAt_foot ns _ _ _ _ q hc
            simp only [nodeSize] at this; omega
          rw [groupAt_cons, if_neg (by rintro rfl; simp [seqNo] at hq1), this] at g3 g4
          simp only [groupBelow, Option.or_none] at g3 g4
          rw [g2]
          exact ⟨g3, g4⟩
      | _ => trivial
    · intro q p h
      rw [h1 q p (by
        simp only [seqSize]
        rcases h with ⟨h, h'⟩ | h
        · exact .inl ⟨h, by omega⟩
        · exact .inr (by omega)), nodeAt_cons, hloc q p h]
      rw [if_neg]
      · simp
      · rintro ⟨rfl, rfl⟩; omega
    · intro q hq1 hq2
      obtain ⟨g3, g4⟩ := h2 q (by omega) (by simp only [seqSize]; omega)
      have : groupBelow (A.path seq) pos i n q = none := by
        cases n with
        | group cs mt =>
          by_contra hc
          have := groupAt_foot cs _ _ _ _ q hc
          simp only [nodeSize] at hq1; omega
        | _ => rfl
      rw [groupAt_cons, if_neg (by rintro rfl; simp only [seqNo] at hq1; omega), this] at g3 g4
      simpa using ⟨g3, g4⟩

theorem treeTable_fits (root : List (Node M)) : Fits (treeTable root) none 0 0 root := by
  have hp : (treeTable root).path none = [] := by
    have : groupAt none [] 0 0 root none = none := by
      by_contra hc
      have := groupAt_foot root _ _ _ _ _ hc
      simp [seqNo] at this
    simp [treeTable, this]
  refine fits_of_agree root _ none 0 0 (by simp [seqNo]) (fun _ _ _ => rfl) fun q _ _ => ?_
  rw [hp]
  exact ⟨rfl, rfl⟩

theorem treeTable_path (root : List (Node M)) : (treeTable root).path none = [] := by
  have : groupAt none [] 0 0 root none = none := by
    by_contra hc
    have := groupAt_foot root _ _ _ _ _ hc
    simp [seqNo] at this
  simp [treeTable, this]

theorem treeTable_parent (root : List (Node M)) : (treeTable root).parent none = none := by
  have : groupAt none [] 0 0 root none = none := by
    by_contra hc
    have := groupAt_foot root _ _ _ _ _ hc
    simp [seqNo] at this
  simp [treeTable, this]

end RUSure.Lemmas
