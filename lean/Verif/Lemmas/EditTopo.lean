import Verif.Lemmas.EditReads
import Verif.Lemmas.ConstraintTopo
import Mathlib.Data.List.Lex

/-!
# The edges of the edit DAG are in topological order
-/

set_option linter.unusedSimpArgs false
set_option linter.unusedSectionVars false

namespace RUSure.Lemmas
open RUSure RUSure.Spec
variable {M : Type} [DecidableEq M] {prm : Params} {A B : TreeTable M}

/-! ### Blocks of edges -/

/-- All edges of the block start before `hi` and end at or after `lo`, and are in order. -/
structure Ord {σ ε : Type} (src dst : ε → σ) (fin : σ) (key : σ → List Nat) (lo hi : List Nat)
    (es : List ε) : Prop where
  src_lt : ∀ e ∈ es, key (src e) < hi
  le_dst : ∀ e ∈ es, dst e = fin ∨ lo ≤ key (dst e)
  inc : ∀ e ∈ es, dst e = fin ∨ key (src e) < key (dst e)
  pw : es.Pairwise fun x y => dst y = fin ∨ key (src x) < key (dst y)

section
variable {σ ε : Type} {src dst : ε → σ} {fin : σ} {key : σ → List Nat}

theorem Ord.nil (lo hi : List Nat) : Ord src dst fin key lo hi [] :=
  ⟨by simp, by simp, by simp, .nil⟩

theorem Ord.append {lo mid mid' hi : List Nat} {a b : List ε} (ha : Ord src dst fin key lo mid a)
    (hb : Ord src dst fin key mid' hi b) (h : mid ≤ mid') (h1 : lo ≤ mid') (h2 : mid ≤ hi) :
    Ord src dst fin key lo hi (a ++ b) where
  src_lt e he := by
    rcases List.mem_append.mp he with he | he
    · exact lt_of_lt_of_le (ha.src_lt e he) h2
    · exact hb.src_lt e he
  le_dst e he := by
    rcases List.mem_append.mp he with he | he
    · exact ha.le_dst e he
    · exact (hb.le_dst e he).imp id (le_trans h1)
  inc e he := by
    rcases List.mem_append.mp he with he | he
    · exact ha.inc e he
    · exact hb.inc e he
  pw := List.pairwise_append.mpr ⟨ha.pw, hb.pw, fun x hx y hy =>
    (hb.le_dst y hy).imp id (fun h' => lt_of_lt_of_le (ha.src_lt x hx) (le_trans h h'))⟩

theorem Ord.mono {lo lo' hi hi' : List Nat} {a : List ε} (ha : Ord src dst fin key lo hi a)
    (h1 : lo' ≤ lo) (h2 : hi ≤ hi') : Ord src dst fin key lo' hi' a :=
  ⟨fun e he => lt_of_lt_of_le (ha.src_lt e he) h2,
    fun e he => (ha.le_dst e he).imp id (le_trans h1), ha.inc, ha.pw⟩

/-- A block that crosses a key. -/
theorem Ord.cross {k : List Nat} {a : List ε} (h1 : ∀ e ∈ a, key (src e) < k)
    (h2 : ∀ e ∈ a, dst e = fin ∨ k ≤ key (dst e)) : Ord src dst fin key k k a where
  src_lt := h1
  le_dst := h2
  inc e he := (h2 e he).imp id (lt_of_lt_of_le (h1 e he))
  pw := List.pairwise_of_forall_mem_list fun x hx y hy =>
    (h2 y hy).imp id (lt_of_lt_of_le (h1 x hx))

end

theorem klt_app (pre : List Nat) {a b : List Nat} (h : a < b) : pre ++ a < pre ++ b :=
  List.append_left_lt h

theorem kle_app (pre : List Nat) {a b : List Nat} (h : a ≤ b) : pre ++ a ≤ pre ++ b := by
  rcases lt_or_eq_of_le h with h | rfl
  · exact (klt_app pre h).le
  · exact le_refl _

theorem klt_self (pre : List Nat) (a : Nat) (r : List Nat) : pre < pre ++ a :: r := by
  simpa using klt_app pre (a := []) (b := a :: r) (by simp)

theorem kcons_lt {a b : Nat} {l l' : List Nat} : a :: l < b :: l' ↔ a < b ∨ a = b ∧ l < l' :=
  List.cons_lt_cons_iff

theorem kcons_le {a b : Nat} {l l' : List Nat} : a :: l ≤ b :: l' ↔ a < b ∨ a = b ∧ l ≤ l' := by
  rw [le_iff_lt_or_eq, kcons_lt, le_iff_lt_or_eq, List.cons.injEq]
  tauto

theorem knil_le {l : List Nat} : ([] : List Nat) ≤ l := by
  cases l with
  | nil => exact le_refl _
  | cons a l => exact (List.nil_lt_cons a l).le

theorem knil_lt {a : Nat} {l : List Nat} : [] < a :: l := by simp

/-- Comparing keys with a common prefix. -/
macro "klex" : tactic => `(tactic| (
  try simp only [List.append_assoc, List.cons_append, List.nil_append]
  first
    | exact le_refl _
    | exact klt_app _ (by simp only [kcons_lt, kcons_le, knil_le, knil_lt, and_true, true_and,
        or_true, true_or]; try omega)
    | exact kle_app _ (by simp only [kcons_lt, kcons_le, knil_le, knil_lt, and_true, true_and,
        or_true, true_or]; try omega)))

/-! ### Keys of states -/

/-- Number of an alignment. -/
def alignNo : EditAlign → Nat
  | .process => 0
  | .mayDelete => 1
  | .mayInsert => 2
  | .matching => 3
  | .recDelete => 1
  | .recInsert => 2

/-- The two positions, level by level. -/
def mergePaths (ph : Nat) : List Nat → List Nat → List Nat
  | [a], [b] => [a, b, ph]
  | a :: as, [b] => a :: b :: 1 :: as
  | [a], b :: bs => a :: b :: 2 :: bs
  | a :: as, b :: bs => a :: b :: 3 :: mergePaths ph as bs
  | _, _ => []

/-- Key of matched sequences. -/
def pairKey : List Nat → List Nat → List Nat
  | a :: as, b :: bs => a :: b :: 3 :: pairKey as bs
  | _, _ => []

/-- Key of a sequence that is being deleted. -/
def deleteKey (u : Nat) : List Nat → List Nat → List Nat
  | a :: as, [] => a :: u :: 1 :: as
  | a :: as, b :: bs => a :: b :: 3 :: deleteKey u as bs
  | _, _ => []

/-- Key of a sequence that is being inserted. -/
def insertKey (p : Nat) : List Nat → List Nat → List Nat
  | [], b :: bs => p :: b :: 2 :: bs
  | a :: as, b :: bs => a :: b :: 3 :: insertKey p as bs
  | _, _ => []

/-- Key of a state. -/
def editKey (A B : TreeTable M) : EditState → List Nat
  | .at al _ q p t u => mergePaths (alignNo al) (A.path q ++ [p]) (B.path t ++ [u])
  | .final => []

theorem mergePaths_pair {ph p u} : ∀ {as bs : List Nat}, as.length = bs.length →
    mergePaths ph (as ++ [p]) (bs ++ [u]) = pairKey as bs ++ [p, u, ph]
  | [], [], _ => by simp [mergePaths, pairKey]
  | a :: as, b :: bs, h => by
    have ih := mergePaths_pair (ph := ph) (p := p) (u := u) (as := as) (bs := bs) (by simpa using h)
    cases as <;> cases bs <;> simp_all [mergePaths, pairKey]

theorem mergePaths_delete {ph p u} : ∀ {as bs : List Nat}, bs.length < as.length →
    mergePaths ph (as ++ [p]) (bs ++ [u]) = deleteKey u as bs ++ [p]
  | a :: as, [], _ => by cases as <;> simp [mergePaths, deleteKey]
  | a :: as, b :: bs, h => by
    have ih := mergePaths_delete (ph := ph) (p := p) (u := u) (as := as) (bs := bs) (by simpa using h)
    cases as <;> cases bs <;> simp_all [mergePaths, deleteKey]

theorem mergePaths_insert {ph p u} : ∀ {as bs : List Nat}, as.length < bs.length →
    mergePaths ph (as ++ [p]) (bs ++ [u]) = insertKey p as bs ++ [u]
  | [], b :: bs, _ => by cases bs <;> simp [mergePaths, insertKey]
  | a :: as, b :: bs, h => by
    have ih := mergePaths_insert (ph := ph) (p := p) (u := u) (as := as) (bs := bs) (by simpa using h)
    cases as <;> cases bs <;> simp_all [mergePaths, insertKey]

theorem pairKey_snoc {p u} : ∀ {as bs : List Nat}, as.length = bs.length →
    pairKey (as ++ [p]) (bs ++ [u]) = pairKey as bs ++ [p, u, 3]
  | [], [], _ => by simp [pairKey]
  | a :: as, b :: bs, h => by
    simp [pairKey, pairKey_snoc (p := p) (u := u) (as := as) (bs := bs) (by simpa using h)]

theorem deleteKey_first {p u} : ∀ {as bs : List Nat}, as.length = bs.length →
    deleteKey u (as ++ [p]) bs = pairKey as bs ++ [p, u, 1]
  | [], [], _ => by simp [deleteKey, pairKey]
  | a :: as, b :: bs, h => by
    simp [deleteKey, pairKey, deleteKey_first (p := p) (u := u) (as := as) (bs := bs) (by simpa using h)]

theorem deleteKey_snoc {p u} : ∀ {as bs : List Nat}, bs.length < as.length →
    deleteKey u (as ++ [p]) bs = deleteKey u as bs ++ [p]
  | a :: as, [], _ => by simp [deleteKey]
  | a :: as, b :: bs, h => by
    simp [deleteKey, deleteKey_snoc (p := p) (u := u) (as := as) (bs := bs) (by simpa using h)]

theorem insertKey_first {p u} : ∀ {as bs : List Nat}, as.length = bs.length →
    insertKey p as (bs ++ [u]) = pairKey as bs ++ [p, u, 2]
  | [], [], _ => by simp [insertKey, pairKey]
  | a :: as, b :: bs, h => by
    simp [insertKey, pairKey, insertKey_first (p := p) (u := u) (as := as) (bs := bs) (by simpa using h)]

theorem insertKey_snoc {p u} : ∀ {as bs : List Nat}, as.length < bs.length →
    insertKey p as (bs ++ [u]) = insertKey p as bs ++ [u]
  | [], b :: bs, _ => by simp [insertKey]
  | a :: as, b :: bs, h => by
    simp [insertKey, insertKey_snoc (p := p) (u := u) (as := as) (bs := bs) (by simpa using h)]

/-! ### The blocks of the builder -/

/-- Blocks of the edit DAG. -/
abbrev EOrd (A B : TreeTable M) (lo hi : List Nat) (es : List EditEdge) : Prop :=
  Ord Edge.source Edge.dest .final (editKey A B) lo hi es

theorem bothConf_mem {f : Conf → List EditEdge} {P : EditEdge → Prop} (h : ∀ c, ∀ e ∈ f c, P e) :
    ∀ e ∈ bothConf f, P e := by
  intro e he
  obtain ⟨c, he⟩ := mem_bothConf.mp he
  exact h c e he

theorem eOrd_cross {k : List Nat} {es : List EditEdge}
    (h1 : ∀ e ∈ es, editKey A B e.source < k)
    (h2 : ∀ e ∈ es, e.dest = .final ∨ k ≤ editKey A B e.dest) : EOrd A B k k es :=
  Ord.cross h1 h2

/-- One prototype node. -/
theorem deleteNode_ord {al allow q p i t u} {n : Node M} {k0 k1 h : List Nat}
    (hk0 : ∀ c, editKey A B (.at al c q p t u) = k0)
    (hk1 : ∀ c, editKey A B (.at al c q (p + 1) t u) = k1)
    (hn : ∀ cs mt, n = .group cs mt → allow = true →
      (∀ c p', editKey A B (.at .recDelete c (some i) p' t u) = k0 ++ [p'])
      ∧ EOrd A B (k0 ++ [0]) (k0 ++ [cs.length]) (deleteSeq prm (some i) 0 (i + 1) t u cs))
    (hh : ∀ r, k0 ++ r < h) (hle : h ≤ k1) :
    EOrd A B (k0 ++ [0]) h (deleteNode prm al allow q p i t u n) := by
  have hk : k0 < k0 ++ [0] := klt_self _ _ _
  have h0 : k0 ++ [0] ≤ h := (hh [0]).le
  by_cases hg : allow = true ∧ ∃ cs mt, n = .group cs mt
  · obtain ⟨rfl, cs, mt, rfl⟩ := hg
    obtain ⟨hn1, hn2⟩ := hn cs mt rfl rfl
    simp only [deleteNode, if_true]
    refine Ord.append (mid := k0 ++ [cs.length]) (mid' := h) (Ord.append (mid := k0 ++ [0])
      (mid' := k0 ++ [0]) (eOrd_cross ?_ ?_) hn2 (le_refl _) (le_refl _) (by klex))
      (eOrd_cross ?_ ?_) (hh _).le h0 (hh _).le
    · refine bothConf_mem fun c e he => ?_
      rw [List.mem_singleton] at he
      rw [he, hk0]; exact hk
    · refine bothConf_mem fun c e he => ?_
      rw [List.mem_singleton] at he
      right
      rw [he, hn1]
    · refine bothConf_mem fun c e he => ?_
      rw [List.mem_singleton] at he
      rw [he]
      show editKey A B (.at .recDelete c (some i) cs.length t u) < h
      rw [hn1]; exact hh _
    · refine bothConf_mem fun c e he => ?_
      rw [List.mem_singleton] at he
      right
      rw [he]
      show h ≤ editKey A B (.at al c q (p + 1) t u)
      rw [hk1]; exact hle
  · refine Ord.mono (lo := h) (hi := h) (eOrd_cross ?_ ?_) h0 (le_refl _)
    · intro e he
      rcases mem_deleteNode.mp he with ⟨c, h'⟩ | ⟨h1, cs, mt, h2, -⟩
      · rw [advanceOut_source h', hk0]
        simpa using hh []
      · exact absurd ⟨h1, cs, mt, h2⟩ hg
    · intro e he
      rcases mem_deleteNode.mp he with ⟨c, h'⟩ | ⟨h1, cs, mt, h2, -⟩
      · cases n with
        | deco txt =>
          simp only [advanceOut, List.mem_singleton] at h'
          rw [h']; right; rw [hk1]; exact hle
        | tok txt mt =>
          cases allow <;> simp [advanceOut] at h'
          rw [h']; right; rw [hk1]; exact hle
        | group cs mt =>
          cases allow
          · simp [advanceOut] at h'
          · exact absurd ⟨rfl, cs, mt, rfl⟩ hg
        | rstart =>
          cases c <;> simp [advanceOut] at h'
          · rcases h' with rfl | rfl
            · right; rw [hk1]; exact hle
            · right; rw [hk1]; exact hle
          · rw [h']; right; rw [hk1]; exact hle
        | rend =>
          cases c <;> simp [advanceOut] at h'
          · rw [h']; right; rw [hk1]; exact hle
          · rcases h' with rfl | rfl
            · right; rw [hk1]; exact hle
            · right; rw [hk1]; exact hle
        | exit =>
          simp [advanceOut] at h'
          rcases h' with rfl | rfl
          · left; rfl
          · right; rw [hk1]; exact hle
      · exact absurd ⟨h1, cs, mt, h2⟩ hg

theorem editKey_delete {c q p t u} (hl : (B.path t).length < (A.path q).length) :
    editKey A B (.at .recDelete c q p t u) = deleteKey u (A.path q) (B.path t) ++ [p] :=
  mergePaths_delete hl

theorem deleteSeq_ord {t u} : ∀ (ns : List (Node M)) (q : Option Nat) (p i : Nat),
    (B.path t).length < (A.path q).length → Fits A q p i ns →
    EOrd A B (deleteKey u (A.path q) (B.path t) ++ [p])
      (deleteKey u (A.path q) (B.path t) ++ [p + ns.length]) (deleteSeq prm q p i t u ns)
  | [], q, p, i, _, _ => by rw [deleteSeq]; exact .nil _ _
  | n :: ns, q, p, i, hl, hf => by
    obtain ⟨h1, h2, h3⟩ := fits_cons.mp hf
    have ih := deleteSeq_ord ns q (p + 1) _ hl h3 (u := u)
    rw [deleteSeq]
    refine Ord.append (mid := deleteKey u (A.path q) (B.path t) ++ [p + 1])
      (mid' := deleteKey u (A.path q) (B.path t) ++ [p + 1])
      (Ord.mono (deleteNode_ord (fun c => editKey_delete hl) (fun c => editKey_delete hl) ?_ ?_
        (le_refl _)) ?_ (le_refl _)) (Ord.mono ih (le_refl _) ?_) (le_refl _) ?_ ?_
    · cases n with
      | group cs mt =>
        rintro _ _ ⟨⟩ -
        simp only [FitsBelow] at h2
        have hl' : (B.path t).length < (A.path (some i)).length := by
          rw [h2.2.1, List.length_append]; simp; omega
        have hk : deleteKey u (A.path (some i)) (B.path t)
            = deleteKey u (A.path q) (B.path t) ++ [p] := by
          rw [h2.2.1, deleteKey_snoc hl]
        refine ⟨fun c p' => by rw [editKey_delete hl', hk], ?_⟩
        have := deleteSeq_ord cs (some i) 0 (i + 1) hl' h2.2.2 (u := u)
        rw [hk] at this
        simpa using this
      | _ => rintro _ _ ⟨⟩
    · intro r; klex
    · klex
    · rw [List.length_cons]; klex
    · klex
    · rw [List.length_cons]; klex

/-- One target node. -/
theorem insertNode_ord {al allow q p t u j} {m : Node M} {k0 k1 h : List Nat}
    (hk0 : ∀ c, editKey A B (.at al c q p t u) = k0)
    (hk1 : ∀ c, editKey A B (.at al c q p t (u + 1)) = k1)
    (hn : ∀ cs mt, m = .group cs mt → allow = true →
      (∀ c u', editKey A B (.at .recInsert c q p (some j) u') = k0 ++ [u'])
      ∧ EOrd A B (k0 ++ [0]) (k0 ++ [cs.length]) (insertSeq prm q p (some j) 0 (j + 1) cs))
    (hh : ∀ r, k0 ++ r < h) (hle : h ≤ k1) :
    EOrd A B (k0 ++ [0]) h (insertNode prm al allow q p t u j m) := by
  have hk : k0 < k0 ++ [0] := klt_self _ _ _
  have h0 : k0 ++ [0] ≤ h := (hh [0]).le
  by_cases hg : allow = true ∧ ∃ cs mt, m = .group cs mt
  · obtain ⟨rfl, cs, mt, rfl⟩ := hg
    obtain ⟨hn1, hn2⟩ := hn cs mt rfl rfl
    simp only [insertNode, if_true]
    refine Ord.append (mid := k0 ++ [cs.length]) (mid' := h) (Ord.append (mid := k0 ++ [0])
      (mid' := k0 ++ [0]) (eOrd_cross ?_ ?_) hn2 (le_refl _) (le_refl _) (by klex))
      (eOrd_cross ?_ ?_) (hh _).le h0 (hh _).le
    · refine bothConf_mem fun c e he => ?_
      rw [List.mem_singleton] at he
      rw [he]
      show editKey A B (.at al c q p t u) < _
      rw [hk0]; exact hk
    · refine bothConf_mem fun c e he => ?_
      rw [List.mem_singleton] at he
      right
      rw [he]
      show _ ≤ editKey A B (.at .recInsert c q p (some j) 0)
      rw [hn1]
    · refine bothConf_mem fun c e he => ?_
      rw [List.mem_singleton] at he
      rw [he]
      show editKey A B (.at .recInsert c q p (some j) cs.length) < h
      rw [hn1]; exact hh _
    · refine bothConf_mem fun c e he => ?_
      rw [List.mem_singleton] at he
      right
      rw [he]
      show h ≤ editKey A B (.at al c q p t (u + 1))
      rw [hk1]; exact hle
  · refine Ord.mono (lo := h) (hi := h) (eOrd_cross ?_ ?_) h0 (le_refl _)
    · intro e he
      rcases mem_insertNode.mp he with ⟨c, h'⟩ | ⟨h1, cs, mt, h2, -⟩
      · rw [insertOut_source h', hk0]
        simpa using hh []
      · exact absurd ⟨h1, cs, mt, h2⟩ hg
    · intro e he
      rcases mem_insertNode.mp he with ⟨c, h'⟩ | ⟨h1, cs, mt, h2, -⟩
      · cases m with
        | deco txt =>
          simp only [insertOut, List.mem_singleton] at h'
          rw [h']; right; rw [hk1]; exact hle
        | tok txt mt =>
          cases allow <;> simp [insertOut] at h'
          rw [h']; right; rw [hk1]; exact hle
        | group cs mt =>
          cases allow
          · simp [insertOut] at h'
          · exact absurd ⟨rfl, cs, mt, rfl⟩ hg
        | rstart => simp [insertOut] at h'
        | rend => simp [insertOut] at h'
        | exit => simp [insertOut] at h'
      · exact absurd ⟨h1, cs, mt, h2⟩ hg

theorem editKey_insert {c q p t u} (hl : (A.path q).length < (B.path t).length) :
    editKey A B (.at .recInsert c q p t u) = insertKey p (A.path q) (B.path t) ++ [u] :=
  mergePaths_insert hl

theorem insertSeq_ord {q p} : ∀ (ms : List (Node M)) (t : Option Nat) (u j : Nat),
    (A.path q).length < (B.path t).length → Fits B t u j ms →
    EOrd A B (insertKey p (A.path q) (B.path t) ++ [u])
      (insertKey p (A.path q) (B.path t) ++ [u + ms.length]) (insertSeq prm q p t u j ms)
  | [], t, u, j, _, _ => by rw [insertSeq]; exact .nil _ _
  | m :: ms, t, u, j, hl, hf => by
    obtain ⟨h1, h2, h3⟩ := fits_cons.mp hf
    have ih := insertSeq_ord ms t (u + 1) _ hl h3 (p := p)
    rw [insertSeq]
    refine Ord.append (mid := insertKey p (A.path q) (B.path t) ++ [u + 1])
      (mid' := insertKey p (A.path q) (B.path t) ++ [u + 1])
      (Ord.mono (insertNode_ord (fun c => editKey_insert hl) (fun c => editKey_insert hl) ?_ ?_
        (le_refl _)) ?_ (le_refl _)) (Ord.mono ih (le_refl _) ?_) (le_refl _) ?_ ?_
    · cases m with
      | group cs mt =>
        rintro _ _ ⟨⟩ -
        simp only [FitsBelow] at h2
        have hl' : (A.path q).length < (B.path (some j)).length := by
          rw [h2.2.1, List.length_append]; simp; omega
        have hk : insertKey p (A.path q) (B.path (some j))
            = insertKey p (A.path q) (B.path t) ++ [u] := by
          rw [h2.2.1, insertKey_snoc hl]
        refine ⟨fun c p' => by rw [editKey_insert hl', hk], ?_⟩
        have := insertSeq_ord cs (some j) 0 (j + 1) hl' h2.2.2 (p := p)
        rw [hk] at this
        simpa using this
      | _ => rintro _ _ ⟨⟩
    · intro r; klex
    · klex
    · rw [List.length_cons]; klex
    · klex
    · rw [List.length_cons]; klex

theorem editKey_pair {al c q p t u} (hl : (A.path q).length = (B.path t).length) :
    editKey A B (.at al c q p t u) = pairKey (A.path q) (B.path t) ++ [p, u, alignNo al] :=
  mergePaths_pair hl

theorem cell_ord {q p i t u j} {ns ms : List (Node M)} (hA : Fits A q p i ns)
    (hB : Fits B t u j ms) (hl : (A.path q).length = (B.path t).length)
    (hinner : ∀ cs mt cs' mt', ns.head? = some (.group cs mt) → ms.head? = some (.group cs' mt') →
      EOrd A B (pairKey (A.path q) (B.path t) ++ [p, u, 3, 0])
        (pairKey (A.path q) (B.path t) ++ [p, u, 3, cs.length + 1])
        (innerEdges prm i j ns.head? ms.head?)) :
    EOrd A B (pairKey (A.path q) (B.path t) ++ [p, u]) (pairKey (A.path q) (B.path t) ++ [p, u + 1])
      (cellOf prm q p i t u j ns.head? ms.head?) := by
  have hkey : ∀ al c p' u', editKey A B (.at al c q p' t u')
      = pairKey (A.path q) (B.path t) ++ [p', u', alignNo al] := fun al c p' u' => editKey_pair hl
  generalize hK : pairKey (A.path q) (B.path t) = K at hkey hinner
  have hdel : ∀ al, EOrd A B (K ++ [p, u, alignNo al, 0]) (K ++ [p, u, alignNo al + 1])
      (deleteNode? prm al false q p i t u ns.head?) := by
    intro al
    cases ns with
    | nil => exact .nil _ _
    | cons n ns =>
      have := deleteNode_ord (prm := prm) (al := al) (allow := false) (i := i) (n := n)
        (h := K ++ [p, u, alignNo al + 1])
        (fun c => hkey al c p u) (fun c => hkey al c (p + 1) u) (by rintro _ _ _ ⟨⟩)
        (fun r => by klex) (by klex)
      simpa [deleteNode?, insertNode?] using this
  have hdel' : EOrd A B (K ++ [p, u, 1, 0]) (K ++ [p, u, 2])
      (deleteNode? prm .mayDelete true q p i t u ns.head?) := by
    cases ns with
    | nil => exact .nil _ _
    | cons n ns =>
      have := deleteNode_ord (prm := prm) (al := .mayDelete) (allow := true) (i := i) (n := n)
        (h := K ++ [p, u, 2])
        (fun c => hkey .mayDelete c p u) (fun c => hkey .mayDelete c (p + 1) u) (by
          rintro cs mt rfl -
          obtain ⟨-, h2, -⟩ := fits_cons.mp hA
          simp only [FitsBelow] at h2
          have hl' : (B.path t).length < (A.path (some i)).length := by
            rw [h2.2.1, List.length_append]; simp; omega
          have hk : deleteKey u (A.path (some i)) (B.path t) = K ++ [p, u, 1] := by
            rw [h2.2.1, deleteKey_first hl, hK]
          refine ⟨fun c p' => by rw [editKey_delete hl', hk]; rfl, ?_⟩
          have := deleteSeq_ord cs (some i) 0 (i + 1) hl' h2.2.2 (u := u) (prm := prm)
          rw [hk] at this
          simpa [alignNo] using this)
        (fun r => by simp only [alignNo]; klex) (by simp only [alignNo]; klex)
      simpa [alignNo, deleteNode?, insertNode?] using this
  have hins : ∀ al, EOrd A B (K ++ [p, u, alignNo al, 0]) (K ++ [p, u, alignNo al + 1])
      (insertNode? prm al false q p t u j ms.head?) := by
    intro al
    cases ms with
    | nil => exact .nil _ _
    | cons m ms =>
      have := insertNode_ord (prm := prm) (al := al) (allow := false) (j := j) (m := m)
        (h := K ++ [p, u, alignNo al + 1])
        (fun c => hkey al c p u) (fun c => hkey al c p (u + 1)) (by rintro _ _ _ ⟨⟩)
        (fun r => by klex) (by klex)
      simpa [deleteNode?, insertNode?] using this
  have hins' : EOrd A B (K ++ [p, u, 2, 0]) (K ++ [p, u, 3])
      (insertNode? prm .mayInsert true q p t u j ms.head?) := by
    cases ms with
    | nil => exact .nil _ _
    | cons m ms =>
      have := insertNode_ord (prm := prm) (al := .mayInsert) (allow := true) (j := j) (m := m)
        (h := K ++ [p, u, 3])
        (fun c => hkey .mayInsert c p u) (fun c => hkey .mayInsert c p (u + 1)) (by
          rintro cs mt rfl -
          obtain ⟨-, h2, -⟩ := fits_cons.mp hB
          simp only [FitsBelow] at h2
          have hl' : (A.path q).length < (B.path (some j)).length := by
            rw [h2.2.1, List.length_append]; simp; omega
          have hk : insertKey p (A.path q) (B.path (some j)) = K ++ [p, u, 2] := by
            rw [h2.2.1, insertKey_first hl, hK]
          refine ⟨fun c p' => by rw [editKey_insert hl', hk]; rfl, ?_⟩
          have := insertSeq_ord cs (some j) 0 (j + 1) hl' h2.2.2 (p := p) (prm := prm)
          rw [hk] at this
          simpa [alignNo] using this)
        (fun r => by simp only [alignNo]; klex) (by simp only [alignNo]; klex)
      simpa [alignNo, deleteNode?, insertNode?] using this
  -- the edges of the matching state
  have hmat : EOrd A B (K ++ [p, u, 3, 0]) (K ++ [p, u, 3, 0])
      (insertNode? prm .matching false q p t u j ms.head?
        ++ keepTokenEdges prm q p i t u j ns.head? ms.head?) := by
    refine eOrd_cross ?_ ?_
    · intro e he
      have : ∃ c, e.source = .at .matching c q p t u := by
        rcases List.mem_append.mp he with he | he
        · cases hm : ms.head? with
          | none => rw [hm] at he; simp [insertNode?] at he
          | some m =>
            rw [hm] at he
            rcases mem_insertNode.mp he with ⟨c, h⟩ | ⟨h, -⟩
            · exact ⟨c, insertOut_source h⟩
            · simp at h
        · unfold keepTokenEdges at he
          split at he
          · split at he
            · obtain ⟨c, he⟩ := mem_bothConf.mp he
              rw [List.mem_singleton] at he
              exact ⟨c, by rw [he]⟩
            · simp at he
          · simp at he
      obtain ⟨c, h⟩ := this
      rw [h, hkey]
      simp only [alignNo]; klex
    · intro e he
      rcases List.mem_append.mp he with he | he
      · refine ((hins .matching).inc e he).imp id fun h => ?_
        cases hm : ms.head? with
        | none => rw [hm] at he; simp [insertNode?] at he
        | some m =>
          rw [hm] at he
          rcases mem_insertNode.mp he with ⟨c, h'⟩ | ⟨h', -⟩
          · cases m with
            | deco txt =>
              simp only [insertOut, List.mem_singleton] at h'
              rw [h', hkey]; simp only [alignNo]; klex
            | _ => simp [insertOut] at h'
          · simp at h'
      · unfold keepTokenEdges at he
        split at he
        · split at he
          · obtain ⟨c, he⟩ := mem_bothConf.mp he
            rw [List.mem_singleton] at he
            right
            rw [he, hkey]; simp only [alignNo]; klex
          · simp at he
        · simp at he
  have hgrp : EOrd A B (K ++ [p, u, 3, 0]) (K ++ [p, u, 4])
      (matchGroupEdges q p i t u j (innerEdges prm i j ns.head? ms.head?) ns.head? ms.head?) := by
    unfold matchGroupEdges
    split
    · next cs mt cs' mt' hn hm =>
      split
      · have hin := hinner cs mt cs' mt' hn hm
        obtain ⟨ns, rfl⟩ : ∃ ns', ns = .group cs mt :: ns' := by
          cases ns with
          | nil => simp at hn
          | cons n ns => simp at hn; exact ⟨ns, by rw [hn]⟩
        obtain ⟨ms, rfl⟩ : ∃ ms', ms = .group cs' mt' :: ms' := by
          cases ms with
          | nil => simp at hm
          | cons m ms => simp at hm; exact ⟨ms, by rw [hm]⟩
        obtain ⟨-, h2, -⟩ := fits_cons.mp hA
        obtain ⟨-, h2', -⟩ := fits_cons.mp hB
        simp only [FitsBelow] at h2 h2'
        have hl' : (A.path (some i)).length = (B.path (some j)).length := by
          rw [h2.2.1, h2'.2.1, List.length_append, List.length_append, hl]; simp
        have hkey' : ∀ al c p' u', editKey A B (.at al c (some i) p' (some j) u')
            = K ++ [p, u, 3, p', u', alignNo al] := by
          intro al c p' u'
          rw [editKey_pair hl', h2.2.1, h2'.2.1, pairKey_snoc hl, hK]
          simp
        refine Ord.append (mid := K ++ [p, u, 3, cs.length + 1]) (mid' := K ++ [p, u, 4])
          (Ord.append (mid := K ++ [p, u, 3, 0]) (mid' := K ++ [p, u, 3, 0]) (eOrd_cross ?_ ?_) hin
            (le_refl _) (le_refl _) (by klex)) (eOrd_cross ?_ ?_) (by klex) (by klex) (by klex)
        · refine bothConf_mem fun c e he => ?_
          rw [List.mem_singleton] at he
          rw [he, hkey]; simp only [alignNo]; klex
        · refine bothConf_mem fun c e he => ?_
          rw [List.mem_singleton] at he
          right
          rw [he, hkey']; simp only [alignNo]; klex
        · refine bothConf_mem fun c e he => ?_
          rw [List.mem_singleton] at he
          rw [he]
          show editKey A B (.at .matching c (some i) cs.length (some j) cs'.length) < _
          rw [hkey']; klex
        · refine bothConf_mem fun c e he => ?_
          rw [List.mem_singleton] at he
          right
          rw [he]
          show _ ≤ editKey A B (.at .process c q (p + 1) t (u + 1))
          rw [hkey]; klex
      · exact .nil _ _
    · exact .nil _ _
  have hproc : EOrd A B (K ++ [p, u, 1]) (K ++ [p, u, 1]) (bothConf fun c =>
      [⟨.at .process c q p t u, .at .mayDelete c q p t u,
        (match c with
          | .high => (prm.highStart : ℚ)
          | .low => (prm.lowStart : ℚ)),
        none, some ⟨none, none, .startEditing, some c⟩⟩,
      silentEdge (.at .process c q p t u) (.at .matching c q p t u)]) := by
    refine eOrd_cross ?_ ?_
    · refine bothConf_mem fun c e he => ?_
      rw [List.mem_cons, List.mem_singleton] at he
      have : e.source = .at .process c q p t u := by rcases he with rfl | rfl <;> rfl
      rw [this, hkey]; simp only [alignNo]; klex
    · refine bothConf_mem fun c e he => ?_
      rw [List.mem_cons, List.mem_singleton] at he
      right
      rcases he with rfl | rfl
      · show _ ≤ editKey A B (.at .mayDelete c q p t u)
        rw [hkey]; simp only [alignNo]; klex
      · show _ ≤ editKey A B (.at .matching c q p t u)
        rw [hkey]; simp only [alignNo]; klex
  have hsil : ∀ al al', alignNo al < alignNo al' →
      EOrd A B (K ++ [p, u, alignNo al']) (K ++ [p, u, alignNo al'])
        (bothConf fun c => [silentEdge (.at al c q p t u) (.at al' c q p t u)]) := by
    intro al al' h
    refine eOrd_cross ?_ ?_
    · refine bothConf_mem fun c e he => ?_
      rw [List.mem_singleton] at he
      rw [he]
      show editKey A B (.at al c q p t u) < _
      rw [hkey]; klex
    · refine bothConf_mem fun c e he => ?_
      rw [List.mem_singleton] at he
      right
      rw [he]
      show _ ≤ editKey A B (.at al' c q p t u)
      rw [hkey]
  have h1 := hsil .mayDelete .mayInsert (by decide)
  have h2 := hsil .mayInsert .matching (by decide)
  have h3 := hdel .process
  simp only [alignNo] at h1 h2 h3
  rw [cellOf, cellEdges, List.append_assoc _ _ (keepTokenEdges prm q p i t u j ns.head? ms.head?)]
  have g1 := Ord.append h3 hproc (le_refl _) (by klex) (le_refl _)
  have g2 := Ord.append g1 hdel' (by klex) (by klex) (by klex)
  have g3 := Ord.append g2 h1 (le_refl _) (by klex) (le_refl _)
  have g4 := Ord.append g3 hins' (by klex) (by klex) (by klex)
  have g5 := Ord.append g4 h2 (le_refl _) (by klex) (le_refl _)
  have g6 := Ord.append g5 hmat (by klex) (by klex) (by klex)
  have g7 := Ord.append g6 hgrp (le_refl _) (by klex) (by klex)
  exact g7.mono (by klex) (by klex)

theorem overTarget_ord {K : List Nat} {p : Nat} {t : Option Nat}
    {body : Nat → Nat → Option (Node M) → List EditEdge} :
    ∀ (ms : List (Node M)) (u j : Nat), Fits B t u j ms →
    (∀ pre ms', ms = pre ++ ms' → EOrd A B (K ++ [p, u + pre.length]) (K ++ [p, u + pre.length + 1])
      (body (u + pre.length) (j + seqSize pre) ms'.head?)) →
    EOrd A B (K ++ [p, u]) (K ++ [p + 1]) (overTarget body u j ms)
  | [], u, j, _, h => by
    have := h [] [] rfl
    rw [overTarget]
    simp only [List.length_nil, seqSize, Nat.add_zero] at this
    exact this.mono (le_refl _) (by klex)
  | m :: ms, u, j, hB, h => by
    have h1 := h [] (m :: ms) rfl
    simp only [List.length_nil, seqSize, Nat.add_zero, List.head?_cons] at h1
    have ih := overTarget_ord ms (u + 1) (j + nodeSize m) (fits_cons.mp hB).2.2 (K := K) (p := p)
      (body := body) (by
        rintro pre ms' rfl
        have := h (m :: pre) ms' rfl
        simpa [seqSize, Nat.add_assoc, Nat.add_comm 1] using this)
    rw [overTarget]
    exact Ord.append h1 ih (le_refl _) (by klex) (by klex)

theorem matchEdges_ord : ∀ (ns : List (Node M)) (q : Option Nat) (p i : Nat) (t : Option Nat)
    (j : Nat) (T : List (Node M)), Fits A q p i ns → Fits B t 0 j T →
    (A.path q).length = (B.path t).length →
    EOrd A B (pairKey (A.path q) (B.path t) ++ [p])
      (pairKey (A.path q) (B.path t) ++ [p + ns.length + 1]) (matchEdges prm q p i t j T ns)
  | [], q, p, i, t, j, T, hA, hB, hl => by
    rw [matchEdges_nil]
    refine (overTarget_ord T 0 j hB (K := pairKey (A.path q) (B.path t)) (p := p) ?_).mono
      (by klex) (by klex)
    rintro pre ms rfl
    rw [Nat.zero_add]
    have := fits_drop hB
    rw [Nat.zero_add] at this
    exact cell_ord (ns := []) hA this hl (by rintro _ _ _ _ ⟨⟩)
  | n :: ns, q, p, i, t, j, T, hA, hB, hl => by
    rw [matchEdges_cons]
    refine Ord.append (mid := pairKey (A.path q) (B.path t) ++ [p + 1])
      ((overTarget_ord T 0 j hB (K := pairKey (A.path q) (B.path t)) (p := p) ?_).mono (by klex)
        (le_refl _)) ((matchEdges_ord ns q (p + 1) _ t j T (fits_cons.mp hA).2.2 hB hl).mono
        (le_refl _) (by rw [List.length_cons]; klex)) (le_refl _) (by klex)
      (by rw [List.length_cons]; klex)
    rintro pre ms rfl
    rw [Nat.zero_add]
    have hB' := fits_drop hB
    rw [Nat.zero_add] at hB'
    refine cell_ord (ns := n :: ns) hA hB' hl ?_
    cases n with
    | group cs mt =>
      intro cs1 mt1 cs' mt' h1 h2
      cases h1
      obtain ⟨ms, rfl⟩ : ∃ ms', ms = .group cs' mt' :: ms' := by
        cases ms with
        | nil => simp at h2
        | cons m ms => simp at h2; exact ⟨ms, by rw [h2]⟩
      obtain ⟨-, h3, -⟩ := fits_cons.mp hA
      obtain ⟨-, h3', -⟩ := fits_cons.mp hB'
      simp only [FitsBelow] at h3 h3'
      have := matchEdges_ord cs (some i) 0 (i + 1) (some (j + seqSize pre))
        (j + seqSize pre + 1) cs' h3.2.2 h3'.2.2 (by
          rw [h3.2.1, h3'.2.1, List.length_append, List.length_append, hl]; simp)
      rw [h3.2.1, h3'.2.1, pairKey_snoc hl] at this
      simpa [innerEdges] using this
    | _ => rintro _ _ _ _ ⟨⟩

/-- The edges of the edit DAG are in topological order. -/
theorem editEdges_topo (prm : Params) (proto target : List (Node M)) :
    TopoWeak Edge.source Edge.dest (editEdges prm proto target)
    ∧ ∀ e ∈ editEdges prm proto target, e.dest ≠ e.source := by
  have hA := treeTable_fits proto
  have hB := treeTable_fits target
  have hl : ((treeTable proto).path none).length = ((treeTable target).path none).length := by
    simp [treeTable_path]
  have hm := matchEdges_ord (prm := prm) proto none 0 0 none 0 target hA hB hl
  have hall : EOrd (treeTable proto) (treeTable target) [0] [proto.length + 1]
      (editEdges prm proto target) := by
    have h0 : pairKey ((treeTable proto).path none) ((treeTable target).path none) = [] := by
      simp [treeTable_path, pairKey]
    rw [h0] at hm
    simp only [List.nil_append, Nat.zero_add] at hm
    refine ⟨?_, ?_, ?_, ?_⟩
    · intro e he
      rcases List.mem_append.mp he with he | he
      · exact hm.src_lt e he
      · rw [List.mem_singleton] at he
        rw [he]
        show editKey _ _ (.at .matching .high none proto.length none target.length) < _
        rw [editKey_pair hl, h0]
        simp [kcons_lt]
    · intro e he
      rcases List.mem_append.mp he with he | he
      · exact hm.le_dst e he
      · rw [List.mem_singleton] at he
        rw [he]; exact .inl rfl
    · intro e he
      rcases List.mem_append.mp he with he | he
      · exact hm.inc e he
      · rw [List.mem_singleton] at he
        rw [he]; exact .inl rfl
    · refine List.pairwise_append.mpr ⟨hm.pw, List.pairwise_singleton _ _, ?_⟩
      intro x _ y hy
      rw [List.mem_singleton] at hy
      rw [hy]; exact .inl rfl
  have hsrc : ∀ e ∈ editEdges prm proto target, e.source ≠ .final := by
    intro e he h
    have : e ∈ editOut prm (treeTable proto) (treeTable target) e.source := by
      rcases List.mem_append.mp he with he | he
      · exact matchEdges_local proto none 0 0 none 0 target hA hB hl e he
      · rw [List.mem_singleton] at he
        rw [he] at h
        cases h
    rw [h] at this
    simp [editOut] at this
  constructor
  · refine (List.Pairwise.and_mem.mp hall.pw).imp ?_
    rintro x y ⟨hx, hy, h⟩ heq
    rcases h with h | h
    · exact hsrc x hx (heq.symm.trans h)
    · rw [heq] at h; exact lt_irrefl _ h
  · intro e he heq
    rcases hall.inc e he with h | h
    · exact hsrc e he (heq.symm.trans h)
    · rw [heq] at h; exact lt_irrefl _ h

theorem constructEditDag_ok (prm : Params) (proto target : List (Node M)) :
    constructEditDag prm proto target = .ok ⟨editInitial, editEdges prm proto target, .final⟩ := by
  obtain ⟨d, h1, h2, h3⟩ := addAll_start _ editInitial (editEdges_topo prm proto target).1
  rw [constructEditDag, h1]
  simp [PartialDag.finish, h2, h3]

end RUSure.Lemmas
