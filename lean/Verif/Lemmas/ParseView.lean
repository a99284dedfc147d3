import Verif.Spec.ParseView
import Verif.Lemmas.DebugView
import Mathlib.Data.List.Induction

/-!
# The view of a pseudo parse tree
-/

namespace RUSure.ParseView
open RUSure.Spec RUSure.Debug

theorem collapse_sub : ∀ (t : Text) (c : Char), c ∈ collapse t → c ∈ t
  | [], c, h => h
  | [d], c, h => by
    rw [show collapse [d] = [d] by unfold collapse; split <;> simp_all [collapse]] at h
    exact h
  | d :: e :: t, c, h => by
    unfold collapse at h
    split at h
    · rename_i t' heq
      cases heq
      rcases List.mem_cons.1 h with rfl | h
      · simp
      · have := collapse_sub _ _ h
        simp [this]
    · rename_i heq
      cases heq
      rcases List.mem_cons.1 h with rfl | h
      · simp
      · have := collapse_sub _ _ h
        exact List.mem_cons_of_mem _ this
    · cases h

theorem collapse_id : ∀ (t : Text), '\\' ∉ t → collapse t = t
  | [], _ => rfl
  | d :: t, h => by
    unfold collapse
    split
    · rename_i heq
      cases heq
      simp at h
    · rename_i heq
      cases heq
      rw [collapse_id t fun m => h (List.mem_cons_of_mem _ m)]
    · rename_i heq
      cases heq

theorem unquoted_newline (printable : Char → Bool) (t : Text) : '\n' ∉ unquoted printable t := by
  intro h
  exact repr_newline printable t (List.mem_of_mem_tail (List.dropLast_sublist _ |>.subset (collapse_sub _ _ h)))

theorem escape_of_plain (printable : Char → Bool) {q c : Char} (hq : q = '\'' ∨ q = '"') (h : Plain c) :
    escape printable q c = [c] := by
  obtain ⟨h1, h2, h3, h4, h5⟩ := h
  have e1 : ¬ (c = q ∨ c = '\\') := by
    rintro (e | e)
    · subst e
      rcases hq with e | e
      · exact h4 e
      · exact h5 e
    · exact h3 e
  have e2 : c ≠ '\t' := by rintro rfl; exact absurd h1 (by decide)
  have e3 : c ≠ '\n' := by rintro rfl; exact absurd h1 (by decide)
  have e4 : c ≠ '\r' := by rintro rfl; exact absurd h1 (by decide)
  rw [escape, if_neg e1, if_neg e2, if_neg e3, if_neg e4, if_pos ⟨h1, h2⟩]

theorem unquoted_plain (printable : Char → Bool) (t : Text) (h : ∀ c ∈ t, Plain c) : unquoted printable t = t := by
  have hq := quote_cases t
  have e : t.flatMap (escape printable (quote t)) = t := by
    generalize quote t = q at hq
    induction t with
    | nil => rfl
    | cons c t ih =>
      rw [List.flatMap_cons, escape_of_plain printable hq (h c (List.mem_cons_self ..)),
        ih fun d hd => h d (List.mem_cons_of_mem _ hd)]
      rfl
  unfold unquoted pyRepr
  rw [List.tail_cons, List.dropLast_concat, e]
  exact collapse_id t fun m => (h _ m).2.2.1 rfl

theorem masked_eq (lo hi : Nat) (ts : List Text) (i : Nat) :
    masked lo hi i ts = (ts.zipIdx i).flatMap fun x =>
      if lo ≤ x.2 ∧ x.2 < hi then x.1 else List.replicate x.1.length '_' := by
  induction ts generalizing i with
  | nil => rfl
  | cons t ts ih =>
    rw [masked, ih, List.zipIdx_cons, List.flatMap_cons, List.map_const']

/-! ## Rows -/

/-- The text of a node. -/
def rowOf (printable : Char → Bool) (tokens : List Text) (r : Nat × PNode) : Text × Text :=
  (maskView printable tokens r.2, List.replicate (3 * r.1) ' ' ++ nodeRepr r.2)

theorem indent_flatten (d : Nat) : (List.replicate d [' ', ' ', ' ']).flatten = List.replicate (3 * d) ' ' := by
  induction d with
  | zero => rfl
  | succ d ih =>
    rw [List.replicate_succ, List.flatten_cons, ih, show 3 * (d + 1) = 3 + 3 * d by omega, ← List.replicate_append_replicate]
    rfl

mutual
theorem viewNode_rows (printable : Char → Bool) (tokens : List Text) (d : Nat) : ∀ n : PNode,
    viewNode printable tokens d n = (nodesWithDepth d n).map (rowOf printable tokens)
  | .mk lo hi ann cs => by
    rw [viewNode, nodesWithDepth, List.map_cons, viewNodes_rows printable tokens (d + 1) cs, indent_flatten]
    rfl

theorem viewNodes_rows (printable : Char → Bool) (tokens : List Text) (d : Nat) : ∀ ns : List PNode,
    viewNodes printable tokens d ns = (forestWithDepth d ns).map (rowOf printable tokens)
  | [] => rfl
  | n :: ns => by
    rw [viewNodes, forestWithDepth, List.map_append, viewNode_rows printable tokens d n,
      viewNodes_rows printable tokens d ns]
end

theorem le_maxLen (ts : List Text) (t : Text) (h : t ∈ ts) : t.length ≤ maxLen ts := by
  unfold maxLen
  have main : ∀ (ts : List Text) (m : Nat), m ≤ ts.foldl (fun m t => max m t.length) m
      ∧ ∀ t ∈ ts, t.length ≤ ts.foldl (fun m t => max m t.length) m := by
    intro ts
    induction ts with
    | nil => exact fun m => ⟨Nat.le_refl _, nofun⟩
    | cons u us ih =>
      intro m
      obtain ⟨h1, h2⟩ := ih (max m u.length)
      rw [List.foldl_cons]
      refine ⟨by omega, fun t ht => ?_⟩
      rcases List.mem_cons.1 ht with rfl | ht
      · omega
      · exact h2 t ht
  exact (main ts 0).2 t h

/-! ## Numbers and names -/

theorem number_plain (n : Option Nat) (c : Char) (h : c ∈ numberText n) :
    c.isDigit = true ∨ c = 'N' ∨ c = 'o' ∨ c = 'n' ∨ c = 'e' := by
  cases n with
  | none => simpa [numberText] using Or.inr h
  | some n =>
    rw [numberText, Nat.toList_repr] at h
    exact Or.inl (Nat.isDigit_of_mem_toDigits (by omega) (by omega) h)

theorem number_not (n : Option Nat) (c : Char)
    (h : ¬ (c.isDigit = true ∨ c = 'N' ∨ c = 'o' ∨ c = 'n' ∨ c = 'e')) : c ∉ numberText n :=
  fun m => h (number_plain n c m)

theorem number_inj {m n : Option Nat} (h : numberText m = numberText n) : m = n := by
  have digits : ∀ k : Nat, ∀ c ∈ numberText (some k), c.isDigit = true := by
    intro k c hc
    rw [numberText, Nat.toList_repr] at hc
    exact Nat.isDigit_of_mem_toDigits (by omega) (by omega) hc
  have none_ne : ∀ k : Nat, numberText none ≠ numberText (some k) := by
    intro k e
    have := digits k 'N' (e ▸ (by decide))
    exact absurd this (by decide)
  cases m with
  | none =>
    cases n with
    | none => rfl
    | some k => exact absurd h (none_ne k)
  | some m =>
    cases n with
    | none => exact absurd h.symm (none_ne m)
    | some n =>
      simp only [numberText, Nat.toList_repr] at h
      rw [← Nat.ofDigitChars_ten_toDigits (n := m), h, Nat.ofDigitChars_ten_toDigits]

theorem annotation_inj {a b : PAnn} (h : annotation a = annotation b) : a = b := by
  revert h
  cases a <;> cases b <;> decide

theorem sep_inj {c : Char} {a b r s : Text} (ha : c ∉ a) (hb : c ∉ b) (h : a ++ c :: r = b ++ c :: s) :
    a = b ∧ r = s := by
  induction a generalizing b with
  | nil =>
    cases b with
    | nil => exact ⟨rfl, (List.cons.inj h).2⟩
    | cons d b => exact (hb ((List.cons.inj h).1 ▸ List.mem_cons_self ..)).elim
  | cons d a ih =>
    cases b with
    | nil => exact (ha ((List.cons.inj h).1 ▸ List.mem_cons_self ..)).elim
    | cons d' b =>
      obtain ⟨rfl, h1⟩ := List.cons.inj h
      obtain ⟨rfl, h2⟩ := ih (fun m => ha (List.mem_cons_of_mem _ m)) (fun m => hb (List.mem_cons_of_mem _ m)) h1
      exact ⟨rfl, h2⟩

theorem nodeRepr_shape (n : PNode) (r : Text) :
    nodeRepr n ++ r = 'N' :: 'o' :: 'd' :: 'e' :: '(' :: (numberText (some n.lo) ++ '-' :: (numberText n.hi ++ ',' :: (' '
      :: (annotation n.ann ++ ')' :: r)))) := by
  simp only [nodeRepr, List.append_assoc, List.cons_append, List.nil_append]

theorem nodeRepr_inj {m n : PNode} {r s : Text} (h : nodeRepr m ++ r = nodeRepr n ++ s) :
    m.lo = n.lo ∧ m.hi = n.hi ∧ m.ann = n.ann := by
  rw [nodeRepr_shape, nodeRepr_shape] at h
  have h1 := List.append_cancel_left (as := ['N', 'o', 'd', 'e', '(']) h
  obtain ⟨e1, h2⟩ := sep_inj (number_not _ _ (by decide)) (number_not _ _ (by decide)) h1
  obtain ⟨e2, h3⟩ := sep_inj (number_not _ _ (by decide)) (number_not _ _ (by decide)) h2
  have h4 := (List.cons.inj h3).2
  have ann_not : ∀ a : PAnn, ')' ∉ annotation a := by
    intro a
    cases a <;> decide
  obtain ⟨e3, -⟩ := sep_inj (ann_not _) (ann_not _) h4
  exact ⟨Option.some.inj (number_inj e1), number_inj e2, annotation_inj e3⟩

theorem nodeRepr_not (n : PNode) : '|' ∉ nodeRepr n ∧ '\n' ∉ nodeRepr n := by
  have ann_not : ∀ a : PAnn, '|' ∉ annotation a ∧ '\n' ∉ annotation a := by
    intro a
    cases a <;> decide
  have h1 := number_not (some n.lo) '|' (by decide)
  have h2 := number_not n.hi '|' (by decide)
  have h3 := number_not (some n.lo) '\n' (by decide)
  have h4 := number_not n.hi '\n' (by decide)
  obtain ⟨h5, h6⟩ := ann_not n.ann
  have e := nodeRepr_shape n []
  rw [List.append_nil] at e
  rw [e]
  constructor
  · simp [h1, h2, h5]
  · simp [h3, h4, h6]

/-! ## Trees from rows -/

/-- What a row tells. -/
def tells (r : Nat × PNode) : Nat × Nat × Option Nat × PAnn := (r.1, r.2.lo, r.2.hi, r.2.ann)

theorem forest_head (d : Nat) (ns : List PNode) (q : List (Nat × PNode)) (hq : ∀ x, q.head? = some x → x.1 < d) :
    ∀ x, (forestWithDepth d ns ++ q).head? = some x → x.1 < d + 1 := by
  intro x hx
  cases ns with
  | nil =>
    have := hq x (by simpa [forestWithDepth] using hx)
    omega
  | cons n ns =>
    cases n with
    | mk lo hi ann cs =>
      rw [forestWithDepth, nodesWithDepth] at hx
      simp only [List.cons_append, List.head?_cons, Option.some.injEq] at hx
      rw [← hx]
      exact Nat.lt_succ_self d

mutual
theorem node_inj (d : Nat) (r r' : List (Nat × PNode)) (hr : ∀ x, r.head? = some x → x.1 < d + 1)
    (hr' : ∀ x, r'.head? = some x → x.1 < d + 1) : ∀ (n n' : PNode),
    (nodesWithDepth d n ++ r).map tells = (nodesWithDepth d n' ++ r').map tells → n = n' ∧ r.map tells = r'.map tells
  | .mk lo hi ann cs, .mk lo' hi' ann' cs', h => by
    rw [nodesWithDepth, nodesWithDepth] at h
    simp only [List.cons_append, List.map_cons, List.cons.injEq] at h
    obtain ⟨h1, h2⟩ := h
    simp only [tells, PNode.lo, PNode.hi, PNode.ann, Prod.mk.injEq, true_and] at h1
    obtain ⟨rfl, rfl, rfl⟩ := h1
    obtain ⟨rfl, h3⟩ := forest_inj (d + 1) r r' hr hr' cs cs' h2
    exact ⟨rfl, h3⟩

theorem forest_inj (d : Nat) (r r' : List (Nat × PNode)) (hr : ∀ x, r.head? = some x → x.1 < d)
    (hr' : ∀ x, r'.head? = some x → x.1 < d) : ∀ (ns ns' : List PNode),
    (forestWithDepth d ns ++ r).map tells = (forestWithDepth d ns' ++ r').map tells →
    ns = ns' ∧ r.map tells = r'.map tells
  | [], [], h => ⟨rfl, h⟩
  | [], .mk lo hi ann cs :: ns', h => by
    rw [forestWithDepth, forestWithDepth, nodesWithDepth] at h
    cases r with
    | nil => simp at h
    | cons x r =>
      simp only [List.nil_append, List.cons_append, List.map_cons, List.cons.injEq, tells, Prod.mk.injEq] at h
      have := hr x rfl
      omega
  | .mk lo hi ann cs :: ns, [], h => by
    rw [forestWithDepth, forestWithDepth, nodesWithDepth] at h
    cases r' with
    | nil => simp at h
    | cons x r' =>
      simp only [List.nil_append, List.cons_append, List.map_cons, List.cons.injEq, tells, Prod.mk.injEq] at h
      have := hr' x rfl
      omega
  | n :: ns, n' :: ns', h => by
    rw [forestWithDepth, forestWithDepth, List.append_assoc, List.append_assoc] at h
    obtain ⟨rfl, h2⟩ := node_inj d _ _ (forest_head d ns r hr) (forest_head d ns' r' hr') n n' h
    obtain ⟨rfl, h3⟩ := forest_inj d r r' hr hr' ns ns' h2
    exact ⟨rfl, h3⟩
end

end RUSure.ParseView
