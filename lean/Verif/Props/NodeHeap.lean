import Verif.Lemmas.NodeHeapMatch
import Verif.Lemmas.NodeHeapSplit
import Verif.Lemmas.NodeHeapCheck
import Verif.Props.StackParser

/-!
# C77: parse trees are linked nodes
-/

namespace RUSure.Props
open NodeHeap
variable {T : Type} [DecidableEq T]

/-- **C77.** Bracket matching makes a tree of new objects, in which children point to their parents. -/
theorem C77_match (pairs : List (T × T)) (tolerant : Bool) (h : Heap) (tokens : List T) :
    Agrees h none (NodeHeap.bracketMatch pairs tolerant h tokens) (bracketMatch pairs tolerant tokens) := by
  obtain ⟨h1, h2⟩ := bracketMatch_ok pairs tolerant h tokens
  unfold Agrees
  cases hs : bracketMatch pairs tolerant tokens with
  | error e => exact h1 e hs
  | ok s =>
    obtain ⟨h', t, e, es, r, n, f, m, u⟩ := h2 s hs
    exact ⟨h', t, e, es, r, n, f, m, u⟩

/-- **C77.** `Node.copy` makes a copy of new objects, with the parent of the original. -/
theorem C77_copy {h : Heap} {par : Option Nat} {t : LTree} {fuel : Nat} (hd : t.depth ≤ fuel) (r : Rep h par t)
    (he : ∀ a ∈ t.ids, a < h.next) : Agrees h par (copyNode fuel h t.id) (.ok t.erase) := by
  obtain ⟨h', t', e, m, u, c⟩ := copyNode_ok hd r he
  exact ⟨h', t', e, c.erase, c.rep, c.nodup, c.fresh, m, u⟩

/-- **C77.** `split_parse` without a pair to be nested leaves the given tree as it is and makes a tree of
new objects, in which children point to their parents. -/
theorem C77_split {h : Heap} {t : LTree} {fuel : Nat} (ht : Tree h t) (hd : t.depth ≤ fuel)
    (tokens splitters : List T) (un : List (T × T)) :
    Agrees h none (NodeHeap.splitParse fuel h t.id tokens splitters un none)
      (splitParse t.erase tokens splitters un none) := by
  obtain ⟨h1, t1, e1, m1, u1, c1⟩ := copyNode_ok hd ht.rep ht.exist
  unfold NodeHeap.splitParse splitParse
  rw [e1]
  simp only
  by_cases hs : splitters.isEmpty = true
  · rw [if_pos hs, if_pos hs]
    exact ⟨h1, t1, rfl, c1.erase, c1.rep, c1.nodup, c1.fresh, m1, u1⟩
  · rw [if_neg hs, if_neg hs, ← c1.erase]
    have hd1 : t1.depth ≤ fuel := by rw [← depth_erase, c1.erase, depth_erase]; exact hd
    obtain ⟨se, so⟩ := splitNode_ok tokens splitters un fuel t1 hd1 h1 none c1.rep c1.nodup fun a ha => (c1.fresh a ha).2
    cases hr : t1.erase.splitWith tokens splitters un with
    | error x =>
      rw [se x hr]
      rfl
    | ok s =>
      obtain ⟨h2, t2, e2, s2, r2, n2, f2, k2⟩ := so s hr
      rw [e2]
      refine ⟨h2, t2, by rw [k2.id], s2, r2, k2.nodup, fun a ha => ?_, m1.trans n2, fun a ha => ?_⟩
      · rcases k2.ids a ha with ha | ha
        · exact ⟨(c1.fresh a ha).1, lt_of_lt_of_le (c1.fresh a ha).2 n2⟩
        · exact ⟨m1.trans ha.1, ha.2⟩
      · rw [f2 a (lt_of_lt_of_le ha m1) fun hm => absurd (c1.fresh a hm).1 (by omega), u1 a ha]

/-- **C77.** On trees in which children point to their parents, `valid_parse_ranges` depends on the
ranges only. -/
theorem C77_valid {h : Heap} {t : LTree} {fuel : Nat} (ht : Tree h t) (hd : t.depth ≤ fuel) (n : Nat) :
    NodeHeap.validParseRanges fuel h t.id n = .ok (validParseRanges t.erase n) :=
  validParseRanges_ok hd ht.rep n

/-- **C77.** If `valid_parse_ranges` says yes, for whatever objects, every child below the root has a
parent, with the range and annotation of the node that has it as a child. -/
theorem C77_parents_checked {h : Heap} {fuel root n : Nat} (e : NodeHeap.validParseRanges fuel h root n = .ok true)
    {a c : Nat} (ha : Below h root a) (hc : c ∈ (h.get a).children) :
    ∃ p, (h.get c).parent = some p ∧ (h.get p).lo = (h.get a).lo ∧ (h.get p).hi = (h.get a).hi
      ∧ (h.get p).ann = (h.get a).ann := by
  unfold NodeHeap.validParseRanges at e
  split at e
  · obtain ⟨f, e⟩ := check_below e ha
    obtain ⟨p, hp, eq⟩ := check_parents e c hc
    exact ⟨p, hp, nodeEq_true eq⟩
  · cases e

/-- Tokens for the examples. -/
def heapTokens : List Char := ['a', ';', 'b', '(', 'c', ';', ')', 'd', ';']

/-- No objects yet. -/
def noObjects : Heap := ⟨fun _ => ⟨0, none, none, .root, []⟩, 0⟩

example : ∃ (h : Heap) (t : LTree), Tree h t ∧ t.erase = exampleTree := by
  have h := C77_match presetPairs true noObjects heapTokens
  have e : bracketMatch presetPairs true heapTokens = .ok exampleTree := by rfl
  rw [e] at h
  obtain ⟨h', t, _, e, n⟩ := h
  exact ⟨h', t, ⟨n.rep, n.nodup, fun a ha => (n.fresh a ha).2⟩, e⟩

/-- Attributes of a node. -/
def NodeHeap.look (h : Heap) (a : Nat) : Nat × Option Nat × Option Nat × PAnn × List Nat :=
  ((h.get a).lo, (h.get a).hi, (h.get a).parent, (h.get a).ann, (h.get a).children)

/-- The tree of the tokens, and its split. -/
def heapRun : Except Fail (Heap × Nat × Nat) := do
  let (h, r) ← NodeHeap.bracketMatch presetPairs true noObjects heapTokens
  let (h', r') ← NodeHeap.splitParse 9 h r heapTokens [';'] [] none
  return (h', r, r')

-- The first tree is still there; the new root is object 12.
example : heapRun.map (fun x => [x.2.1, x.2.2]) = .ok [0, 12] := by decide +kernel
example : heapRun.map (fun x => NodeHeap.look x.1 0) = .ok (0, some 9, none, .root, [1, 2, 3, 4, 10, 11]) := by
  decide +kernel
example : heapRun.map (fun x => NodeHeap.look x.1 12) = .ok (0, some 9, none, .root, [24, 25]) := by
  decide +kernel
example : heapRun.map (fun x => NodeHeap.look x.1 25) = .ok (2, some 9, some 12, .split, [15, 16, 22, 23]) := by
  decide +kernel
example : heapRun.map (fun x => NodeHeap.look x.1 15) = .ok (2, some 3, some 25, .sibling, []) := by decide +kernel
example : (heapRun.bind fun x => NodeHeap.validParseRanges 9 x.1 x.2.2 9) = .ok true := by decide +kernel
-- A child whose parent is another node.
example : (heapRun.bind fun x => NodeHeap.validParseRanges 9 (setParent x.1 24 15) x.2.2 9) = .ok false := by
  decide +kernel

end RUSure.Props
