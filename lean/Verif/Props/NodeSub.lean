import Verif.Lemmas.NodeApart
import Verif.Props.NodeHeap

/-!
# C78: groups are moved under their neighbours in linked trees
-/

namespace RUSure.Props
open RUSure.Spec RUSure.Lemmas RUSure.NodeHeap
variable {T : Type} [DecidableEq T]

/-- Trees of bracket matching whose nodes cover tokens; only the inside of a bracket pair can be empty. -/
structure Filled (pairs : List (T × T)) (tokens : List T) (root : PNode) : Prop extends Matched pairs tokens root where
  filled : ∀ x, InTree x root → x.ann ≠ .paired → ∀ c ∈ x.children, c.hi ≠ some c.lo

omit [DecidableEq T] in
theorem Filled.solid {pairs : List (T × T)} {tokens : List T} {root : PNode} (hm : Filled pairs tokens root) :
    ∀ x, InTree x root → SolidAt x := by
  intro x hx
  refine ⟨fun ha => ?_, hm.filled x hx⟩
  obtain ⟨lo, hi, o, c, inner, rfl, -⟩ := hm.brackets x hx ha
  exact ⟨_, _, _, rfl, rfl, rfl, by simp [NE, PNode.hi, PNode.lo], by simp [NE, PNode.hi, PNode.lo], rfl⟩

/-- **C78.** `split_parse` with a pair to be nested leaves the given tree as it is. It makes a tree of new
objects, in which children point to their parents, or it raises, exactly as the function on values does. -/
theorem C78_nested {pairs : List (T × T)} {h : Heap} {t : LTree} {fuel : Nat} {tokens : List T} (ht : Tree h t)
    (hd : 2 * t.depth ≤ fuel) (hm : Filled pairs tokens t.erase) (splitters : List T) (un : List (T × T)) (p : T × T) :
    Agrees h none (NodeHeap.splitParse fuel h t.id tokens splitters un (some p))
      (splitParse t.erase tokens splitters un (some p)) := by
  obtain ⟨h1, t1, e1, m1, u1, c1⟩ := copyNode_ok (fuel := fuel) (by omega) ht.rep ht.exist
  unfold NodeHeap.splitParse splitParse
  rw [e1]
  simp only
  by_cases hs : splitters.isEmpty = true
  · rw [if_pos hs, if_pos hs]
    exact ⟨h1, t1, rfl, c1.erase, c1.rep, c1.nodup, c1.fresh, m1, u1⟩
  · rw [if_neg hs, if_neg hs]
    have hd1 : 2 * t1.depth ≤ fuel := by rw [← depth_erase, c1.erase, depth_erase]; exact hd
    rw [← c1.erase] at hm ⊢
    obtain ⟨se, so⟩ := splitNode_ok tokens splitters un fuel t1 (by omega) h1 none c1.rep c1.nodup fun a ha => (c1.fresh a ha).2
    cases hr : t1.erase.splitWith tokens splitters un with
    | error x =>
      rw [se x hr]
      rfl
    | ok s =>
      obtain ⟨h2, t2, e2, s2, r2, n2, f2, k2⟩ := so s hr
      rw [e2]
      have hrange : RangeOk t2.erase := by rw [s2]; exact (splitWith_same tokens splitters un _ _ hr).range hm.range
      have hlook : ∀ x, InTree x t2.erase → LookupOk tokens.length x := by
        rw [s2]; exact splitWith_pairs tokens splitters un _ _ _ hr hm.lookupOk
      have hsolid : ∀ x, InTree x t2.erase → SolidAt x := by
        rw [s2]
        exact splitWith_solid tokens splitters un tokens.length _ _ hr hm.lookupOk hm.solid
          fun x hx => range_inTree _ hrange x (by rw [s2]; exact hx)
      have hd2 : t2.depth ≤ fuel := by
        have := splitWith_depth tokens splitters un _ _ hr
        rw [← s2, depth_erase, depth_erase] at this
        omega
      have hex : ∀ a ∈ t2.ids, a < h2.next := fun a ha => by
        rcases k2.ids a ha with ha | ha
        · exact lt_of_lt_of_le (c1.fresh a ha).2 n2
        · exact ha.2
      have hnew : ∀ a ∈ t2.ids, h.next ≤ a := fun a ha => by
        rcases k2.ids a ha with ha | ha
        · exact (c1.fresh a ha).1
        · exact m1.trans ha.1
      obtain ⟨ms, e3, me, mo⟩ := subMatch_heap (sub := p) hd2 r2 k2.nodup hex (pairsOk_of hlook) (apart_of_solid hrange hsolid)
      rw [k2.id] at e3
      simp only [e3]
      show Agrees h none _ (s.subMatch tokens p)
      rw [← s2]
      cases hq : t2.erase.subMatch tokens p with
      | error x =>
        rw [me x hq]
        rfl
      | ok s' =>
        obtain ⟨h3, t3, e4, i3, s3, r3, d3, n3, x3, y3, f3⟩ := mo s' hq
        rw [e4]
        refine ⟨h3, t3, by rw [i3, k2.id], s3, r3, d3, fun a ha => ⟨?_, x3 a ha⟩, (m1.trans n2).trans n3, fun a ha => ?_⟩
        · rcases y3 a ha with h | h
          · exact hnew a h
          · exact (m1.trans n2).trans h
        · rw [f3 a (lt_of_lt_of_le ha (m1.trans n2)) fun hm => absurd (hnew a hm) (by omega),
            f2 a (lt_of_lt_of_le ha m1) fun hm => absurd (c1.fresh a hm).1 (by omega), u1 a ha]

omit [DecidableEq T] in
/-- The trees of balanced streams. -/
theorem forest_filled {pairs : List (T × T)} {ctx : Option T} {i : Nat} {ts : List T} {ns : List PNode}
    (h : Forest pairs ctx i ts ns) :
    (∀ c ∈ ns, c.hi ≠ some c.lo) ∧ ∀ x, InTrees x ns → x.ann ≠ .paired → ∀ c ∈ x.children, c.hi ≠ some c.lo := by
  induction h with
  | nil => exact ⟨fun c hc => (by cases hc), fun x hx => (by cases hx)⟩
  | plain _ _ ih =>
    refine ⟨fun c hc => ?_, fun x hx => ?_⟩
    · rcases List.mem_cons.1 hc with rfl | hc
      · simp [PNode.hi, PNode.lo]
      · exact ih.1 c hc
    · rcases inTrees_cons.1 hx with hx | hx
      · rcases inTree_mk.1 hx with rfl | hx
        · intro _ c hc; cases hc
        · cases hx
      · exact ih.2 x hx
  | stray _ _ _ ih =>
    refine ⟨fun c hc => ?_, fun x hx => ?_⟩
    · rcases List.mem_cons.1 hc with rfl | hc
      · simp [PNode.hi, PNode.lo]
      · exact ih.1 c hc
    · rcases inTrees_cons.1 hx with hx | hx
      · rcases inTree_mk.1 hx with rfl | hx
        · intro _ c hc; cases hc
        · cases hx
      · exact ih.2 x hx
  | @bracket ctx o c i j inner ts ns ms _ hj _ _ ih1 ih2 =>
    refine ⟨fun c hc => ?_, fun x hx => ?_⟩
    · rcases List.mem_cons.1 hc with rfl | hc
      · simp only [PNode.hi, PNode.lo, ne_eq, Option.some.injEq]; omega
      · exact ih2.1 c hc
    · rcases inTrees_cons.1 hx with hx | hx
      · rcases inTree_mk.1 hx with rfl | hx
        · intro h; exact absurd rfl h
        · rcases inTrees_cons.1 hx with hx | hx
          · rcases inTree_mk.1 hx with rfl | hx
            · intro _ c hc; cases hc
            · cases hx
          · rcases inTrees_cons.1 hx with hx | hx
            · rcases inTree_mk.1 hx with rfl | hx
              · exact fun _ => ih1.1
              · exact ih1.2 x hx
            · rcases inTrees_cons.1 hx with hx | hx
              · rcases inTree_mk.1 hx with rfl | hx
                · intro _ c hc; cases hc
                · cases hx
              · cases hx
      · exact ih2.2 x hx

/-- Trees of balanced streams are of this kind. -/
theorem filled_of_balanced {pairs : List (T × T)} (hT : Table pairs) {ts : List T} (h : Balanced pairs none ts) {root : PNode}
    (hr : bracketMatch pairs true ts = .ok root) : Filled pairs ts root := by
  refine ⟨matched_of_balanced hT h hr, ?_⟩
  obtain ⟨ns, h1, h2⟩ := C16_forest hT h
  rw [h1] at hr
  cases hr
  obtain ⟨f1, f2⟩ := forest_filled h2
  intro x hx
  rcases inTree_mk.1 hx with rfl | hx
  · exact fun _ => f1
  · exact f2 x hx

/-- **C78.** Parsing a balanced stream and splitting it: there is a depth of recursion that is enough, for
whatever objects there are before, such that both make new linked trees or raise as the functions on
values do. -/
theorem C78_balanced {pairs : List (T × T)} (hT : Table pairs) {tokens : List T} (hb : Balanced pairs none tokens)
    (splitters : List T) (un : List (T × T)) (sub : Option (T × T)) : ∃ enough, ∀ fuel ≥ enough, ∀ h,
    Agrees h none
      (match NodeHeap.bracketMatch pairs true h tokens with
        | .error e => .error e
        | .ok (h1, r) => NodeHeap.splitParse fuel h1 r tokens splitters un sub)
      (match bracketMatch pairs true tokens with
        | .error e => .error e
        | .ok root => splitParse root tokens splitters un sub) := by
  obtain ⟨root, hr, -⟩ := C16_tree hT hb
  refine ⟨2 * valueDepth root, fun fuel hf h => ?_⟩
  have h1 := C77_match pairs true h tokens
  rw [hr] at h1
  obtain ⟨h', t, e, es, n⟩ := h1
  have ht : Tree h' t := ⟨n.rep, n.nodup, fun a ha => (n.fresh a ha).2⟩
  have hd : 2 * t.depth ≤ fuel := by rw [← depth_erase, es]; exact hf
  rw [e, hr]
  have key : Agrees h' none (NodeHeap.splitParse fuel h' t.id tokens splitters un sub) (splitParse root tokens splitters un sub) := by
    rw [← es]
    cases sub with
    | none => exact C77_split ht (by omega) tokens splitters un
    | some p => exact C78_nested ht hd (by rw [es]; exact filled_of_balanced hT hb hr) splitters un p
  simp only
  unfold Agrees at key ⊢
  cases hv : splitParse root tokens splitters un sub with
  | error x => rw [hv] at key; exact key
  | ok s =>
    rw [hv] at key
    obtain ⟨h2, t2, e2, s2, n2⟩ := key
    exact ⟨h2, t2, e2, s2, n2.rep, n2.nodup, fun a ha => ⟨n.more.trans (n2.fresh a ha).1, (n2.fresh a ha).2⟩,
      n.more.trans n2.more, fun a ha => by rw [n2.unchanged a (lt_of_lt_of_le ha n.more), n.unchanged a ha]⟩

/-- The tree of a balanced stream, split and with groups moved. -/
def nestedRun (tokens : List Char) : Except Fail (Heap × Nat × Nat) := do
  let (h, r) ← NodeHeap.bracketMatch presetPairs true noObjects tokens
  let (h', r') ← NodeHeap.splitParse 12 h r tokens [';'] [] (some ('(', ')'))
  return (h', r, r')

-- Object 24, the first group, gets the second one, 25, as its last child, and a new object for itself.
example : (nestedRun heapTokens).map (fun x => [x.2.1, x.2.2]) = .ok [0, 12] := by decide +kernel
example : (nestedRun heapTokens).map (fun x => NodeHeap.look x.1 12) = .ok (0, some 9, none, .root, [24]) := by decide +kernel
example : (nestedRun heapTokens).map (fun x => NodeHeap.look x.1 24) = .ok (0, some 9, some 12, .split, [27, 25]) := by
  decide +kernel
example : (nestedRun heapTokens).map (fun x => NodeHeap.look x.1 27) = .ok (0, some 2, some 24, .split, [13, 14]) := by
  decide +kernel
example : (nestedRun heapTokens).map (fun x => NodeHeap.look x.1 13) = .ok (0, some 1, some 27, .sibling, []) := by
  decide +kernel
-- Chains.
example : (nestedRun ['x', ';', '(', 'y', ')', ';', '(', 'z', ')', ';']).map (fun x => x.2.2) = .error (.py .value) := by
  decide +kernel
-- The first tree is unchanged.
example : (nestedRun heapTokens).map (fun x => NodeHeap.look x.1 0) = .ok (0, some 9, none, .root, [1, 2, 3, 4, 10, 11]) := by
  decide +kernel

example : ∃ (h : Heap) (t : LTree), Tree h t ∧ Filled presetPairs heapTokens t.erase ∧ 2 * t.depth ≤ 12 := by
  have h := C77_match presetPairs true noObjects heapTokens
  have e : bracketMatch presetPairs true heapTokens = .ok exampleTree := by rfl
  rw [e] at h
  obtain ⟨h', t, _, e', n⟩ := h
  refine ⟨h', t, ⟨n.rep, n.nodup, fun a ha => (n.fresh a ha).2⟩, ?_, ?_⟩
  · rw [e']
    exact filled_of_balanced preset_table (by rw [← C15_empty preset_table]; decide) e
  · rw [← depth_erase, e']
    simp [exampleTree, pairedNode, leafNode, valueDepth]

end RUSure.Props
