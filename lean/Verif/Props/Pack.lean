import Verif.Lemmas.Pack
import Verif.Props.Transforms

/-!
# C01–C05: packed storage
-/

namespace RUSure.Props
open RUSure Spec

variable {M : Type}

/-- C01: unpacking a packed sequence returns exactly the original sequence. -/
theorem C01_unpack_pack (seq : List (Node M)) : (pack seq).unpack = some seq :=
  (build_represents (pack seq)).2 seq _ _ (entry_represents seq).1 (nesting_lt_fuel seq)

/-- C01: packing is injective. -/
theorem C01_pack_injective (s₁ s₂ : List (Node M)) (h : pack s₁ = pack s₂) : s₁ = s₂ := by
  have h1 := C01_unpack_pack s₁
  rw [h, C01_unpack_pack s₂] at h1
  simpa using h1.symm

example : (pack sample).groups.length = 5 ∧ (pack sample).unpack = some sample :=
  ⟨by decide, C01_unpack_pack _⟩

/-- C02: the preorder traversal lists every node exactly once: position `k` of the storage's
traversal is the `k`-th node of the document-order walk (groups before children), it carries
preorder index `k`, its category and index look up exactly that node's contents, its level is its
depth below the root, and its recorded parent/offset are those of its path. -/
theorem C02_preorder (seq : List (Node M)) :
    (pack seq).preorder.length = (walkWithPaths seq true false []).length
    ∧ (pack seq).levels.length = (pack seq).preorder.length
    ∧ (pack seq).parents.length = (pack seq).preorder.length
    ∧ ∀ (k : Nat) (n : Node M) (path : List Nat) (tag : WalkTag),
        (walkWithPaths seq true false [])[k]? = some (n, path, tag) →
        ∃ id pos, (pack seq).preorder[k]? = some id
          ∧ id.preorder = k
          ∧ Represents (pack seq) id n
          ∧ (pack seq).levels[k]? = some (path.length - 1)
          ∧ (pack seq).parents[k]? = some pos
          ∧ path.getLast? = some pos.child
          ∧ ((path.length = 1 ∧ pos.parent = -1) ∨
              ∃ k' n' tag', pos.parent = (k' : Nat) ∧ k' < k ∧
                (walkWithPaths seq true false [])[k']? = some (n', path.dropLast, tag')) := by
  have hw := delta_walk.2 seq ⟨0,0,0,0⟩ [] (-1) 0 0
  rw [← rootDelta] at hw
  have hlen : (rootDelta seq).1.entries.length = (walkWithPaths seq true false []).length := by
    simpa [walkWithPaths] using congrArg List.length hw
  refine ⟨by rw [pack_eq]; simpa using hlen, by rw [pack_eq]; simp, by rw [pack_eq]; simp, ?_⟩
  intro k n path tag hk
  have walk_entry : ∀ (k : Nat) (n : Node M) (path : List Nat) (tag : WalkTag),
      (walkWithPaths seq true false [])[k]? = some (n, path, tag) →
      ∃ e, (rootDelta seq).1.entries[k]? = some e ∧ e.node = n ∧ e.path = path := by
    intro k n path tag hk
    have h2 := congrArg (fun x => x[k]?) hw
    simp only [List.getElem?_map] at h2
    rw [show (walkFrom true false [] 0 seq)[k]? = some (n, path, tag) from hk] at h2
    simp at h2
    obtain ⟨e, he, h⟩ := h2
    exact ⟨e, he, h⟩
  obtain ⟨e, he, rfl, rfl⟩ := walk_entry k n path tag hk
  have hmem : e ∈ (rootDelta seq).1.entries := List.mem_of_getElem? he
  have hlev := entry_level seq e hmem
  refine ⟨e.id, e.pos, ?_, entry_preorder seq k e he, (entry_represents seq).2 e hmem, ?_, ?_, ?_, ?_⟩
  · rw [pack_eq]; simp [he]
  · rw [pack_eq]; simp [he]; omega
  · rw [pack_eq]; simp [he]
  · rcases delta_parent.2 seq ⟨0,0,0,0⟩ [] (-1) 0 0 e hmem with ⟨h1, _⟩ | ⟨e', _, h1, _⟩
    · rw [h1]; simp
    · rw [h1]; simp
  · rcases delta_parent.2 seq ⟨0,0,0,0⟩ [] (-1) 0 0 e hmem with ⟨h1, h2⟩ | ⟨e', he', h1, h2⟩
    · left; rw [h1, h2]; simp
    · right
      obtain ⟨k', hk', hke'⟩ := entry_of_preorder seq e' he'
      have hwk := congrArg (fun x => x[k']?) hw
      simp only [List.getElem?_map, hke'] at hwk
      cases hx : (walkFrom true false [] 0 seq)[k']? with
      | none => rw [hx] at hwk; simp at hwk
      | some x =>
        obtain ⟨n', path', tag'⟩ := x
        rw [hx] at hwk
        simp at hwk
        have hxx : (walkWithPaths seq true false [])[k']? = some (n', path', tag') := hx
        refine ⟨k', n', tag', by rw [h2, hk'], ?_, ?_⟩
        · -- the parent is a proper prefix, hence earlier in document order
          have hp := (C12_walk seq true false []).2.1
          rw [List.pairwise_map] at hp
          rw [List.pairwise_iff_getElem] at hp
          rcases Nat.lt_trichotomy k' k with hlt | heq | hgt
          · exact hlt
          · subst heq
            rw [hke'] at he; simp at he; subst he
            have := congrArg List.length h1; simp at this
          · exfalso
            obtain ⟨hb1, hb2⟩ := List.getElem?_eq_some_iff.1 hxx
            obtain ⟨ha1, ha2⟩ := List.getElem?_eq_some_iff.1 hk
            have := hp k k' ha1 hb1 hgt
            rw [ha2, hb2] at this
            simp only at this
            rcases this with ⟨c, i, j, r, s, q1, q2, q3⟩ | ⟨i, r, q1, -⟩ | ⟨i, r, -, q2⟩ | ⟨q1, -⟩
            · simp only at q1 q2
              rw [h1, hwk.2, q2] at q1
              simp at q1; omega
            · simp only at q1
              rw [h1, hwk.2] at q1
              have := congrArg List.length q1; simp at this
            · simp only at q2
              have hm := List.mem_of_getElem? hxx
              rw [(C12_walk seq true false []).1] at hm
              obtain ⟨_, _, _, ht⟩ := hm
              rw [q2] at ht; simp [TagFor] at ht
            · simp only at q1
              rw [h1, hwk.2] at q1
              have := congrArg List.length q1; simp at this
        · rw [hxx, h1, hwk.2]; simp

/-- C02 applies to all 13 nodes of the sample; e.g. its 7th node. -/
example : (walkWithPaths sample true false []).length = 13 ∧
    ∃ n path tag, (walkWithPaths sample true false [])[6]? = some (n, path, tag) ∧ path = [1, 2, 0, 0] := by
  refine ⟨by decide, ?_⟩
  exact ⟨_, _, _, rfl, rfl⟩

/-- C03: for every node of the tree, given by its child-index path, looking up the path returns the
id of exactly that node, and the path reported for that id's preorder index is the path itself. -/
theorem C03_lookup_path (seq : List (Node M)) (path : List Nat) (n : Node M)
    (h : nodeAt seq path = some n) :
    ∃ id, (pack seq).nodeIdFromPath (path.map (fun (k : Nat) => (k : Int))) = some id
      ∧ id ∈ (pack seq).preorder
      ∧ Represents (pack seq) id n
      ∧ (pack seq).pathFromPreorder id.preorder = some path := by
  obtain ⟨e, he, rfl, rfl⟩ := (entry_node seq).2 path n h
  refine ⟨e.id, entry_lookup seq e he, ?_, (entry_represents seq).2 e he,
    pathFromPreorder_entry seq e he⟩
  rw [pack_eq]; exact List.mem_map.2 ⟨e, he, rfl⟩

/-- C03: for every valid preorder index, the reported path leads back to the same id. -/
theorem C03_preorder_roundtrip (seq : List (Node M)) (k : Nat) (id : NodeId)
    (h : (pack seq).preorder[k]? = some id) :
    ∃ path n, (pack seq).pathFromPreorder k = some path ∧ nodeAt seq path = some n
      ∧ (pack seq).nodeIdFromPath (path.map (fun (k : Nat) => (k : Int))) = some id := by
  rw [show (pack seq).preorder = (rootDelta seq).1.entries.map (·.id) by rw [pack_eq],
    List.getElem?_map] at h
  cases he : (rootDelta seq).1.entries[k]? with
  | none => rw [he] at h; cases h
  | some e =>
    rw [he] at h; simp at h; subst h
    have hm := List.mem_of_getElem? he
    refine ⟨e.path, e.node, ?_, (entry_node seq).1 e hm, entry_lookup seq e hm⟩
    rw [← entry_preorder seq k e he]
    exact pathFromPreorder_entry seq e hm

/-- C03 (rejection), for paths of nonnegative indices and for paths with a negative index anywhere
but at the end: a path that leads nowhere is rejected. What is missing from the full claim is the
case of a negative *last* index, where the claim is false: see `C03_negative_last_index`. -/
theorem C03_rejects_partial (seq : List (Node M)) :
    (∀ path : List Nat, nodeAt seq path = none →
      (pack seq).nodeIdFromPath (path.map (fun (k : Nat) => (k : Int))) = none)
    ∧ (∀ (p : List Int) (last : Int), (∃ k ∈ p, k < 0) →
      (pack seq).nodeIdFromPath (p ++ [last]) = none)
    ∧ (pack seq).nodeIdFromPath [] = none := by
  refine ⟨?_, ?_, rfl⟩
  · intro path h
    rcases List.eq_nil_or_concat path with rfl | ⟨q, i, rfl⟩
    · rfl
    · have hroot := (entry_represents seq).1
      rw [List.concat_eq_append] at h ⊢
      have e := nodeIdFromPath_snoc (pack seq) q i
      rw [intPath] at e
      rw [e]
      by_cases hq : q = []
      · subst hq
        simp only [List.nil_append, nodeAt] at h
        have := (representsL_get seq _ hroot).1
        simp only [intPath, List.map_nil, Storage.subsequenceFromPath, Storage.subsequenceFrom,
          Option.bind_some]
        rw [List.getElem?_eq_none_iff] at h ⊢; omega
      · rw [nodeAt_append _ _ _ hq (by simp)] at h
        have hs := subsequence_spec (pack seq) q seq _ hroot hq
        by_cases hg : ∃ cs mt, nodeAt seq q = some (.group cs mt)
        · obtain ⟨cs, mt, hg⟩ := hg
          obtain ⟨ids, h1, h2⟩ := hs.1 cs mt hg
          rw [hg] at h
          simp only [nodeAt] at h
          have := (representsL_get cs ids h2).1
          rw [Storage.subsequenceFromPath, h1]
          simp only [Option.bind_some]
          rw [List.getElem?_eq_none_iff] at h ⊢; omega
        · rw [Storage.subsequenceFromPath, hs.2 (fun cs mt hh => hg ⟨cs, mt, hh⟩)]
          rfl
  · intro p last hneg
    simp only [Storage.nodeIdFromPath, List.getLast?_append, List.getLast?_singleton,
      Option.some_or, List.dropLast_concat, Storage.subsequenceFromPath]
    rw [subsequenceFrom_negative _ _ _ hneg]

/-- C03, negation for negative last indices: `node_id_from_node_path` indexes the final sequence
with plain Python indexing, so the path `(-1,)`, which is not a path of the tree, is not rejected
but returns the last root node. -/
theorem C03_negative_last_index :
    (pack [(Node.rstart : Node Nat), .rend]).nodeIdFromPath [-1]
      = (pack [(Node.rstart : Node Nat), .rend]).nodeIdFromPath [1]
    ∧ (pack [(Node.rstart : Node Nat), .rend]).nodeIdFromPath [-1] ≠ none := by
  decide

/-- C03: what a negative last index does, for every tree and path: it counts from the end of the
siblings the path leads to, and is rejected if there are too few or none. Together with
`C03_lookup_path` and `C03_rejects_partial` this gives the result for every path of integers. -/
theorem C03_negative_indices (seq : List (Node M)) (p : List Nat) (j : Nat) :
    (∀ sibs, (p = [] ∧ sibs = seq ∨ ∃ mt, nodeAt seq p = some (.group sibs mt)) →
      (pack seq).nodeIdFromPath (p.map (fun (k : Nat) => (k : Int)) ++ [-((j : Int) + 1)])
        = if j < sibs.length then
            (pack seq).nodeIdFromPath ((p ++ [sibs.length - 1 - j]).map (fun (k : Nat) => (k : Int)))
          else none)
    ∧ (p ≠ [] → (∀ cs mt, nodeAt seq p ≠ some (.group cs mt)) →
      (pack seq).nodeIdFromPath (p.map (fun (k : Nat) => (k : Int)) ++ [-((j : Int) + 1)]) = none) := by
  have hroot := (entry_represents seq).1
  have hexp : (pack seq).nodeIdFromPath (p.map (fun (k : Nat) => (k : Int)) ++ [-((j : Int) + 1)])
      = ((pack seq).subsequenceFromPath (intPath p)).bind fun s => pyGet s (-((j : Int) + 1)) := by
    simp only [Storage.nodeIdFromPath, List.getLast?_append, List.getLast?_singleton,
      Option.some_or, List.dropLast_concat, intPath]
    cases (pack seq).subsequenceFromPath (p.map fun (k : Nat) => (k : Int)) <;> rfl
  refine ⟨?_, ?_⟩
  · intro sibs hs
    obtain ⟨ids, h1, h2⟩ : ∃ ids, (pack seq).subsequenceFromPath (intPath p) = some ids
        ∧ ids.length = sibs.length := by
      rcases hs with ⟨rfl, rfl⟩ | ⟨mt, hg⟩
      · exact ⟨_, rfl, (representsL_get sibs _ hroot).1⟩
      · have hp : p ≠ [] := by rintro rfl; simp [nodeAt] at hg
        obtain ⟨ids, h1, h2⟩ := (subsequence_spec (pack seq) p seq _ hroot hp).1 sibs mt hg
        exact ⟨ids, h1, (representsL_get sibs ids h2).1⟩
    have e := nodeIdFromPath_snoc (pack seq) p (sibs.length - 1 - j)
    rw [intPath] at e
    rw [hexp, h1, e, h1, Option.bind_some, Option.bind_some]
    unfold pyGet
    rw [if_neg (by omega), h2]
    by_cases hj : j < sibs.length
    · rw [if_pos (by omega), if_pos hj]
      congr 1
      omega
    · rw [if_neg (by omega), if_neg hj]
  · intro hp hg
    rw [hexp, Storage.subsequenceFromPath,
      (subsequence_spec (pack seq) p seq _ hroot hp).2 hg]
    rfl

/-- A group with two children, and a node that is no group. -/
example : nodeAt sample [1, 4] = some (.group [.tok ['g'] 0, .group [] 5] 6)
    ∧ nodeAt sample [1, 1] = some (.deco [' ']) := ⟨rfl, rfl⟩

example : nodeAt sample [1, 4, 1] = some (.group [] 5) ∧ nodeAt sample [1, 1, 0] = none := by
  constructor <;> rfl

/-- C04: the text rendered from the packed root sequence, or from any packed node, is the text of
the tree (of that node). -/
theorem C04_render (seq : List (Node M)) :
    (pack seq).renderList (pack seq).root = some (text seq)
    ∧ ∀ path n, nodeAt seq path = some n →
        ∃ id, (pack seq).nodeIdFromPath (path.map (fun (k : Nat) => (k : Int))) = some id
          ∧ (pack seq).renderNode id = some (text [n]) := by
  constructor
  · rw [← C06_render_is_text]
    exact (render_represents (pack seq)).2 seq _ _ (entry_represents seq).1 (nesting_lt_fuel seq)
  · intro path n h
    obtain ⟨id, h1, -, h2, -⟩ := C03_lookup_path seq path n h
    refine ⟨id, h1, ?_⟩
    rw [← C06_render_is_text, renderTextL_singleton]
    refine (render_represents (pack seq)).1 n id _ h2 ?_
    refine Nat.lt_of_le_of_lt ?_ (nesting_lt_fuel seq)
    have : ∀ (p : List Nat) (l : List (Node M)) (m : Node M), nodeAt l p = some m →
        nestingN m ≤ nesting l := by
      intro p
      induction p with
      | nil => intro l m h; simp [nodeAt] at h
      | cons i p ih =>
        intro l m h
        have hmem : ∀ (l : List (Node M)) (x : Node M), x ∈ l → nestingN x ≤ nesting l := by
          intro l x hx
          induction l with
          | nil => cases hx
          | cons y ys ih =>
            simp only [nesting]
            rcases List.mem_cons.1 hx with rfl | hx
            · omega
            · have := ih hx; omega
        cases p with
        | nil => exact hmem _ _ (List.mem_of_getElem? h)
        | cons j p =>
          rw [nodeAt_cons_cons] at h
          split at h
          · rename_i cs mt hg
            have h1 := hmem _ _ (List.mem_of_getElem? hg)
            have h2 := ih cs m h
            simp only [nestingN] at h1; omega
          · cases h
    exact this path seq n h

/-- C04: the recorded depth is the length of the longest node path (1 for an empty sequence). -/
theorem C04_depth (seq : List (Node M)) :
    (∀ path n, nodeAt seq path = some n → path.length ≤ (pack seq).depth)
    ∧ ((seq = [] ∧ (pack seq).depth = 1)
      ∨ ∃ path n, nodeAt seq path = some n ∧ path.length = (pack seq).depth) := by
  rw [pack_eq]
  simp only
  constructor
  · intro path n h
    obtain ⟨e, he, rfl, rfl⟩ := (entry_node seq).2 path n h
    rw [entry_level seq e he]
    have := (foldl_max_le ((rootDelta seq).1.entries.map (·.lev)) 0 _).1 (Nat.le_refl _)
    have := this.2 e.lev (List.mem_map.2 ⟨e, he, rfl⟩)
    omega
  · cases seq with
    | nil => left; exact ⟨rfl, rfl⟩
    | cons n ns =>
      right
      rcases foldl_max_mem ((rootDelta (n :: ns)).1.entries.map (·.lev)) 0 with h | h
      · exact ⟨[0], n, by simp [nodeAt], by simp [h]⟩
      · obtain ⟨e, he, hlev⟩ := List.mem_map.1 h
        refine ⟨e.path, e.node, (entry_node _).1 e he, ?_⟩
        rw [entry_level _ e he, hlev]

/-- C04: the recorded depth agrees with `compute_depth` (one plus the deepest group nesting) for
trees without empty groups. -/
theorem C04_depth_agrees_partial (seq : List (Node M))
    (h : ∀ mt, ¬ Occurs seq (.group [] mt)) :
    (pack seq).depth = computeDepth seq ∧ computeDepth seq = 1 + nesting seq := by
  rw [computeDepth_eq_nesting.2]
  refine ⟨?_, by omega⟩
  obtain ⟨h1, h2⟩ := C04_depth seq
  by_cases hs : seq = []
  · subst hs; rfl
  · obtain ⟨p, n, hp, hl⟩ := nesting_le_path.2 seq h hs
    have a := h1 p n hp
    rcases h2 with ⟨h2, _⟩ | ⟨p', n', hp', hl'⟩
    · exact absurd h2 hs
    · have := path_le_nesting.2 seq p' n' hp'
      omega

/-- C04, deviation: an empty group counts for `compute_depth` but not for the recorded depth. -/
theorem C04_empty_group_witness :
    (pack [(Node.group [] 0 : Node Nat)]).depth = 1
    ∧ computeDepth [(Node.group [] 0 : Node Nat)] = 2 := by decide

example : (pack sample).depth = 4 := by decide

/-- C05: the in-order traversal succeeds and its items denote, one by one, exactly the bracketed
linearisation of the tree, with (only) the decoration leaves left out when stripping. -/
theorem C05_in_order (seq : List (Node M)) (strip : Bool) :
    ∃ items, (pack seq).inOrderTraversal strip = some items
      ∧ Denotes (pack seq) items ((events seq).filter (fun e => !(strip && e.isDeco))) :=
  (trav_represents (pack seq) strip).2 seq _ _ (entry_represents seq).1 (nesting_lt_fuel seq)

example : (events sample).length = 18 ∧
    ((events sample).filter (fun e => !(true && e.isDeco))).length = 15 := by decide

end RUSure.Props
