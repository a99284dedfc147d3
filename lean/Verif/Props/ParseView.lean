import Verif.Lemmas.ParseView
import Verif.Lemmas.LayoutNotes
import Verif.Props.DebugView

/-!
# C82: the view of a pseudo parse tree
-/

namespace RUSure.Props
open RUSure.Spec RUSure.Debug RUSure.ParseView

/-- The line of a node, with masks of width `w`, and `k` blanks at the end. -/
def viewLine (printable : Char → Bool) (tokens : List Text) (w k : Nat) (r : Nat × PNode) : Text :=
  ['|', ' '] ++ (maskView printable tokens r.2 ++ List.replicate (w - (maskView printable tokens r.2).length) ' ')
    ++ [' ', '|', ' '] ++ (List.replicate (3 * r.1) ' ' ++ nodeRepr r.2) ++ List.replicate k ' '

theorem strip_end {space : Char → Bool} (a c : Char) (t trail : Text) (ha : space a = false) (hc : space c = false)
    (ht : ∀ x ∈ trail, space x = true) : strip space (a :: (t ++ c :: trail)) = a :: (t ++ [c]) := by
  have h1 : (a :: (t ++ c :: trail)).dropWhile space = a :: (t ++ c :: trail) := by
    rw [List.dropWhile_cons, ha]
    rfl
  have h2 : (a :: (t ++ c :: trail)).reverse = trail.reverse ++ c :: (a :: t).reverse := by simp
  have h3 : (trail.reverse ++ c :: (a :: t).reverse).dropWhile space = c :: (a :: t).reverse := by
    rw [List.dropWhile_append_of_pos (by simpa using ht), List.dropWhile_cons, hc]
    rfl
  unfold strip
  rw [h1, h2, h3]
  simp

theorem rows_ne (d : Nat) (n : PNode) : nodesWithDepth d n ≠ [] := by
  cases n
  rw [nodesWithDepth]
  exact List.cons_ne_nil _ _

theorem view_lines (space printable : Char → Bool) (h1 : space ' ' = true) (h2 : space '\n' = true)
    (h3 : space '|' = false) (h4 : space ')' = false) (tokens : List Text) (root : PNode) :
    ∃ (w : Nat) (ls : List Text), humanReadable space printable tokens root = List.intercalate ['\n'] ls
      ∧ (∀ r ∈ nodesWithDepth 0 root, (maskView printable tokens r.2).length ≤ w)
      ∧ List.Forall₂ (fun r l => ∃ k, l = viewLine printable tokens w k r) (nodesWithDepth 0 root) ls := by
  unfold humanReadable
  rw [viewNode_rows]
  simp only []
  generalize hw : maxLen (((nodesWithDepth 0 root).map (rowOf printable tokens)).map Prod.fst) = w
  generalize hv : maxLen (((nodesWithDepth 0 root).map (rowOf printable tokens)).map Prod.snd) = v
  have hle : ∀ r ∈ nodesWithDepth 0 root, (maskView printable tokens r.2).length ≤ w := by
    intro r hr
    rw [← hw]
    refine le_maxLen _ _ ?_
    rw [List.map_map]
    exact List.mem_map.2 ⟨r, hr, rfl⟩
  obtain ⟨init, last, hrows⟩ : ∃ init last, nodesWithDepth 0 root = init ++ [last] :=
    ⟨_, _, (List.dropLast_append_getLast (rows_ne 0 root)).symm⟩
  generalize nodesWithDepth 0 root = rows at *
  subst hrows
  let pad (r : Nat × PNode) : Nat := v - (List.replicate (3 * r.1) ' ' ++ nodeRepr r.2).length
  refine ⟨w, init.map (fun r => viewLine printable tokens w (pad r) r) ++ [viewLine printable tokens w 0 last], ?_, hle, ?_⟩
  · have inter : ∀ (xs : List Text) (y : Text),
        List.intercalate ['\n'] (xs ++ [y]) = xs.flatMap (fun l => l ++ ['\n']) ++ y := by
      intro xs y
      induction xs with
      | nil => simp [List.intercalate]
      | cons x xs ih =>
        rw [List.cons_append, intercalate_cons x (by simp), ih]
        simp
    rw [inter, List.map_append, List.flatMap_append, List.map_singleton, List.flatMap_singleton]
    have e1 : (init.map (rowOf printable tokens)).flatMap
          (fun r => ['|', ' '] ++ ljust r.1 w ++ [' ', '|', ' '] ++ ljust r.2 v ++ ['\n'])
        = (init.map fun r => viewLine printable tokens w (pad r) r).flatMap fun l => l ++ ['\n'] := by
      rw [List.flatMap_map, List.flatMap_map]
      refine List.flatMap_congr fun r _ => ?_
      simp only [rowOf, ljust, viewLine, pad, List.append_assoc]
    have e2 : ['|', ' '] ++ ljust (rowOf printable tokens last).1 w ++ [' ', '|', ' ']
          ++ ljust (rowOf printable tokens last).2 v ++ ['\n']
        = viewLine printable tokens w 0 last ++ (List.replicate (pad last) ' ' ++ ['\n']) := by
      simp only [rowOf, ljust, viewLine, pad, List.append_assoc, List.replicate_zero, List.nil_append]
    rw [e1, e2, ← List.append_assoc]
    obtain ⟨z, hz⟩ : ∃ z, viewLine printable tokens w 0 last = '|' :: (z ++ [')']) := by
      refine ⟨' ' :: ((maskView printable tokens last.2
        ++ List.replicate (w - (maskView printable tokens last.2).length) ' ') ++ ([' ', '|', ' ']
        ++ (List.replicate (3 * last.1) ' ' ++ (['N', 'o', 'd', 'e', '('] ++ numberText (some last.2.lo) ++ ['-']
        ++ numberText last.2.hi ++ [',', ' '] ++ annotation last.2.ann)))), ?_⟩
      simp only [viewLine, nodeRepr, List.append_assoc, List.replicate_zero, List.cons_append, List.nil_append,
        List.append_nil]
    have ht : ∀ x ∈ List.replicate (pad last) ' ' ++ ['\n'], space x = true := by
      intro x hx
      rcases List.mem_append.1 hx with hx | hx
      · rw [List.eq_of_mem_replicate hx]
        exact h1
      · rw [List.mem_singleton.1 hx]
        exact h2
    have hstart : ∀ xs : List (Nat × PNode), ∃ u,
        (xs.map fun r => viewLine printable tokens w (pad r) r).flatMap (fun l => l ++ ['\n'])
          ++ viewLine printable tokens w 0 last = '|' :: (u ++ [')']) := by
      intro xs
      cases xs with
      | nil => exact ⟨z, hz⟩
      | cons r xs =>
        rw [hz]
        refine ⟨' ' :: ((maskView printable tokens r.2
          ++ List.replicate (w - (maskView printable tokens r.2).length) ' ') ++ ([' ', '|', ' ']
          ++ ((List.replicate (3 * r.1) ' ' ++ nodeRepr r.2) ++ (List.replicate (pad r) ' ' ++ (['\n']
          ++ ((xs.map fun r => viewLine printable tokens w (pad r) r).flatMap (fun l => l ++ ['\n'])
          ++ '|' :: z)))))), ?_⟩
        simp only [List.map_cons, List.flatMap_cons, viewLine, List.append_assoc, List.cons_append, List.nil_append]
    obtain ⟨u, hu⟩ := hstart init
    rw [hu, List.cons_append, List.append_assoc]
    exact strip_end '|' ')' u _ h3 h4 ht
  · have app : ∀ (xs : List (Nat × PNode)), List.Forall₂ (fun r l => ∃ k, l = viewLine printable tokens w k r)
        (xs ++ [last]) (xs.map (fun r => viewLine printable tokens w (pad r) r) ++ [viewLine printable tokens w 0 last]) := by
      intro xs
      induction xs with
      | nil => exact .cons ⟨0, rfl⟩ .nil
      | cons r xs ih => exact .cons ⟨_, rfl⟩ ih
    exact app init

theorem mask_newline (printable : Char → Bool) (tokens : List Text) (n : PNode) :
    '\n' ∉ maskView printable tokens n := by
  unfold maskView
  simp only []
  split
  · exact List.not_mem_nil
  · exact unquoted_newline _ _

theorem line_newline (printable : Char → Bool) (tokens : List Text) (w k : Nat) (r : Nat × PNode) :
    '\n' ∉ viewLine printable tokens w k r := by
  have h1 := mask_newline printable tokens r.2
  have h2 := (nodeRepr_not r.2).2
  have h3 : ∀ m, '\n' ∉ List.replicate m ' ' := fun m h => absurd (List.eq_of_mem_replicate h) (by decide)
  have h4 : '\n' ∉ ['|', ' '] := by decide
  have h5 : '\n' ∉ [' ', '|', ' '] := by decide
  simp only [viewLine, List.mem_append, not_or]
  exact ⟨⟨⟨⟨h4, h1, h3 _⟩, h5⟩, h3 _, h2⟩, h3 _⟩

/-- C82. The view has one line for each node, parents before children: the tokens in a column of common width, then
the node, three blanks further to the right for each level, with its bounds and its annotation. -/
theorem C82_lines (space printable : Char → Bool) (h1 : space ' ' = true) (h2 : space '\n' = true)
    (h3 : space '|' = false) (h4 : space ')' = false) (tokens : List Text) (root : PNode) :
    ∃ w, (∀ r ∈ nodesWithDepth 0 root, (maskView printable tokens r.2).length ≤ w)
      ∧ List.Forall₂ (fun r line => ∃ mask blanks,
          mask = maskView printable tokens r.2 ∧
          line = ['|', ' '] ++ (mask ++ List.replicate (w - mask.length) ' ') ++ [' ', '|', ' ']
            ++ (List.replicate (3 * r.1) ' ' ++ (['N', 'o', 'd', 'e', '('] ++ (Nat.repr r.2.lo).toList ++ ['-']
              ++ numberText r.2.hi ++ [',', ' '] ++ annotation r.2.ann ++ [')'])) ++ List.replicate blanks ' ')
        (nodesWithDepth 0 root) (Draw.splitLines (humanReadable space printable tokens root)) := by
  obtain ⟨w, ls, e, hw, hls⟩ := view_lines space printable h1 h2 h3 h4 tokens root
  have hne : ls ≠ [] := by
    rintro rfl
    exact rows_ne 0 root (List.forall₂_nil_right_iff.1 hls)
  have hnl : ∀ l ∈ ls, '\n' ∉ l := by
    intro l hl
    obtain ⟨r, _, k, rfl⟩ := Draw.forall2_right hls hl
    exact line_newline _ _ _ _ _
  rw [e, split_lines ls hne hnl]
  refine ⟨w, hw, hls.imp ?_⟩
  rintro r l ⟨k, rfl⟩
  exact ⟨_, k, rfl, rfl⟩

theorem plain_underscore : Plain '_' := by
  unfold Plain
  decide

theorem masked_plain (lo hi : Nat) (ts : List Text) (i : Nat) (hp : ∀ t ∈ ts, ∀ c ∈ t, Plain c) :
    ∀ c ∈ masked lo hi i ts, Plain c := by
  induction ts generalizing i with
  | nil => exact nofun
  | cons t ts ih =>
    intro c hc
    rw [masked] at hc
    rcases List.mem_append.1 hc with hc | hc
    · split at hc
      · exact hp t (List.mem_cons_self ..) c hc
      · obtain ⟨_, _, rfl⟩ := List.mem_map.1 hc
        exact plain_underscore
    · exact ih (i + 1) (fun t ht => hp t (List.mem_cons_of_mem _ ht)) c hc

theorem mask_plain (printable : Char → Bool) (tokens : List Text) (hp : ∀ t ∈ tokens, ∀ c ∈ t, Plain c)
    (lo hi : Nat) :
    (if tokens = [] then [] else unquoted printable (tokens.zipIdx.flatMap fun x =>
      if lo ≤ x.2 ∧ x.2 < hi then unquoted printable x.1
      else List.replicate (unquoted printable x.1).length '_')) = masked lo hi 0 tokens := by
  split
  · rename_i e
    rw [e]
    rfl
  · have e : (tokens.zipIdx.flatMap fun x => if lo ≤ x.2 ∧ x.2 < hi then unquoted printable x.1
          else List.replicate (unquoted printable x.1).length '_') = masked lo hi 0 tokens := by
      rw [masked_eq]
      refine List.flatMap_congr fun x hx => ?_
      have hm : x.1 ∈ tokens := (List.mem_zipIdx' hx).2 ▸ List.getElem_mem _
      rw [unquoted_plain printable x.1 (hp _ hm)]
    rw [e]
    exact unquoted_plain printable _ (masked_plain _ _ _ _ hp)

/-- C82. Tokens of plain characters are shown as they are where the node covers them, and as underscores elsewhere. -/
theorem C82_mask (printable : Char → Bool) (tokens : List Text) (hp : ∀ t ∈ tokens, ∀ c ∈ t, Plain c)
    (n : PNode) (h0 : n.hi ≠ some 0) :
    maskView printable tokens n = masked n.lo (n.hi.getD (n.lo + 1)) 0 tokens := by
  rcases n with ⟨lo, _ | _ | h, ann, cs⟩
  · exact mask_plain printable tokens hp lo (lo + 1)
  · exact (h0 rfl).elim
  · exact mask_plain printable tokens hp lo (h + 1)

/-- C82 is false for nodes that end at 0, and thus cover nothing: they are shown as if they covered the first token
that they could cover. -/
theorem C82_mask_zero (printable : Char → Bool) (tokens : List Text) (hp : ∀ t ∈ tokens, ∀ c ∈ t, Plain c)
    (n : PNode) (h0 : n.hi = some 0) :
    maskView printable tokens n = masked n.lo (n.lo + 1) 0 tokens := by
  rcases n with ⟨lo, _ | _ | h, ann, cs⟩
  · exact mask_plain printable tokens hp lo (lo + 1)
  · exact mask_plain printable tokens hp lo (lo + 1)
  · cases h0

/-- The tree of a view. -/
def viewExample : PNode :=
  .mk 0 (some 3) .root [.mk 0 (some 3) .paired [.mk 0 none .left [], .mk 1 (some 2) .middle [.mk 1 none .sibling []],
    .mk 2 none .right []]]

/-- The conditions of C82 hold for the tree of `f(x)` without its function, which is shown in six lines. -/
example : (∀ t ∈ ["(".toList, "xy".toList, ")".toList], ∀ c ∈ t, Plain c)
    ∧ humanReadable (fun c => c == ' ' || c == '\n') (fun _ => true) ["(".toList, "xy".toList, ")".toList] viewExample
      = ("| (xy) | Node(0-3, root)               \n| (xy) |    Node(0-3, paired)          \n"
        ++ "| (___ |       Node(0-None, left)      \n| _xy_ |       Node(1-2, middle)       \n"
        ++ "| _xy_ |          Node(1-None, sibling)\n| ___) |       Node(2-None, right)").toList := by
  unfold Plain
  decide +kernel

/-- A node that ends at 0 and the same node where it should end are shown alike. -/
example : maskView (fun _ => true) ["a".toList, "b".toList] (.mk 0 (some 0) .middle []) = "a_".toList
    ∧ masked 0 0 0 ["a".toList, "b".toList] = "__".toList := by
  decide +kernel

theorem last_sep {c : Char} {a b r s : Text} (hr : c ∉ r) (hs : c ∉ s) (h : a ++ c :: r = b ++ c :: s) : r = s := by
  have h' := congrArg List.reverse h
  simp only [List.reverse_append, List.reverse_cons, List.append_assoc, List.singleton_append] at h'
  have := (sep_inj (by simpa using hr) (by simpa using hs) h').1
  simpa using this

theorem line_inj {printable : Char → Bool} {tokens tokens' : List Text} {w k w' k' : Nat} {r r' : Nat × PNode}
    (h : viewLine printable tokens w k r = viewLine printable tokens' w' k' r') : tells r = tells r' := by
  have shape : ∀ (tokens : List Text) (w k : Nat) (r : Nat × PNode), viewLine printable tokens w k r
      = (['|', ' '] ++ (maskView printable tokens r.2
        ++ List.replicate (w - (maskView printable tokens r.2).length) ' ') ++ [' ']) ++ '|' ::
        (' ' :: (List.replicate (3 * r.1) ' ' ++ (nodeRepr r.2 ++ List.replicate k ' '))) := by
    intro tokens w k r
    simp only [viewLine, List.append_assoc, List.cons_append, List.nil_append]
  have clean : ∀ (k : Nat) (r : Nat × PNode),
      '|' ∉ ' ' :: (List.replicate (3 * r.1) ' ' ++ (nodeRepr r.2 ++ List.replicate k ' ')) := by
    intro k r
    have h3 : ∀ m, '|' ∉ List.replicate m ' ' := fun m h => absurd (List.eq_of_mem_replicate h) (by decide)
    have h4 : ¬ '|' = ' ' := by decide
    simp only [List.mem_cons, List.mem_append, not_or]
    exact ⟨h4, h3 _, (nodeRepr_not r.2).1, h3 _⟩
  rw [shape, shape] at h
  have h1 := (List.cons.inj (last_sep (clean k r) (clean k' r') h)).2
  rw [nodeRepr_shape, nodeRepr_shape] at h1
  obtain ⟨e1, h2⟩ := indent_inj (by decide) (by decide) h1
  rw [← nodeRepr_shape, ← nodeRepr_shape] at h2
  obtain ⟨e2, e3, e4⟩ := nodeRepr_inj h2
  have e5 : r.1 = r'.1 := by omega
  simp only [tells, e5, e2, e3, e4]

/-- C82. The view tells the tree, whatever the tokens are. -/
theorem C82_injective (space printable : Char → Bool) (h1 : space ' ' = true) (h2 : space '\n' = true)
    (h3 : space '|' = false) (h4 : space ')' = false) (tokens tokens' : List Text) (root root' : PNode)
    (h : humanReadable space printable tokens root = humanReadable space printable tokens' root') : root = root' := by
  obtain ⟨w, ls, e, _, hls⟩ := view_lines space printable h1 h2 h3 h4 tokens root
  obtain ⟨w', ls', e', _, hls'⟩ := view_lines space printable h1 h2 h3 h4 tokens' root'
  rw [e, e'] at h
  have ok : ∀ {tokens w rows ls}, List.Forall₂ (fun r l => ∃ k, l = viewLine printable tokens w k r) rows ls →
      ∀ l ∈ ls, '\n' ∉ l ∧ l ≠ [] := by
    intro tokens w rows ls hls l hl
    obtain ⟨r, _, k, rfl⟩ := Draw.forall2_right hls hl
    exact ⟨line_newline _ _ _ _ _, by simp [viewLine]⟩
  have hl := intercalate_inj (ok hls) (ok hls') h
  subst hl
  have main : ∀ {rows rows' ls}, List.Forall₂ (fun r l => ∃ k, l = viewLine printable tokens w k r) rows ls →
      List.Forall₂ (fun r l => ∃ k, l = viewLine printable tokens' w' k r) rows' ls →
      rows.map tells = rows'.map tells := by
    intro rows rows' ls a b
    induction a generalizing rows' with
    | nil =>
      cases b
      rfl
    | cons x _ ih =>
      cases b with
      | cons y b =>
        obtain ⟨k, rfl⟩ := x
        obtain ⟨k', e⟩ := y
        rw [List.map_cons, List.map_cons, line_inj e, ih b]
  have := main hls hls'
  refine (node_inj 0 [] [] nofun nofun root root' ?_).1
  simpa using this

end RUSure.Props
