import Verif.Spec.Views
import Verif.Props.Constraint
import Verif.Lemmas.TokenProbAlign

/-!
# HTML of token probabilities
-/

namespace RUSure.Lemmas
open RUSure RUSure.Spec RUSure.Props
variable {M R : Type}

theorem strip_whole_tag {t : Text} (ht : '>' ∉ t) (r : Text) :
    stripTags false ('<' :: (t ++ '>' :: r)) = stripTags false r := by
  rw [stripTags, if_pos rfl]
  induction t with
  | nil => rw [List.nil_append, stripTags, if_pos rfl]
  | cons c t ih =>
    simp only [List.mem_cons, not_or] at ht
    rw [List.cons_append, stripTags, if_neg (Ne.symm ht.1)]
    exact ih ht.2

theorem tags_whole_tag {t : Text} (ht : '>' ∉ t) (r : Text) :
    tagsOf none ('<' :: (t ++ '>' :: r)) = t :: tagsOf none r := by
  rw [tagsOf, if_pos rfl]
  have : ∀ (t cur : Text), '>' ∉ t → tagsOf (some cur) (t ++ '>' :: r) = (cur ++ t) :: tagsOf none r := by
    intro t
    induction t with
    | nil => intro cur _; rw [List.nil_append, tagsOf, if_pos rfl, List.append_nil]
    | cons c t ih =>
      intro cur ht
      simp only [List.mem_cons, not_or] at ht
      rw [List.cons_append, tagsOf, if_neg (Ne.symm ht.1), ih _ ht.2, List.append_assoc]
      rfl
  exact this t [] ht

theorem tokenSpan_split (x body : Text) :
    "<span style=\"background-color: rgb(100.0%, ".toList ++ x ++ "%, ".toList ++ x ++ "%)\">".toList
        ++ body ++ "</span>".toList
      = '<' :: (colorTag x ++ '>' :: (body ++ '<' :: ("/span".toList ++ ['>']))) := by
  have h1 : "<span style=\"background-color: rgb(100.0%, ".toList
      = '<' :: "span style=\"background-color: rgb(100.0%, ".toList := by decide +kernel
  have h2 : "%)\">".toList = "%)\"".toList ++ ['>'] := by decide +kernel
  have h3 : "</span>".toList = '<' :: ("/span".toList ++ ['>']) := by decide +kernel
  rw [h1, h2, h3]
  unfold colorTag
  generalize "span style=\"background-color: rgb(100.0%, ".toList = a
  generalize "%, ".toList = b
  generalize "%)\"".toList = c
  generalize "/span".toList = d
  simp only [List.append_assoc, List.cons_append, List.nil_append]

theorem colorTag_no_gt {x : Text} (h : '>' ∉ x) : '>' ∉ colorTag x := by
  have h1 : '>' ∉ "span style=\"background-color: rgb(100.0%, ".toList := by decide +kernel
  have h2 : '>' ∉ "%, ".toList := by decide +kernel
  have h3 : '>' ∉ "%)\"".toList := by decide +kernel
  unfold colorTag
  simp only [List.mem_append, not_or]
  exact ⟨⟨⟨⟨h1, h⟩, h2⟩, h⟩, h3⟩

theorem closing_no_gt : '>' ∉ "/span".toList := by decide +kernel

theorem tokenSpans_ok {percent : R → Option Text} : ∀ (tokens : List (Text × R)),
    (∀ x ∈ tokens, ∃ c, percent x.2 = some c ∧ '>' ∉ c) →
    ∃ spans colors, tokenSpans percent tokens = some spans
      ∧ List.Forall₂ (fun (x : Text × R) c => percent x.2 = some c) tokens colors
      ∧ ∀ r, stripTags false (spans.flatten ++ r)
          = tokens.flatMap (fun x => htmlEscape (markNewlines x.1)) ++ stripTags false r
        ∧ tagsOf none (spans.flatten ++ r)
          = colors.flatMap (fun c => [colorTag c, "/span".toList]) ++ tagsOf none r
  | [], _ => ⟨[], [], rfl, .nil, fun _ => ⟨rfl, rfl⟩⟩
  | (t, p) :: l, h => by
    obtain ⟨c, hc, hg⟩ := h (t, p) (by simp)
    obtain ⟨spans, colors, h1, h2, h3⟩ := tokenSpans_ok l fun x hx => h x (by simp [hx])
    refine ⟨("<span style=\"background-color: rgb(100.0%, ".toList ++ c ++ "%, ".toList ++ c ++ "%)\">".toList
          ++ htmlEscape (markNewlines t) ++ "</span>".toList) :: spans, c :: colors, ?_, .cons hc h2, ?_⟩
    · rw [tokenSpans, show percent p = some c from hc]
      simp only [h1, Option.map_some]
    · intro r
      rw [List.flatten_cons, List.append_assoc, tokenSpan_split]
      have hs : ∀ q : Text, ('<' :: (colorTag c ++ '>' :: (htmlEscape (markNewlines t)
            ++ '<' :: ("/span".toList ++ ['>'])))) ++ q
          = '<' :: (colorTag c ++ '>' :: (htmlEscape (markNewlines t) ++ '<' :: ("/span".toList ++ '>' :: q))) := by
        intro q
        generalize "/span".toList = d
        simp only [List.cons_append, List.append_assoc, List.nil_append]
      rw [hs]
      constructor
      · rw [strip_whole_tag (colorTag_no_gt hg), strip_text (escape_no_lt _), strip_whole_tag closing_no_gt, (h3 r).1,
          List.flatMap_cons, List.append_assoc]
      · rw [tags_whole_tag (colorTag_no_gt hg), tags_text (escape_no_lt _), tags_whole_tag closing_no_gt, (h3 r).2,
          List.flatMap_cons]
        rfl

theorem tokenSpans_none {percent : R → Option Text} : ∀ {tokens : List (Text × R)},
    tokenSpans percent tokens = none ↔ ∃ x ∈ tokens, percent x.2 = none
  | [] => by simp [tokenSpans]
  | (t, p) :: l => by
    rw [tokenSpans]
    cases hp : percent p with
    | none => simp [hp]
    | some c => simp [hp, tokenSpans_none (tokens := l)]

theorem flattenLogProbs_list [Zero R] (S : Storage M) (res : List (Int × R)) (g : Nat → Text → R) (ids : List NodeId) :
    ∀ (ns : List (Node M)) (k : Nat), ids.length = ns.length →
    (∀ i id n, ids[i]? = some id → ns[i]? = some n → id.preorder = ((k + i : Nat) : Int) ∧ Represents S id n) →
    (∀ i t mt, ns[i]? = some (.tok t mt) → res.lookup ((k + i : Nat) : Int) = some (g (k + i) t)) →
    flattenLogProbs S res ids = some ((ns.zipIdx k).filterMap fun x =>
      match x.1 with
      | .tok t _ => some (t, g x.2 t)
      | .deco t => some (t, 0)
      | _ => none) := by
  induction ids with
  | nil =>
    intro ns k hlen h hk
    cases ns with
    | nil => rfl
    | cons n ns => simp at hlen
  | cons id ids ih =>
    intro ns k hlen h hk
    cases ns with
    | nil => simp at hlen
    | cons n ns =>
      obtain ⟨h1, h2⟩ := h 0 id n rfl rfl
      have ho1 := ih ns (k + 1) (by simpa using hlen)
        (fun i id n hi hn => by
          have := h (i + 1) id n (by simpa using hi) (by simpa using hn)
          rwa [show k + (i + 1) = k + 1 + i by omega] at this)
        (fun i t mt hi => by
          have := hk (i + 1) t mt (by simpa using hi)
          rwa [show k + (i + 1) = k + 1 + i by omega] at this)
      rw [List.zipIdx_cons]
      cases n with
      | deco t =>
        obtain ⟨hc, hg⟩ := h2
        simp only [flattenLogProbs, hc, hg, ho1]
        rfl
      | tok t mt =>
        obtain ⟨hc, hg⟩ := h2
        have hl := hk 0 t mt rfl
        rw [← h1] at hl
        simp only [flattenLogProbs, hc, hg, ho1, hl]
        rfl
      | rstart => simp only [flattenLogProbs, show id.cat = _ from h2, ho1]; rfl
      | rend => simp only [flattenLogProbs, show id.cat = _ from h2, ho1]; rfl
      | exit => simp only [flattenLogProbs, show id.cat = _ from h2, ho1]; rfl
      | group cs mt =>
        obtain ⟨hc, -⟩ := h2
        simp only [flattenLogProbs, hc, ho1]
        rfl

end RUSure.Lemmas
