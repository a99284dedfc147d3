import Verif.Lemmas.TokenProbAlign
import Verif.Lemmas.TokenProbEmpty

/-!
# C13: alignment of model token log-probabilities
-/

namespace RUSure.Props
open RUSure RUSure.Spec RUSure.Lemmas
variable {M R : Type}

/-- C13: alignment succeeds exactly when the prototype's text is a prefix of the text spelled by the
model tokens; when all model tokens must be consumed, exactly when the two texts are equal. -/
theorem C13_succeeds_iff [Add R] [Zero R] (tokens : List (Text × R)) (seq : List (Node M)) :
    ((∃ res, alignTokenLogProbs tokens (pack seq) false = some res)
        ↔ Spec.text seq <+: tokensText tokens)
    ∧ ((∃ res, alignTokenLogProbs tokens (pack seq) true = some res)
        ↔ Spec.text seq = tokensText tokens) := by
  obtain ⟨h1, h2⟩ := alignNodes_isSome (docNodes seq) 0 tokens []
  rw [docNodes_text] at h1 h2
  simp only [alignTokenLogProbs, alignLoop_pack]
  by_cases hp : Spec.text seq <+: tokensText tokens
  · obtain ⟨st', res', h3, h4⟩ := h1 hp
    rw [h3]
    refine ⟨by simp [hp], ?_⟩
    simp only [Bool.true_and, Bool.not_eq_true']
    constructor
    · rintro ⟨res, hres⟩
      split at hres
      · simp at hres
      · rename_i hc
        have hc' : allConsumed st' = true := by simpa using hc
        rw [allConsumed_iff, h4, List.drop_eq_nil_iff] at hc'
        exact List.IsPrefix.eq_of_length_le hp hc'
    · intro he
      have : allConsumed st' = true := by rw [allConsumed_iff, h4, he]; simp
      simp [this]
  · rw [h2 hp]
    refine ⟨by simp [hp], ?_⟩
    constructor
    · simp
    · intro h
      exact absurd (h ▸ List.prefix_rfl) hp

/-- C13: on success (no empty text nodes) the result has an entry exactly for the preorder indices
of token nodes, and each holds the in-order sum of the log probabilities of the model tokens that
overlap the node's character span. -/
theorem C13_values [Add R] [Zero R] (tokens : List (Text × R)) (seq : List (Node M)) (all : Bool)
    (res : List (Int × R)) (hne : TextNonempty seq)
    (h : alignTokenLogProbs tokens (pack seq) all = some res) :
    (∀ k : Nat, (docNodes seq).length ≤ k → res.lookup (k : Int) = none)
    ∧ ∀ (k : Nat) n, (docNodes seq)[k]? = some n →
        res.lookup (k : Int) = match n with
          | .tok t _ => some (spanLogProb tokens (startOffset seq k) (startOffset seq k + t.length))
          | _ => none := by
  simp only [alignTokenLogProbs, alignLoop_pack] at h
  split at h
  · simp at h
  · rename_i st' res' ha
    split at h
    · simp at h
    · simp only [Option.some.injEq] at h
      subst h
      obtain ⟨-, h2, h3⟩ := alignNodes_values tokens (docNodes seq)
        (fun n hn ht => hne n (docNodes_occurs seq n hn) ht) 0 0 tokens st' [] res'
        (fun _ _ _ _ => rfl) (by simp) ha
      refine ⟨fun k hk => h2 k (by omega), fun k n hk => ?_⟩
      have := h3 k n hk
      simp only [Nat.zero_add] at this
      exact this

/-- C13: the same for any prototype, if no model token is empty: a token node without text gets the log
probability of the next model token, and nothing is consumed. -/
theorem C13_values_any_nodes [Add R] [Zero R] (tokens : List (Text × R)) (seq : List (Node M)) (all : Bool)
    (res : List (Int × R)) (hne : ∀ x ∈ tokens, x.1 ≠ [])
    (h : alignTokenLogProbs tokens (pack seq) all = some res) :
    (∀ k : Nat, (docNodes seq).length ≤ k → res.lookup (k : Int) = none)
    ∧ ∀ (k : Nat) n, (docNodes seq)[k]? = some n →
        res.lookup (k : Int) = match n with
          | .tok t _ => some (nodeLogProb tokens (startOffset seq k) t)
          | _ => none := by
  simp only [alignTokenLogProbs, alignLoop_pack] at h
  split at h
  · simp at h
  · rename_i st' res' ha
    split at h
    · simp at h
    · simp only [Option.some.injEq] at h
      subst h
      obtain ⟨-, h2, h3⟩ := alignNodes_inv (fun s st => st = restAfter tokens s) (nodeLogProb tokens)
        (fun s st t lp st1 hI ha => by subst hI; exact advance_nonempty tokens hne s t lp st1 ha)
        (docNodes seq) 0 0 tokens st' [] res' (restAfter_zero tokens).symm (by simp) ha
      refine ⟨fun k hk => h2 k (by omega), fun k n hk => ?_⟩
      have := h3 k n hk
      simp only [Nat.zero_add] at this
      exact this

/-- A node without text between `a` and `bc`, where the next model token is `ab`: it gets its log probability. -/
example : ∃ res, alignTokenLogProbs (R := Int) [("ab".toList, -1), ("c".toList, -2)]
      (pack [.tok "a".toList (), .tok [] (), .tok "bc".toList (), .tok [] ()]) true = some res
    ∧ res.lookup 1 = some (-1) ∧ res.lookup 2 = some (-3) ∧ res.lookup 3 = some 0 := by
  refine ⟨_, rfl, ?_⟩
  obtain ⟨-, h⟩ := C13_values_any_nodes (R := Int) [("ab".toList, -1), ("c".toList, -2)]
    [.tok "a".toList (), .tok [] (), .tok "bc".toList (), .tok [] ()] true _ (by decide) rfl
  exact ⟨h 1 _ rfl, h 2 _ rfl, h 3 _ rfl⟩

/-- C13: in general, where nodes and model tokens may be empty. Nodes without text take the empty model tokens at their
offset one by one; if there are none left, they get the log probability of the next model token without consuming it.
A node with text gets the sum over the empty model tokens left at its start, and the model tokens that share a
character with it or lie inside it. -/
theorem C13_values_general [Add R] [Zero R] (tokens : List (Text × R)) (seq : List (Node M)) (all : Bool)
    (res : List (Int × R)) (h : alignTokenLogProbs tokens (pack seq) all = some res) :
    (∀ k : Nat, (docNodes seq).length ≤ k → res.lookup (k : Int) = none)
    ∧ ∀ (k : Nat) n, (docNodes seq)[k]? = some n →
        res.lookup (k : Int) = match n with
          | .tok t _ => some (nodeLogProbAt tokens (startOffset seq k) (emptyBefore seq k) t)
          | _ => none := by
  simp only [alignTokenLogProbs, alignLoop_pack] at h
  split at h
  · simp at h
  · rename_i st' res' ha
    split at h
    · simp at h
    · simp only [Option.some.injEq] at h
      subst h
      obtain ⟨-, h2, h3⟩ := alignNodes_state nextPlace (fun p st => st = dropEmpty p.2 (restAfter tokens p.1))
        (fun p t => nodeLogProbAt tokens p.1 p.2 t)
        (fun p st t lp st1 hI ha => by subst hI; exact advance_pending tokens p t lp st1 ha)
        (docNodes seq) 0 (0, 0) tokens st' [] res' (restAfter_zero tokens).symm (by simp) ha
      refine ⟨fun k hk => h2 k (by omega), fun k n hk => ?_⟩
      have := h3 k n hk
      rw [foldl_place, Nat.zero_add] at this
      exact this

/-- Two empty model tokens between `a` and `b`, and nodes without text there: the first takes the first empty token,
a decoration takes the second, and the third gets the token `bc`, as does the node `b` after it. -/
example : ∃ res, alignTokenLogProbs (R := Int) [("a".toList, -1), ([], -2), ([], -3), ("bc".toList, -4), ([], -5)]
      (pack [.tok "a".toList (), .tok [] (), .deco [], .tok [] (), .tok "b".toList (), .tok "c".toList (), .tok [] (),
        .tok [] ()]) true = some res
    ∧ res.lookup 0 = some (-1) ∧ res.lookup 1 = some (-2) ∧ res.lookup 3 = some (-4) ∧ res.lookup 4 = some (-4)
    ∧ res.lookup 5 = some (-4) ∧ res.lookup 6 = some (-5) ∧ res.lookup 7 = some 0 := by
  refine ⟨_, rfl, ?_⟩
  obtain ⟨-, h⟩ := C13_values_general (R := Int)
    [("a".toList, -1), ([], -2), ([], -3), ("bc".toList, -4), ([], -5)]
    [.tok "a".toList (), .tok [] (), .deco [], .tok [] (), .tok "b".toList (), .tok "c".toList (), .tok [] (),
        .tok [] ()] true _ rfl
  exact ⟨h 0 _ rfl, h 1 _ rfl, h 3 _ rfl, h 4 _ rfl, h 5 _ rfl, h 6 _ rfl, h 7 _ rfl⟩

/-- C13: listing the aligned tokens again never fails and spells exactly the prototype. -/
theorem C13_flatten_text [Add R] [Zero R] (tokens : List (Text × R)) (seq : List (Node M))
    (all : Bool) (res : List (Int × R))
    (h : alignTokenLogProbs tokens (pack seq) all = some res) :
    ∃ out, flattenLogProbs (pack seq) res (pack seq).preorder = some out
      ∧ tokensText out = Spec.text seq := by
  simp only [alignTokenLogProbs, alignLoop_pack] at h
  split at h
  · simp at h
  · rename_i st' res' ha
    split at h
    · simp at h
    · simp only [Option.some.injEq] at h
      subst h
      obtain ⟨h1, h2⟩ := docNodes_ids seq
      have := flattenLogProbs_text (pack seq) res' (pack seq).preorder (docNodes seq) 0 h1
        (fun i id n hi hn => by simpa using h2 i id n hi hn)
        (fun i t mt hi => by simpa using (alignNodes_keys _ 0 _ _ _ _ ha).2 i t mt hi)
      rwa [docNodes_text] at this

/-- Two nodes sharing a model token both get its log probability: `ab`|`cd`|`e` against `a`,`bcde`. -/
example : alignTokenLogProbs (R := Int)
    [("ab".toList, -1), ("".toList, -7), ("cd".toList, -2), ("e".toList, -4)]
    (pack [.tok "a".toList (), .group [.tok "bcd".toList (), .deco "e".toList] ()]) true
    = some [(0, -1), (2, -10)] := by decide

example : TextNonempty [Node.tok "a".toList (), .group [.tok "bcd".toList (), .deco "e".toList] ()] := by
  intro n hn ht
  obtain ⟨path, hp⟩ := hn
  have h2 : ∀ (path : List Nat) (n : Node Unit), IsTextLeaf n → path ≠ [] →
      nodeAt [Node.tok "bcd".toList (), .deco "e".toList] path = some n → leafText n ≠ [] := by
    intro path n ht hne hp
    match path with
    | [] => exact absurd rfl hne
    | [0] => simp [nodeAt] at hp; subst hp; decide
    | [1] => simp [nodeAt] at hp; subst hp; decide
    | [i + 2] => simp [nodeAt] at hp
    | 0 :: j :: p => simp [nodeAt] at hp
    | 1 :: j :: p => simp [nodeAt] at hp
    | (i + 2) :: j :: p => simp [nodeAt] at hp
  match path with
  | [] => simp [nodeAt] at hp
  | [0] => simp [nodeAt] at hp; subst hp; decide
  | [1] => simp [nodeAt] at hp; subst hp; exact absurd ht (by simp [IsTextLeaf])
  | [i + 2] => simp [nodeAt] at hp
  | 0 :: j :: p => simp [nodeAt] at hp
  | 1 :: j :: p => simp [nodeAt] at hp; exact h2 _ n ht (by simp) hp
  | (i + 2) :: j :: p => simp [nodeAt] at hp

end RUSure.Props
