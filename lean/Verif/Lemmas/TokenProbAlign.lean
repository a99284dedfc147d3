import Verif.Model.TokenProbAlign
import Verif.Spec.TokenProbAlign
import Verif.Props.Pack

/-! # Lemmas for token/log-prob alignment -/

namespace RUSure.Lemmas
open RUSure RUSure.Spec
variable {M R : Type}

theorem advance_text [Add R] (st : List (Text × R)) (n : Nat) (out : Text) (tot : R) :
    (advanceLoop st n out tot).1 = out ++ (tokensText st).take n
    ∧ tokensText (advanceLoop st n out tot).2.2 = (tokensText st).drop n := by
  induction st generalizing n out tot with
  | nil => simp [advanceLoop, tokensText]
  | cons p st ih =>
    obtain ⟨t, lp⟩ := p
    simp only [advanceLoop]
    split
    · rename_i hle
      split
      · rename_i h0
        have : n = t.length := by omega
        subst this
        simp [tokensText]
      · have := ih (n - t.length) (out ++ t) (tot + lp)
        rw [this.1, this.2]
        simp only [tokensText, List.flatMap_cons, List.take_append, List.drop_append,
          List.append_assoc]
        rw [List.take_of_length_le hle, List.drop_of_length_le hle]
        simp
    · rename_i hlt
      simp only [tokensText, List.flatMap_cons, List.take_append, List.drop_append]
      have : n - t.length = 0 := by omega
      simp [this]

/-- Model tokens touched by the next `n` characters. -/
def touched : List (Text × R) → Nat → List R
  | [], _ => []
  | (t, lp) :: st, n => lp :: if t.length < n then touched st (n - t.length) else []

/-- The stack after consuming `n` characters. -/
def restAfter : List (Text × R) → Nat → List (Text × R)
  | [], _ => []
  | (t, lp) :: st, n =>
    if n = 0 then (t, lp) :: st
    else if t.length ≤ n then restAfter st (n - t.length) else (t.drop n, lp) :: st

theorem restAfter_zero (st : List (Text × R)) : restAfter st 0 = st := by
  cases st <;> simp [restAfter]

theorem advance_touched [Add R] (st : List (Text × R)) (n : Nat) (out : Text) (tot : R)
    (hn : 0 < n) :
    (advanceLoop st n out tot).2.1 = (touched st n).foldl (· + ·) tot
    ∧ (advanceLoop st n out tot).2.2 = restAfter st n := by
  induction st generalizing n out tot with
  | nil => simp [advanceLoop, touched, restAfter]
  | cons p st ih =>
    obtain ⟨t, lp⟩ := p
    simp only [advanceLoop, touched, restAfter]
    rw [if_neg (by omega : ¬ n = 0)]
    split
    · rename_i hle
      split
      · rename_i h0
        rw [if_neg (by omega), h0, restAfter_zero]
        simp
      · rename_i h0
        have := ih (n - t.length) (out ++ t) (tot + lp) (by omega)
        rw [this.1, this.2, if_pos (by omega)]
        simp
    · rename_i hle
      rw [if_neg (by omega)]
      simp

theorem spansFrom_ge (o : Nat) (st : List (Text × R)) :
    ∀ x ∈ spansFrom o st, o ≤ x.1 ∧ x.1 ≤ x.2.1 := by
  induction st generalizing o with
  | nil => simp [spansFrom]
  | cons p st ih =>
    obtain ⟨t, lp⟩ := p
    intro x hx
    simp only [spansFrom, List.mem_cons] at hx
    rcases hx with rfl | hx
    · simp
    · have := ih _ x hx
      omega

theorem contributes_of_ge {s e : Nat} {x : Nat × Nat × R} (h : s ≤ x.1) (h2 : x.1 ≤ x.2.1) :
    Contributes s e x = decide (x.1 < e) := by
  unfold Contributes
  by_cases h3 : x.1 < e
  · by_cases h4 : s < x.2.1
    · simp [h3, h4]
    · have : x.1 = x.2.1 := by omega
      have h5 : s ≤ x.2.1 := by omega
      simp [h3, h]
      omega
  · simp [h3]

theorem filter_contributes_touched (o n : Nat) (st : List (Text × R)) (hn : 0 < n) :
    ((spansFrom o st).filter (Contributes o (o + n))).map (fun x => x.2.2) = touched st n := by
  have key : ∀ (st : List (Text × R)) (o n : Nat), 0 < n →
      ((spansFrom o st).filter (fun x => decide (x.1 < o + n))).map (fun x => x.2.2)
        = touched st n := by
    intro st
    induction st with
    | nil => intros; simp [spansFrom, touched]
    | cons p st ih =>
      obtain ⟨t, lp⟩ := p
      intro o n hn
      simp only [spansFrom, touched]
      rw [List.filter_cons_of_pos (by simpa using hn)]
      simp only [List.map_cons, List.cons.injEq, true_and]
      split
      · rename_i hlt
        have := ih (o + t.length) (n - t.length) (by omega)
        rwa [show o + t.length + (n - t.length) = o + n by omega] at this
      · rename_i hlt
        rw [List.filter_eq_nil_iff.2]
        · rfl
        · intro x hx
          have := spansFrom_ge _ _ x hx
          simp; omega
  rw [← key st o n hn]
  congr 1
  apply List.filter_congr
  intro x hx
  have := spansFrom_ge _ _ x hx
  exact contributes_of_ge this.1 this.2

theorem filter_contributes_rest (st : List (Text × R)) (o n s e : Nat) (hs : o + n ≤ s)
    (he : s < e) :
    ((spansFrom o st).filter (Contributes s e)).map (fun x => x.2.2)
      = ((spansFrom (o + n) (restAfter st n)).filter (Contributes s e)).map (fun x => x.2.2) := by
  induction st generalizing o n with
  | nil => simp [spansFrom, restAfter]
  | cons p st ih =>
    obtain ⟨t, lp⟩ := p
    by_cases hn : n = 0
    · subst hn; simp [restAfter]
    · simp only [restAfter, if_neg hn]
      split
      · rename_i hle
        simp only [spansFrom]
        rw [List.filter_cons_of_neg]
        · have := ih (o + t.length) (n - t.length) (by omega)
          rwa [show o + t.length + (n - t.length) = o + n by omega] at this
        · simp [Contributes]
          omega
      · rename_i hle
        simp only [spansFrom, List.length_drop]
        rw [show o + n + (t.length - n) = o + t.length by omega]
        by_cases hst : s < o + t.length
        · rw [List.filter_cons_of_pos (by simp [Contributes]; omega),
            List.filter_cons_of_pos (by simp [Contributes]; omega)]
          simp
        · rw [List.filter_cons_of_neg (by simp [Contributes]; omega),
            List.filter_cons_of_neg (by simp [Contributes]; omega)]

/-! ## The loop over nodes -/

/-- The loop of `align_token_log_probs` over the nodes themselves. -/
def alignNodes [Add R] [Zero R] :
    Nat → List (Node M) → List (Text × R) → List (Int × R)
      → Option (List (Text × R) × List (Int × R))
  | _, [], stack, result => some (stack, result)
  | k, .tok t _ :: ns, stack, result =>
      match advanceFor stack t with
      | none => none
      | some (lp, stack') => alignNodes (k + 1) ns stack' (result ++ [((k : Int), lp)])
  | k, .deco t :: ns, stack, result =>
      match advanceFor stack t with
      | none => none
      | some (_, stack') => alignNodes (k + 1) ns stack' result
  | k, _ :: ns, stack, result => alignNodes (k + 1) ns stack result

theorem alignLoop_eq [Add R] [Zero R] (S : Storage M) (ids : List NodeId) (ns : List (Node M))
    (k : Nat) (hlen : ids.length = ns.length)
    (h : ∀ i id n, ids[i]? = some id → ns[i]? = some n →
      id.preorder = ((k + i : Nat) : Int) ∧ Represents S id n)
    (st : List (Text × R)) (res : List (Int × R)) :
    alignLoop S ids st res = alignNodes k ns st res := by
  induction ids generalizing ns k st res with
  | nil =>
    cases ns with
    | nil => rfl
    | cons n ns => simp at hlen
  | cons id ids ih =>
    cases ns with
    | nil => simp at hlen
    | cons n ns =>
      obtain ⟨h1, h2⟩ := h 0 id n rfl rfl
      have hr := fun st res => ih ns (k + 1) (by simpa using hlen)
        (fun i id n hi hn => by
          have := h (i + 1) id n (by simpa using hi) (by simpa using hn)
          rwa [show k + (i + 1) = k + 1 + i by omega] at this) st res
      cases n with
      | deco t =>
        obtain ⟨hc, hg⟩ := h2
        simp only [alignLoop, hc, hg, alignNodes]
        cases advanceFor st t with
        | none => rfl
        | some x => exact hr _ _
      | tok t mt =>
        obtain ⟨hc, hg⟩ := h2
        simp only [alignLoop, hc, hg, alignNodes]
        cases advanceFor st t with
        | none => rfl
        | some x =>
          simp only [h1]
          exact hr _ _
      | rstart => simp only [alignLoop, show id.cat = _ from h2, alignNodes]; exact hr _ _
      | rend => simp only [alignLoop, show id.cat = _ from h2, alignNodes]; exact hr _ _
      | exit => simp only [alignLoop, show id.cat = _ from h2, alignNodes]; exact hr _ _
      | group cs mt => simp only [alignLoop, show id.cat = _ from h2.1, alignNodes]; exact hr _ _

theorem docNodes_ids (seq : List (Node M)) :
    (pack seq).preorder.length = (docNodes seq).length
    ∧ ∀ (i : Nat) id n, (pack seq).preorder[i]? = some id → (docNodes seq)[i]? = some n →
      id.preorder = (i : Int) ∧ Represents (pack seq) id n := by
  obtain ⟨h1, -, -, h2⟩ := Props.C02_preorder seq
  refine ⟨by simpa [docNodes] using h1, ?_⟩
  intro i id n hi hn
  simp only [docNodes, List.getElem?_map, Option.map_eq_some_iff] at hn
  obtain ⟨⟨n', path, tag⟩, hw, rfl⟩ := hn
  obtain ⟨id', pos, ha, hb, hc, -⟩ := h2 i _ path tag hw
  rw [hi] at ha
  cases ha
  exact ⟨hb, hc⟩

theorem alignLoop_pack [Add R] [Zero R] (seq : List (Node M)) (st : List (Text × R))
    (res : List (Int × R)) :
    alignLoop (pack seq) (pack seq).preorder st res = alignNodes 0 (docNodes seq) st res := by
  obtain ⟨h1, h2⟩ := docNodes_ids seq
  apply alignLoop_eq _ _ _ _ h1
  intro i id n hi hn
  simpa using h2 i id n hi hn

/-! ## Text of the walk -/

theorem walk_text :
    (∀ (n : Node M) (path : List Nat),
      (walkNode true false path n).flatMap (fun x => leafText x.1) = (leavesN n).flatMap leafText)
    ∧ (∀ (ns : List (Node M)) (pre : List Nat) (i : Nat),
      (walkFrom true false pre i ns).flatMap (fun x => leafText x.1) = (leaves ns).flatMap leafText) := by
  apply Node.induct
  case hdeco => intros; simp [walkNode, leavesN]
  case htok => intros; simp [walkNode, leavesN]
  case hs => intros; simp [walkNode, leavesN]
  case he => intros; simp [walkNode, leavesN]
  case hx => intros; simp [walkNode, leavesN]
  case hg => intro cs mt ih path; simp only [walkNode, leavesN, List.flatMap_append, ih]; simp [leafText]
  case hnil => intros; simp [walkFrom, leaves]
  case hcons => intro n ns h1 h2 pre i; simp only [walkFrom, leaves, List.flatMap_append, h1, h2]

theorem docNodes_text (seq : List (Node M)) : (docNodes seq).flatMap leafText = Spec.text seq := by
  have := walk_text.2 seq [] 0
  simpa [docNodes, Spec.text, walkWithPaths, List.flatMap_map] using this

theorem docNodes_occurs (seq : List (Node M)) (n : Node M) (h : n ∈ docNodes seq) :
    Occurs seq n := by
  simp only [docNodes, List.mem_map] at h
  obtain ⟨⟨n', path, tag⟩, hm, rfl⟩ := h
  rw [(Props.C12_walk seq true false []).1] at hm
  obtain ⟨p, -, hp, -⟩ := hm
  exact ⟨p, hp⟩

/-! ## Success -/

theorem advanceFor_isSome [Add R] [Zero R] (st : List (Text × R)) (t : Text) :
    (t <+: tokensText st → ∃ lp st', advanceFor st t = some (lp, st')
      ∧ tokensText st' = (tokensText st).drop t.length)
    ∧ (¬ t <+: tokensText st → advanceFor st t = none) := by
  obtain ⟨h1, h2⟩ := advance_text st t.length [] (0 : R)
  unfold advanceFor advanceByLength
  simp only [List.nil_append] at h1
  refine ⟨fun hp => ?_, fun hp => ?_⟩
  · have := List.prefix_iff_eq_take.1 hp
    rw [if_pos (by rw [h1, ← this])]
    exact ⟨_, _, rfl, h2⟩
  · rw [if_neg]
    rw [h1]
    intro h
    exact hp (List.prefix_iff_eq_take.2 h.symm)

theorem prefix_append_iff {a b c : Text} : a ++ b <+: c ↔ a <+: c ∧ b <+: c.drop a.length := by
  constructor
  · rintro ⟨d, rfl⟩
    exact ⟨⟨b ++ d, by simp⟩, ⟨d, by simp⟩⟩
  · rintro ⟨⟨d, rfl⟩, h⟩
    simpa using h

theorem alignNodes_isSome [Add R] [Zero R] (ns : List (Node M)) (k : Nat) (st : List (Text × R))
    (res : List (Int × R)) :
    (ns.flatMap leafText <+: tokensText st → ∃ st' res', alignNodes k ns st res = some (st', res')
      ∧ tokensText st' = (tokensText st).drop (ns.flatMap leafText).length)
    ∧ (¬ ns.flatMap leafText <+: tokensText st → alignNodes k ns st res = none) := by
  induction ns generalizing k st res with
  | nil => simp [alignNodes]
  | cons n ns ih =>
    simp only [List.flatMap_cons, prefix_append_iff]
    have step : ∀ (t : Text) (f : Option (R × List (Text × R)) → Option (List (Text × R) × List (Int × R))),
        leafText n = t → alignNodes k (n :: ns) st res = f (advanceFor st t) → f none = none →
        (∀ lp st', ∃ res', f (some (lp, st')) = alignNodes (k + 1) ns st' res') →
        (leafText n <+: tokensText st ∧ ns.flatMap leafText <+: (tokensText st).drop (leafText n).length →
          ∃ st' res', alignNodes k (n :: ns) st res = some (st', res')
            ∧ tokensText st' = (tokensText st).drop (leafText n ++ ns.flatMap leafText).length)
        ∧ (¬ (leafText n <+: tokensText st ∧ ns.flatMap leafText <+: (tokensText st).drop (leafText n).length) →
          alignNodes k (n :: ns) st res = none) := by
      intro t f ht hf hnone hsome
      subst ht
      rw [hf]
      obtain ⟨ha, hb⟩ := advanceFor_isSome st (leafText n)
      by_cases hp : leafText n <+: tokensText st
      · obtain ⟨lp, st', h1, h2⟩ := ha hp
        obtain ⟨res', hres⟩ := hsome lp st'
        obtain ⟨hc, hd⟩ := ih (k + 1) st' res'
        rw [h2] at hc hd
        rw [h1, hres]
        refine ⟨fun h => ?_, fun h => hd fun h' => h ⟨hp, h'⟩⟩
        obtain ⟨st'', res'', h3, h4⟩ := hc h.2
        exact ⟨st'', res'', h3, by rw [h4]; simp⟩
      · rw [hb hp, hnone]
        exact ⟨fun h => absurd h.1 hp, fun _ => rfl⟩
    cases n with
    | tok t mt =>
      refine step t (fun o => match o with | none => none | some (lp, stack') => alignNodes (k + 1) ns stack' (res ++ [((k : Int), lp)])) rfl ?_ rfl ?_
      · simp only [alignNodes]
      · intro lp st'; exact ⟨_, rfl⟩
    | deco t =>
      refine step t (fun o => match o with | none => none | some (_, stack') => alignNodes (k + 1) ns stack' res) rfl ?_ rfl ?_
      · simp only [alignNodes]
      · intro lp st'; exact ⟨_, rfl⟩
    | rstart => simpa [alignNodes, leafText] using ih (k + 1) st res
    | rend => simpa [alignNodes, leafText] using ih (k + 1) st res
    | exit => simpa [alignNodes, leafText] using ih (k + 1) st res
    | group cs mt => simpa [alignNodes, leafText] using ih (k + 1) st res

theorem allConsumed_iff (st : List (Text × R)) : allConsumed st = true ↔ tokensText st = [] := by
  induction st with
  | nil => simp [allConsumed, tokensText]
  | cons p st ih =>
    simp only [allConsumed, tokensText, List.all_cons, List.flatMap_cons, List.append_eq_nil_iff,
      Bool.and_eq_true, List.isEmpty_iff] at ih ⊢
    rw [ih]

/-! ## Values -/

theorem advanceFor_value [Add R] [Zero R] (st st' : List (Text × R)) (t : Text) (lp : R)
    (ht : t ≠ []) (h : advanceFor st t = some (lp, st')) :
    lp = (touched st t.length).foldl (· + ·) 0 ∧ st' = restAfter st t.length := by
  have hn : 0 < t.length := List.length_pos_iff.2 ht
  obtain ⟨h1, h2⟩ := advance_touched st t.length [] (0 : R) hn
  unfold advanceFor advanceByLength at h
  simp only at h
  split at h
  · simp only [Option.some.injEq, Prod.mk.injEq] at h
    rw [← h.1, ← h.2]
    exact ⟨h1, h2⟩
  · simp at h

theorem alignNodes_values [Add R] [Zero R] (T : List (Text × R)) (ns : List (Node M))
    (hne : ∀ n ∈ ns, IsTextLeaf n → leafText n ≠ []) (k s : Nat) (st st' : List (Text × R))
    (res res' : List (Int × R))
    (hJ : ∀ s' e, s ≤ s' → s' < e →
      ((spansFrom 0 T).filter (Contributes s' e)).map (fun x => x.2.2)
        = ((spansFrom s st).filter (Contributes s' e)).map (fun x => x.2.2))
    (hres : ∀ x ∈ res, x.1 < (k : Int))
    (h : alignNodes k ns st res = some (st', res')) :
    (∀ j, j < (k : Int) → res'.lookup j = res.lookup j)
    ∧ (∀ j : Nat, k + ns.length ≤ j → res'.lookup (j : Int) = none)
    ∧ ∀ i n, ns[i]? = some n →
      res'.lookup ((k + i : Nat) : Int) = match n with
        | .tok t _ => some (spanLogProb T (s + ((ns.take i).flatMap leafText).length)
            (s + ((ns.take i).flatMap leafText).length + t.length))
        | _ => none := by
  have lookup_none : ∀ (l : List (Int × R)) (j : Int), (∀ x ∈ l, x.1 < j) → l.lookup j = none := by
    intro l j hl
    rw [List.lookup_eq_none_iff]
    intro p hp
    have := hl p hp
    simp; omega
  induction ns generalizing k s st res with
  | nil =>
    simp only [alignNodes, Option.some.injEq, Prod.mk.injEq] at h
    obtain ⟨rfl, rfl⟩ := h
    refine ⟨fun _ _ => rfl, fun j hj => lookup_none _ _ fun x hx => ?_, by simp⟩
    have := hres x hx
    simp at hj; omega
  | cons n ns ih =>
    have hne' : ∀ n ∈ ns, IsTextLeaf n → leafText n ≠ [] :=
      fun n hn => hne n (List.mem_cons_of_mem _ hn)
    -- steps of a text node
    have text_step : ∀ (t : Text) (lp : R) (st1 : List (Text × R)), t ≠ [] →
        advanceFor st t = some (lp, st1) →
        lp = spanLogProb T s (s + t.length) ∧
        ∀ s' e, s + t.length ≤ s' → s' < e →
          ((spansFrom 0 T).filter (Contributes s' e)).map (fun x => x.2.2)
            = ((spansFrom (s + t.length) st1).filter (Contributes s' e)).map (fun x => x.2.2) := by
      intro t lp st1 ht ha
      obtain ⟨h1, h2⟩ := advanceFor_value st st1 t lp ht ha
      have hn : 0 < t.length := List.length_pos_iff.2 ht
      refine ⟨?_, ?_⟩
      · rw [h1, spanLogProb, hJ s (s + t.length) (Nat.le_refl _) (by omega),
          filter_contributes_touched s t.length st hn]
      · intro s' e h3 h4
        rw [h2, hJ s' e (by omega) h4]
        exact filter_contributes_rest st s t.length s' e h3 h4
    -- a node that leaves the results alone
    have finish : ∀ (st1 : List (Text × R)), (∀ t mt, n ≠ .tok t mt) →
        (∀ s' e, s + (leafText n).length ≤ s' → s' < e →
          ((spansFrom 0 T).filter (Contributes s' e)).map (fun x => x.2.2)
            = ((spansFrom (s + (leafText n).length) st1).filter (Contributes s' e)).map (fun x => x.2.2)) →
        alignNodes (k + 1) ns st1 res = some (st', res') →
        (∀ j, j < (k : Int) → res'.lookup j = res.lookup j)
        ∧ (∀ j : Nat, k + (n :: ns).length ≤ j → res'.lookup (j : Int) = none)
        ∧ ∀ i n', (n :: ns)[i]? = some n' →
          res'.lookup ((k + i : Nat) : Int) = match n' with
            | .tok t _ => some (spanLogProb T (s + (((n :: ns).take i).flatMap leafText).length)
                (s + (((n :: ns).take i).flatMap leafText).length + t.length))
            | _ => none := by
      intro st1 hnt hJ1 ha
      obtain ⟨h1, h2, h3⟩ := ih hne' (k + 1) _ st1 res hJ1
        (fun x hx => by have := hres x hx; omega) ha
      refine ⟨fun j hj => h1 j (by omega), fun j hj => h2 j (by simp at hj; omega), ?_⟩
      intro i n' hi
      cases i with
      | zero =>
        simp only [List.getElem?_cons_zero, Option.some.injEq] at hi
        subst hi
        rw [show k + 0 = k from rfl, h1 k (by omega), lookup_none _ _ hres]
        cases n <;> first | rfl | exact absurd rfl (hnt _ _)
      | succ i =>
        have := h3 i n' (by simpa using hi)
        rw [show k + (i + 1) = k + 1 + i by omega, this]
        cases n' with
        | tok t mt => simp only [List.take_succ_cons, List.flatMap_cons, List.length_append, Nat.add_assoc]
        | _ => rfl
    cases n with
    | tok t mt =>
      simp only [alignNodes] at h
      split at h
      · simp at h
      · rename_i lp st1 ha
        obtain ⟨hlp, hJ1⟩ := text_step t lp st1 (hne (.tok t mt) (by simp) trivial) ha
        obtain ⟨h1, h2, h3⟩ := ih hne' (k + 1) (s + t.length) st1 _ hJ1
          (fun x hx => by
            simp only [List.mem_append, List.mem_singleton] at hx
            rcases hx with hx | rfl
            · have := hres x hx; omega
            · simp; omega) h
        refine ⟨fun j hj => ?_, fun j hj => h2 j (by simp at hj; omega), ?_⟩
        · rw [h1 j (by omega)]
          simp only [List.lookup_append]
          have hne : (j == (k : Int)) = false := by simp; omega
          simp [List.lookup, hne]
        · intro i n' hi
          cases i with
          | zero =>
            simp only [List.getElem?_cons_zero, Option.some.injEq] at hi
            subst hi
            rw [show k + 0 = k from rfl, h1 k (by omega)]
            simp only [List.lookup_append, lookup_none _ _ hres]
            simp [List.lookup, hlp]
          | succ i =>
            have := h3 i n' (by simpa using hi)
            rw [show k + (i + 1) = k + 1 + i by omega, this]
            cases n' with
            | tok t' mt => simp only [List.take_succ_cons, List.flatMap_cons, List.length_append, Nat.add_assoc, leafText]
            | _ => rfl
    | deco t =>
      simp only [alignNodes] at h
      split at h
      · simp at h
      · rename_i lp st1 ha
        obtain ⟨hlp, hJ1⟩ := text_step t lp st1 (hne (.deco t) (by simp) trivial) ha
        exact finish st1 (by simp) hJ1 h
    | rstart => exact finish st (by simp) (by simpa [leafText] using hJ) (by simpa [alignNodes] using h)
    | rend => exact finish st (by simp) (by simpa [leafText] using hJ) (by simpa [alignNodes] using h)
    | exit => exact finish st (by simp) (by simpa [leafText] using hJ) (by simpa [alignNodes] using h)
    | group cs mt => exact finish st (by simp) (by simpa [leafText] using hJ) (by simpa [alignNodes] using h)

/-! ## Recorded keys and flattening -/

theorem alignNodes_keys [Add R] [Zero R] (ns : List (Node M)) (k : Nat)
    (st st' : List (Text × R)) (res res' : List (Int × R))
    (h : alignNodes k ns st res = some (st', res')) :
    (∀ j, (res.lookup j).isSome = true → (res'.lookup j).isSome = true)
    ∧ ∀ i t mt, ns[i]? = some (.tok t mt) → (res'.lookup ((k + i : Nat) : Int)).isSome = true := by
  induction ns generalizing k st res with
  | nil =>
    simp only [alignNodes, Option.some.injEq, Prod.mk.injEq] at h
    obtain ⟨-, rfl⟩ := h
    simp
  | cons n ns ih =>
    have other : ∀ st1, (∀ t mt, n ≠ .tok t mt) →
        alignNodes (k + 1) ns st1 res = some (st', res') →
        (∀ j, (res.lookup j).isSome = true → (res'.lookup j).isSome = true)
        ∧ ∀ i t mt, (n :: ns)[i]? = some (.tok t mt) →
          (res'.lookup ((k + i : Nat) : Int)).isSome = true := by
      intro st1 hnt ha
      obtain ⟨h1, h2⟩ := ih (k + 1) st1 res ha
      refine ⟨h1, fun i t mt hi => ?_⟩
      cases i with
      | zero => simp at hi; exact absurd hi (hnt t mt)
      | succ i =>
        have := h2 i t mt (by simpa using hi)
        rwa [show k + 1 + i = k + (i + 1) by omega] at this
    cases n with
    | tok t mt =>
      simp only [alignNodes] at h
      split at h
      · simp at h
      · rename_i lp st1 ha
        obtain ⟨h1, h2⟩ := ih (k + 1) st1 _ h
        refine ⟨fun j hj => h1 j ?_, fun i t' mt' hi => ?_⟩
        · simp only [List.lookup_append]
          cases hl : res.lookup j with
          | none => simp [hl] at hj
          | some x => simp
        · cases i with
          | zero =>
            apply h1
            simp only [List.lookup_append, Nat.add_zero]
            cases res.lookup (k : Int) <;> simp [List.lookup]
          | succ i =>
            have := h2 i t' mt' (by simpa using hi)
            rwa [show k + 1 + i = k + (i + 1) by omega] at this
    | deco t =>
      simp only [alignNodes] at h
      split at h
      · simp at h
      · exact other _ (by simp) h
    | rstart => exact other st (by simp) (by simpa [alignNodes] using h)
    | rend => exact other st (by simp) (by simpa [alignNodes] using h)
    | exit => exact other st (by simp) (by simpa [alignNodes] using h)
    | group cs mt => exact other st (by simp) (by simpa [alignNodes] using h)

theorem flattenLogProbs_text [Zero R] (S : Storage M) (res : List (Int × R)) (ids : List NodeId)
    (ns : List (Node M)) (k : Nat) (hlen : ids.length = ns.length)
    (h : ∀ i id n, ids[i]? = some id → ns[i]? = some n →
      id.preorder = ((k + i : Nat) : Int) ∧ Represents S id n)
    (hk : ∀ i t mt, ns[i]? = some (.tok t mt) → (res.lookup ((k + i : Nat) : Int)).isSome = true) :
    ∃ out, flattenLogProbs S res ids = some out ∧ tokensText out = ns.flatMap leafText := by
  induction ids generalizing ns k with
  | nil =>
    cases ns with
    | nil => exact ⟨[], rfl, rfl⟩
    | cons n ns => simp at hlen
  | cons id ids ih =>
    cases ns with
    | nil => simp at hlen
    | cons n ns =>
      obtain ⟨h1, h2⟩ := h 0 id n rfl rfl
      obtain ⟨out, ho1, ho2⟩ := ih ns (k + 1) (by simpa using hlen)
        (fun i id n hi hn => by
          have := h (i + 1) id n (by simpa using hi) (by simpa using hn)
          rwa [show k + (i + 1) = k + 1 + i by omega] at this)
        (fun i t mt hi => by
          have := hk (i + 1) t mt (by simpa using hi)
          rwa [show k + (i + 1) = k + 1 + i by omega] at this)
      cases n with
      | deco t =>
        obtain ⟨hc, hg⟩ := h2
        simp only [flattenLogProbs, hc, hg, ho1]
        exact ⟨_, rfl, by simp [tokensText, leafText] at ho2 ⊢; exact ho2⟩
      | tok t mt =>
        obtain ⟨hc, hg⟩ := h2
        have hl := hk 0 t mt rfl
        rw [Option.isSome_iff_exists] at hl
        obtain ⟨lp, hl⟩ := hl
        rw [← h1] at hl
        simp only [flattenLogProbs, hc, hg, ho1, hl]
        exact ⟨_, rfl, by simp [tokensText, leafText] at ho2 ⊢; exact ho2⟩
      | rstart =>
        simp only [flattenLogProbs, show id.cat = _ from h2]
        exact ⟨out, ho1, by simpa [leafText] using ho2⟩
      | rend =>
        simp only [flattenLogProbs, show id.cat = _ from h2]
        exact ⟨out, ho1, by simpa [leafText] using ho2⟩
      | exit =>
        simp only [flattenLogProbs, show id.cat = _ from h2]
        exact ⟨out, ho1, by simpa [leafText] using ho2⟩
      | group cs mt =>
        simp only [flattenLogProbs, show id.cat = _ from h2.1]
        exact ⟨out, ho1, by simpa [leafText] using ho2⟩

end RUSure.Lemmas
