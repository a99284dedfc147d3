import Verif.Lemmas.GatedDag
import Verif.Model.PackedDag

/-! # Shortest paths by relaxing edges in topological order -/

namespace RUSure.Lemmas
open RUSure RUSure.Spec

variable {ε : Type}

theorem weight_nil (w : ε → Cost) : weight w [] = 0 := rfl
theorem weight_cons (w : ε → Cost) (e : ε) (p : List ε) : weight w (e :: p) = w e + weight w p := by
  simp [weight]
theorem weight_append (w : ε → Cost) (p q : List ε) :
    weight w (p ++ q) = weight w p + weight w q := by
  simp [weight]
theorem weight_reverse (w : ε → Cost) (p : List ε) : weight w p.reverse = weight w p := by
  simp [weight, List.sum_reverse]

theorem IsMinimum.unique {α : Type} {P : α → Prop} {cost : α → Cost} {c c' : Cost}
    (h : IsMinimum P cost c) (h' : IsMinimum P cost c') : c = c' := by
  apply le_antisymm
  · rcases h'.attained with rfl | ⟨a, ha, rfl⟩
    · exact le_top
    · exact h.le a ha
  · rcases h.attained with rfl | ⟨a, ha, rfl⟩
    · exact le_top
    · exact h'.le a ha

/-- Relaxation step in either direction. -/
def relax (src dst : ε → Nat) (w : ε → Cost) (t : Nat → Cost) (e : ε) : Nat → Cost :=
  setEntry t (dst e) (min (t (dst e)) (t (src e) + w e))

def relaxFold (src dst : ε → Nat) (w : ε → Cost) (E : List ε) (t : Nat → Cost) : Nat → Cost :=
  E.foldl (relax src dst w) t

section
variable {src dst : ε → Nat} {w w' : ε → Cost} {E : List ε}

theorem relax_le (t : Nat → Cost) (e : ε) (s : Nat) : relax src dst w t e s ≤ t s := by
  unfold relax setEntry
  split
  · rename_i h; subst h; exact min_le_left _ _
  · exact le_refl _

theorem relaxFold_append (A B : List ε) (t : Nat → Cost) :
    relaxFold src dst w (A ++ B) t = relaxFold src dst w B (relaxFold src dst w A t) := by
  simp [relaxFold, List.foldl_append]

theorem relaxFold_cons (e : ε) (B : List ε) (t : Nat → Cost) :
    relaxFold src dst w (e :: B) t = relaxFold src dst w B (relax src dst w t e) := rfl

/-- Two relaxations agree on a set `Q` of states closed under predecessors. -/
theorem relaxFold_congr (Q : Nat → Prop) (E : List ε)
    (hE : ∀ e ∈ E, Q (dst e) → Q (src e) ∧ w e = w' e) (t t' : Nat → Cost)
    (ht : ∀ s, Q s → t s = t' s) (s : Nat) (hs : Q s) :
    relaxFold src dst w E t s = relaxFold src dst w' E t' s := by
  induction E generalizing t t' with
  | nil => exact ht s hs
  | cons e E ih =>
    rw [relaxFold_cons, relaxFold_cons]
    refine ih (fun x hx => hE x (by simp [hx])) _ _ ?_
    intro s hs
    unfold relax setEntry
    split
    · rename_i h
      subst h
      obtain ⟨h1, h2⟩ := hE e (by simp) hs
      rw [ht _ hs, ht _ h1, h2]
    · exact ht s hs

/-- Relaxing edges which do not lead into `Q` changes nothing on `Q`. -/
theorem relaxFold_frame (Q : Nat → Prop) (E : List ε) (hE : ∀ e ∈ E, ¬ Q (dst e)) (t : Nat → Cost)
    (s : Nat) (hs : Q s) : relaxFold src dst w E t s = t s := by
  induction E generalizing t with
  | nil => rfl
  | cons e E ih =>
    rw [relaxFold_cons, ih (fun x hx => hE x (by simp [hx]))]
    unfold relax setEntry
    rw [if_neg]
    rintro rfl
    exact hE e (by simp) hs

theorem closed_walk_nil (ht : Topo src dst E) {a : Nat} {p : List ε} (h : Walk src dst E a a p) :
    p = [] := by
  cases p with
  | nil => rfl
  | cons e p =>
    obtain ⟨h1, h2⟩ := closed_walk ht.1 h e (by simp)
    exact absurd (h2.trans h1.symm) (ht.2 e (Walk.mem h e (by simp)))

theorem Topo.tail {e : ε} (ht : Topo src dst (e :: E)) : Topo src dst E :=
  ⟨(List.pairwise_cons.1 ht.1).2, fun x hx => ht.2 x (by simp [hx])⟩

/-- Relaxing all edges in topological order computes the minimum over all walks. -/
theorem relaxFold_min (E : List ε) (ht : Topo src dst E) (t : Nat → Cost) (s : Nat) :
    IsMinimum (fun x : Nat × List ε => Walk src dst E x.1 s x.2)
      (fun x => t x.1 + weight w x.2) (relaxFold src dst w E t s) := by
  induction E generalizing t with
  | nil =>
    refine ⟨?_, .inr ⟨(s, []), .nil s, by simp [weight, relaxFold]⟩⟩
    rintro ⟨a, p⟩ hp
    cases hp with
    | nil => simp [weight, relaxFold]
    | cons he => simp at he
  | cons e E ih =>
    have ih' := ih (Topo.tail ht) (relax src dst w t e)
    rw [relaxFold_cons]
    constructor
    · rintro ⟨a, p⟩ hp
      rcases walk_cons_split hp with h | ⟨p1, p2, rfl, h1, h2⟩
      · refine (ih'.le (a, p) h).trans ?_
        exact add_le_add (relax_le t e a) (le_refl _)
      · have ha := walk_to_first ht.1 h1
        subst ha
        have hp1 := closed_walk_nil ht h1
        subst hp1
        refine (ih'.le (dst e, p2) h2).trans ?_
        simp only [List.nil_append, weight_cons, ← add_assoc]
        refine add_le_add ?_ (le_refl _)
        simp only [relax, setEntry, ↓reduceIte]
        exact min_le_right _ _
    · rcases ih'.attained with h | ⟨⟨a, p⟩, hp, h⟩
      · exact .inl h
      · right
        have hp' := Walk.mono' (E' := e :: E) hp (List.subset_cons_self _ _)
        by_cases ha : a = dst e
        · subst ha
          by_cases hle : t (dst e) ≤ t (src e) + w e
          · refine ⟨(dst e, p), hp', ?_⟩
            rw [← h]
            simp [relax, setEntry, min_eq_left hle]
          · refine ⟨(src e, e :: p), .cons (by simp) hp', ?_⟩
            rw [← h]
            simp only [relax, setEntry, ↓reduceIte, weight_cons]
            rw [min_eq_right (le_of_not_ge hle), add_assoc]
        · refine ⟨(a, p), hp', ?_⟩
          rw [← h]
          simp [relax, setEntry, ha]

/-- The table holding zero at one state. -/
def unitTable (a : Nat) : Nat → Cost := setEntry (fun _ => ⊤) a 0

theorem relaxFold_unit_min (E : List ε) (ht : Topo src dst E) (a s : Nat) :
    IsMinimum (fun p => Walk src dst E a s p) (weight w)
      (relaxFold src dst w E (unitTable a) s) := by
  have h := relaxFold_min (w := w) E ht (unitTable a) s
  constructor
  · intro p hp
    have := h.le (a, p) hp
    simpa [unitTable, setEntry] using this
  · rcases h.attained with h | ⟨⟨b, p⟩, hp, h⟩
    · exact .inl h
    · by_cases hb : b = a
      · subst hb
        right
        refine ⟨p, hp, ?_⟩
        rw [← h]
        simp [unitTable, setEntry]
      · left
        rw [← h]
        simp [unitTable, setEntry, hb]

/-- The same for the reversed graph. -/
theorem relaxFold_unit_min_rev (E : List ε) (ht : Topo src dst E) (a s : Nat) :
    IsMinimum (fun p => Walk src dst E s a p) (weight w)
      (relaxFold dst src w E.reverse (unitTable a) s) := by
  have h := relaxFold_unit_min (w := w) E.reverse (topo_reverse.2 ht) a s
  constructor
  · intro p hp
    have := h.le p.reverse hp.reverse
    rwa [weight_reverse] at this
  · rcases h.attained with h | ⟨p, hp, h⟩
    · exact .inl h
    · right
      refine ⟨p.reverse, ?_, ?_⟩
      · rw [← Walk.reverse_iff]; simpa using hp
      · rw [weight_reverse, h]

end

end RUSure.Lemmas
