import Verif.Lemmas.Relax
import Verif.Spec.Rounded

/-! # Relaxing edges in topological order, with any monotone way of extending a path -/

namespace RUSure.Lemmas.Rnd
open RUSure RUSure.Spec RUSure.Lemmas

variable {ε : Type}

/-- Relaxation step, where `x e c` is the cost of a path of cost `c` extended by `e`. -/
def relax (src dst : ε → Nat) (x : ε → Cost → Cost) (t : Nat → Cost) (e : ε) : Nat → Cost :=
  setEntry t (dst e) (min (t (dst e)) (x e (t (src e))))

def relaxFold (src dst : ε → Nat) (x : ε → Cost → Cost) (E : List ε) (t : Nat → Cost) :
    Nat → Cost :=
  E.foldl (relax src dst x) t

/-- The cost of a path starting from cost `c`. -/
def along (x : ε → Cost → Cost) (c : Cost) (p : List ε) : Cost := p.foldl (fun c e => x e c) c

section
variable {src dst : ε → Nat} {x x' : ε → Cost → Cost} {E : List ε}

theorem along_mono (hx : ∀ e c c', c ≤ c' → x e c ≤ x e c') {c c' : Cost} (h : c ≤ c')
    (p : List ε) : along x c p ≤ along x c' p := by
  induction p generalizing c c' with
  | nil => exact h
  | cons e p ih => exact ih (hx e _ _ h)

theorem along_top (ht : ∀ e, x e ⊤ = ⊤) (p : List ε) : along x ⊤ p = ⊤ := by
  induction p with
  | nil => rfl
  | cons e p ih => simpa [along, ht] using ih

theorem relax_le (t : Nat → Cost) (e : ε) (s : Nat) : relax src dst x t e s ≤ t s := by
  unfold relax setEntry
  split
  · rename_i h; subst h; exact min_le_left _ _
  · exact le_refl _

theorem relaxFold_append (A B : List ε) (t : Nat → Cost) :
    relaxFold src dst x (A ++ B) t = relaxFold src dst x B (relaxFold src dst x A t) := by
  simp [relaxFold, List.foldl_append]

theorem relaxFold_cons (e : ε) (B : List ε) (t : Nat → Cost) :
    relaxFold src dst x (e :: B) t = relaxFold src dst x B (relax src dst x t e) := rfl

theorem relaxFold_congr (Q : Nat → Prop) (E : List ε)
    (hE : ∀ e ∈ E, Q (dst e) → Q (src e) ∧ x e = x' e) (t t' : Nat → Cost)
    (ht : ∀ s, Q s → t s = t' s) (s : Nat) (hs : Q s) :
    relaxFold src dst x E t s = relaxFold src dst x' E t' s := by
  induction E generalizing t t' with
  | nil => exact ht s hs
  | cons e E ih =>
    rw [relaxFold_cons, relaxFold_cons]
    refine ih (fun y hy => hE y (by simp [hy])) _ _ ?_
    intro s hs
    unfold relax setEntry
    split
    · rename_i h
      subst h
      obtain ⟨h1, h2⟩ := hE e (by simp) hs
      rw [ht _ hs, ht _ h1, h2]
    · exact ht s hs

theorem relaxFold_frame (Q : Nat → Prop) (E : List ε) (hE : ∀ e ∈ E, ¬ Q (dst e)) (t : Nat → Cost)
    (s : Nat) (hs : Q s) : relaxFold src dst x E t s = t s := by
  induction E generalizing t with
  | nil => rfl
  | cons e E ih =>
    rw [relaxFold_cons, ih (fun y hy => hE y (by simp [hy]))]
    unfold relax setEntry
    rw [if_neg]
    rintro rfl
    exact hE e (by simp) hs

theorem relaxFold_min (hx : ∀ e c c', c ≤ c' → x e c ≤ x e c') (E : List ε) (ht : Topo src dst E)
    (t : Nat → Cost) (s : Nat) :
    IsMinimum (fun y : Nat × List ε => Walk src dst E y.1 s y.2)
      (fun y => along x (t y.1) y.2) (relaxFold src dst x E t s) := by
  induction E generalizing t with
  | nil =>
    refine ⟨?_, .inr ⟨(s, []), .nil s, by simp [along, relaxFold]⟩⟩
    rintro ⟨a, p⟩ hp
    cases hp with
    | nil => simp [along, relaxFold]
    | cons he => simp at he
  | cons e E ih =>
    have ih' := ih (Topo.tail ht) (relax src dst x t e)
    rw [relaxFold_cons]
    constructor
    · rintro ⟨a, p⟩ hp
      rcases walk_cons_split hp with h | ⟨p1, p2, rfl, h1, h2⟩
      · exact (ih'.le (a, p) h).trans (along_mono hx (relax_le t e a) p)
      · have ha := walk_to_first ht.1 h1
        subst ha
        have hp1 := closed_walk_nil ht h1
        subst hp1
        refine (ih'.le (dst e, p2) h2).trans ?_
        simp only [List.nil_append]
        change _ ≤ along x (x e (t (src e))) p2
        refine along_mono hx ?_ p2
        simp only [relax, setEntry, ↓reduceIte]
        exact min_le_right _ _
    · rcases ih'.attained with h | ⟨⟨a, p⟩, hp, h⟩
      · exact .inl h
      · right
        have hp' := Walk.mono' (E' := e :: E) hp (List.subset_cons_self _ _)
        by_cases ha : a = dst e
        · subst ha
          by_cases hle : t (dst e) ≤ x e (t (src e))
          · refine ⟨(dst e, p), hp', ?_⟩
            rw [← h]
            simp [relax, setEntry, min_eq_left hle]
          · refine ⟨(src e, e :: p), .cons (by simp) hp', ?_⟩
            rw [← h]
            simp only [relax, setEntry, ↓reduceIte]
            rw [min_eq_right (le_of_not_ge hle)]
            rfl
        · refine ⟨(a, p), hp', ?_⟩
          rw [← h]
          simp [relax, setEntry, ha]

theorem relaxFold_unit_min (hx : ∀ e c c', c ≤ c' → x e c ≤ x e c') (hT : ∀ e, x e ⊤ = ⊤)
    (E : List ε) (ht : Topo src dst E) (a s : Nat) :
    IsMinimum (fun p => Walk src dst E a s p) (along x 0)
      (relaxFold src dst x E (unitTable a) s) := by
  have h := relaxFold_min hx E ht (unitTable a) s
  constructor
  · intro p hp
    have := h.le (a, p) hp
    simpa [unitTable, setEntry] using this
  · rcases h.attained with h | ⟨⟨b, p⟩, hp, h⟩
    · exact .inl h
    · by_cases hb : b = a
      · subst hb
        right
        refine ⟨p, hp, ?_⟩
        rw [← h]
        simp [unitTable, setEntry]
      · left
        rw [← h]
        simp [unitTable, setEntry, hb, along_top hT]

theorem relaxFold_unit_min_rev (hx : ∀ e c c', c ≤ c' → x e c ≤ x e c') (hT : ∀ e, x e ⊤ = ⊤)
    (E : List ε) (ht : Topo src dst E) (a s : Nat) :
    IsMinimum (fun p => Walk src dst E s a p) (fun p => along x 0 p.reverse)
      (relaxFold dst src x E.reverse (unitTable a) s) := by
  have h := relaxFold_unit_min hx hT E.reverse (topo_reverse.2 ht) a s
  constructor
  · intro p hp
    exact h.le p.reverse hp.reverse
  · rcases h.attained with h | ⟨p, hp, h⟩
    · exact .inl h
    · right
      refine ⟨p.reverse, ?_, ?_⟩
      · rw [← Walk.reverse_iff]; simpa using hp
      · simpa using h

end

end RUSure.Lemmas.Rnd
