import Verif.Spec.Paths

/-! # Generic lemmas about walks and reachability folds -/

namespace RUSure.Lemmas
open RUSure RUSure.Spec

section
variable {σ ε : Type} {src dst : ε → σ} {E E' : List ε}

theorem _root_.RUSure.Spec.Walk.mono {a b : σ} {p : List ε} (h : Walk src dst E a b p) (hs : ∀ e ∈ p, e ∈ E') :
    Walk src dst E' a b p := by
  induction h with
  | nil a => exact .nil a
  | cons he hw ih => exact .cons (hs _ (by simp)) (ih fun e he => hs e (by simp [he]))

theorem _root_.RUSure.Spec.Walk.mem {a b : σ} {p : List ε} (h : Walk src dst E a b p) : ∀ e ∈ p, e ∈ E := by
  induction h with
  | nil a => simp
  | cons he hw ih =>
    intro e' he'
    rcases List.mem_cons.1 he' with rfl | h
    · exact he
    · exact ih e' h

theorem _root_.RUSure.Spec.Walk.mono' {a b : σ} {p : List ε} (h : Walk src dst E a b p) (hs : E ⊆ E') :
    Walk src dst E' a b p := h.mono fun e he => hs (Walk.mem h e he)

theorem _root_.RUSure.Spec.Walk.append {a b c : σ} {p q : List ε} (h : Walk src dst E a b p)
    (h' : Walk src dst E b c q) : Walk src dst E a c (p ++ q) := by
  induction h with
  | nil a => simpa using h'
  | cons he hw ih => exact .cons he (ih h')

theorem _root_.RUSure.Spec.Walk.single {e : ε} (he : e ∈ E) : Walk src dst E (src e) (dst e) [e] :=
  .cons he (.nil _)

theorem _root_.RUSure.Spec.Walk.nil_iff {a b : σ} : Walk src dst E a b [] ↔ a = b := by
  constructor
  · intro h; cases h; rfl
  · rintro rfl; exact .nil _

theorem _root_.RUSure.Spec.Walk.cons_iff {a b : σ} {e : ε} {p : List ε} :
    Walk src dst E a b (e :: p) ↔ e ∈ E ∧ a = src e ∧ Walk src dst E (dst e) b p := by
  constructor
  · intro h; cases h with | cons he hw => exact ⟨he, rfl, hw⟩
  · rintro ⟨he, rfl, hw⟩; exact .cons he hw

theorem _root_.RUSure.Spec.Walk.append_iff {a c : σ} {p q : List ε} :
    Walk src dst E a c (p ++ q) ↔ ∃ b, Walk src dst E a b p ∧ Walk src dst E b c q := by
  constructor
  · intro h
    induction p generalizing a with
    | nil => exact ⟨a, .nil a, h⟩
    | cons e p ih =>
      rw [List.cons_append, Walk.cons_iff] at h
      obtain ⟨he, rfl, hw⟩ := h
      obtain ⟨b, h1, h2⟩ := ih hw
      exact ⟨b, .cons he h1, h2⟩
  · rintro ⟨b, h1, h2⟩
    exact Walk.append h1 h2

theorem _root_.RUSure.Spec.Walk.snoc_iff {a c : σ} {p : List ε} {e : ε} :
    Walk src dst E a c (p ++ [e]) ↔ e ∈ E ∧ c = dst e ∧ Walk src dst E a (src e) p := by
  rw [Walk.append_iff]
  constructor
  · rintro ⟨b, h1, h2⟩
    rw [Walk.cons_iff, Walk.nil_iff] at h2
    obtain ⟨he, rfl, rfl⟩ := h2
    exact ⟨he, rfl, h1⟩
  · rintro ⟨he, rfl, h1⟩
    exact ⟨_, h1, Walk.single he⟩

/-- Reversing a walk. -/
theorem _root_.RUSure.Spec.Walk.reverse {a b : σ} {p : List ε} (h : Walk src dst E a b p) :
    Walk dst src E.reverse b a p.reverse := by
  induction h with
  | nil a => exact .nil a
  | cons he hw ih =>
    rw [List.reverse_cons, Walk.snoc_iff]
    exact ⟨by simpa using he, rfl, ih⟩

theorem _root_.RUSure.Spec.Walk.reverse_iff {a b : σ} {p : List ε} :
    Walk dst src E.reverse b a p.reverse ↔ Walk src dst E a b p := by
  constructor
  · intro h
    have := h.reverse
    simpa using this
  · exact Walk.reverse

theorem topoWeak_reverse : TopoWeak dst src E.reverse ↔ TopoWeak src dst E := by
  unfold TopoWeak
  rw [List.pairwise_reverse]
  constructor <;> intro h <;> exact h.imp fun h => h.symm

theorem topo_reverse : Topo dst src E.reverse ↔ Topo src dst E := by
  unfold Topo
  rw [topoWeak_reverse]
  simp only [List.mem_reverse]
  constructor <;> rintro ⟨h1, h2⟩ <;> exact ⟨h1, fun e he => (h2 e he).symm⟩

theorem _root_.RUSure.Spec.TopoWeak.sublist (h : TopoWeak src dst E) (hs : E'.Sublist E) : TopoWeak src dst E' :=
  List.Pairwise.sublist hs h

/-- In topological order, nothing leads to the source of the first edge. -/
theorem walk_to_first {e : ε} {a : σ} {p : List ε} (ht : TopoWeak src dst (e :: E))
    (h : Walk src dst (e :: E) a (src e) p) : a = src e := by
  induction hn : p.length generalizing p a with
  | zero =>
    rw [List.length_eq_zero_iff] at hn
    subst hn
    exact Walk.nil_iff.1 h
  | succ n ih =>
    obtain ⟨q, x, rfl⟩ : ∃ q x, p = q ++ [x] := by
      rcases List.eq_nil_or_concat p with rfl | ⟨q, x, rfl⟩
      · simp at hn
      · exact ⟨q, x, by simp⟩
    rw [Walk.snoc_iff] at h
    obtain ⟨hx, hd, hw⟩ := h
    rcases List.mem_cons.1 hx with rfl | hx
    · exact ih hw (by simpa using hn)
    · exact absurd hd.symm ((List.pairwise_cons.1 ht).1 x hx)

/-- A walk either avoids the first edge or its last use of it splits off a rest avoiding it. -/
theorem walk_cons_split {e : ε} {a b : σ} {p : List ε} (h : Walk src dst (e :: E) a b p) :
    Walk src dst E a b p ∨ ∃ p1 p2, p = p1 ++ e :: p2 ∧ Walk src dst (e :: E) a (src e) p1
      ∧ Walk src dst E (dst e) b p2 := by
  induction h with
  | nil a => exact .inl (.nil a)
  | @cons x b p hx hw ih =>
    rcases ih with ih | ⟨p1, p2, rfl, h1, h2⟩
    · rcases List.mem_cons.1 hx with rfl | hx'
      · exact .inr ⟨[], p, rfl, .nil _, ih⟩
      · exact .inl (.cons hx' ih)
    · exact .inr ⟨x :: p1, p2, rfl, .cons hx h1, h2⟩

variable [DecidableEq σ]

/-- Generic reachability fold. -/
def reachFold (src dst : ε → σ) (E : List ε) (R : List σ) : List σ :=
  E.foldl (fun reach e => if src e ∈ reach then dst e :: reach else reach) R

theorem reachFold_sound (E : List ε) (R : List σ) (s : σ) (h : s ∈ reachFold src dst E R) :
    ∃ a ∈ R, ∃ p, Walk src dst E a s p := by
  induction E generalizing R with
  | nil => exact ⟨s, h, [], .nil s⟩
  | cons e E ih =>
    obtain ⟨a, ha, p, hp⟩ := ih _ h
    have hp' := Walk.mono' (E' := e :: E) hp (List.subset_cons_self _ _)
    dsimp only at ha
    split at ha
    · rename_i hs
      rcases List.mem_cons.1 ha with rfl | ha
      · exact ⟨src e, hs, e :: p, .cons (by simp) hp'⟩
      · exact ⟨a, ha, p, hp'⟩
    · exact ⟨a, ha, p, hp'⟩

theorem reachFold_complete (E : List ε) (ht : TopoWeak src dst E) (R : List σ) (a s : σ)
    (p : List ε) (ha : a ∈ R) (h : Walk src dst E a s p) : s ∈ reachFold src dst E R := by
  induction E generalizing R a p with
  | nil =>
    cases h with
    | nil => exact ha
    | cons he => simp at he
  | cons e E ih =>
    have ht' := (List.pairwise_cons.1 ht).2
    show s ∈ reachFold src dst E _
    rcases walk_cons_split h with h | ⟨p1, p2, rfl, h1, h2⟩
    · refine ih ht' _ a p ?_ h
      dsimp only
      split
      · exact List.mem_cons_of_mem _ ha
      · exact ha
    · have := walk_to_first ht h1
      subst this
      exact ih ht' _ _ _ (by simp [ha]) h2

theorem mem_reachFold (E : List ε) (ht : TopoWeak src dst E) (R : List σ) (s : σ) :
    s ∈ reachFold src dst E R ↔ ∃ a ∈ R, ∃ p, Walk src dst E a s p :=
  ⟨reachFold_sound E R s, fun ⟨a, ha, p, hp⟩ => reachFold_complete E ht R a s p ha hp⟩

end

end RUSure.Lemmas
