import Verif.Lemmas.Paths
import Verif.Model.Constraint

/-!
# The language of a graph given by an edge list

What can be read on the way from a state to the final state, and how it is found from the edges
leaving the state.
-/

namespace RUSure.Lemmas
open RUSure RUSure.Spec

section
variable {σ ε α : Type}

/-- The labels that can be read on the paths from `s` to `fin`. -/
def Reads (src dst : ε → σ) (lab : ε → List α) (E : List ε) (fin s : σ) (ds : List α) : Prop :=
  ∃ w, Walk src dst E s fin w ∧ w.flatMap lab = ds

variable {src dst : ε → σ} {lab : ε → List α} {E : List ε} {fin s : σ}

theorem reads_step (hs : s ≠ fin) (ds : List α) :
    Reads src dst lab E fin s ds ↔
      ∃ e ∈ E, src e = s ∧ ∃ ds', ds = lab e ++ ds' ∧ Reads src dst lab E fin (dst e) ds' := by
  constructor
  · rintro ⟨w, hw, rfl⟩
    cases w with
    | nil => exact absurd (Walk.nil_iff.mp hw) hs
    | cons e w =>
      obtain ⟨he, h1, h2⟩ := Walk.cons_iff.mp hw
      exact ⟨e, by tauto, by tauto, _, by simp, w, by tauto, rfl⟩
  · rintro ⟨e, he, rfl, ds', rfl, w, hw, rfl⟩
    exact ⟨e :: w, .cons he hw, by simp⟩

/-- If `L` lists the edges leaving `s`, those determine what is read from `s`. -/
theorem reads_out (hs : s ≠ fin) {L : List ε} (hL : ∀ e, (e ∈ E ∧ src e = s) ↔ e ∈ L)
    (ds : List α) :
    Reads src dst lab E fin s ds ↔
      ∃ e ∈ L, ∃ ds', ds = lab e ++ ds' ∧ Reads src dst lab E fin (dst e) ds' := by
  rw [reads_step hs]
  constructor
  · rintro ⟨e, he, h1, h2⟩
    exact ⟨e, (hL e).mp ⟨he, h1⟩, h2⟩
  · rintro ⟨e, he, h2⟩
    exact ⟨e, ((hL e).mpr he).1, ((hL e).mpr he).2, h2⟩

theorem reads_final (hf : ∀ e ∈ E, src e ≠ fin) (ds : List α) :
    Reads src dst lab E fin fin ds ↔ ds = [] := by
  constructor
  · rintro ⟨w, hw, rfl⟩
    cases w with
    | nil => rfl
    | cons e w =>
      obtain ⟨he, h1, h2⟩ := Walk.cons_iff.mp hw
      exact absurd (by tauto) (hf e (by tauto))
  · rintro rfl
    exact ⟨[], .nil _, rfl⟩

end

section
variable {S K V I : Type} [DecidableEq S]

/-- Adding edges in topological order never fails and gives exactly these edges. -/
theorem addAll_ok : ∀ (es : List (Edge S K V I)) (d : PartialDag S K V I),
    (∀ s, (d.seen.lookup s).isSome ↔ ∃ e ∈ d.edges, e.source = s) →
    (∀ e ∈ d.edges, ∀ e' ∈ es, e'.dest ≠ e.source) →
    TopoWeak Edge.source Edge.dest es →
    ∃ d', PartialDag.addAll es d = .ok d' ∧ d'.initial = d.initial ∧ d'.edges = d.edges ++ es
  | [], d, _, _, _ => ⟨d, rfl, rfl, by simp⟩
  | e :: es, d, h1, h2, h3 => by
    have hs : (d.seen.lookup e.dest).isSome = false := by
      rw [Bool.eq_false_iff]
      intro h
      obtain ⟨x, hx, hx'⟩ := (h1 _).mp h
      exact h2 x hx e (by simp) hx'.symm
    obtain ⟨h4, h5⟩ := List.pairwise_cons.mp h3
    obtain ⟨d', g1, g2, g3⟩ := addAll_ok es
      { d with seen := (e.source, e.dest) :: d.seen, edges := d.edges ++ [e] } (by
        intro s
        by_cases hse : s = e.source
        · subst hse; simp
        · have : (s == e.source) = false := by simpa using hse
          simp only [List.lookup_cons, this, h1]
          constructor
          · rintro ⟨x, hx, rfl⟩; exact ⟨x, by simp [hx], rfl⟩
          · rintro ⟨x, hx, rfl⟩
            rcases List.mem_append.mp hx with hx | hx
            · exact ⟨x, hx, rfl⟩
            · simp only [List.mem_singleton] at hx
              exact absurd (by rw [hx]) hse) (by
        intro x hx e' he'
        rcases List.mem_append.mp hx with hx | hx
        · exact h2 x hx e' (by simp [he'])
        · simp only [List.mem_singleton] at hx
          subst hx
          exact h4 e' he') h5
    refine ⟨d', ?_, g2, by simp [g3]⟩
    simp only [PartialDag.addAll, PartialDag.addEdge, hs]
    exact g1

theorem addAll_start (es : List (Edge S K V I)) (s : S) (h : TopoWeak Edge.source Edge.dest es) :
    ∃ d', PartialDag.addAll es (PartialDag.start s) = .ok d' ∧ d'.initial = s ∧ d'.edges = es := by
  obtain ⟨d', h1, h2, h3⟩ := addAll_ok es (PartialDag.start s) (by simp [PartialDag.start])
    (by simp [PartialDag.start]) h
  exact ⟨d', h1, h2, by simpa [PartialDag.start] using h3⟩

end

end RUSure.Lemmas
