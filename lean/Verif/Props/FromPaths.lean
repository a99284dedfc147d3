import Verif.Model.FromPaths
import Verif.Spec.Paths
import Mathlib.Data.List.Perm.Basic
import Mathlib.Tactic.Linarith

/-!
# C76: DAGs made from lists of assignments have these paths and costs
-/

namespace RUSure.FromPaths
open RUSure.Spec

section
variable {K V : Type}

/-- The edges of a path. -/
def pathEdges (current next : Nat) (cost : Cost) : List (K × V) → List (Edge Nat K V Unit)
  | [] => [⟨current, 1, cost, none, ()⟩]
  | kv :: rest => ⟨current, next, 0, some kv, ()⟩ :: pathEdges next (next + 1) cost rest

/-- All edges. -/
def allEdges (sort : List (K × V) → List (K × V)) : List (List (K × V) × Cost) → Nat → List (Edge Nat K V Unit)
  | [], _ => []
  | (a, cost) :: paths, next => pathEdges 0 next cost (sort a) ++ allEdges sort paths (next + (sort a).length)

/-- The paths and the first of their states. -/
def placed (sort : List (K × V) → List (K × V)) : List (List (K × V) × Cost) → Nat →
    List (Nat × List (K × V) × Cost)
  | [], _ => []
  | (a, cost) :: paths, next => (next, a, cost) :: placed sort paths (next + (sort a).length)

/-- States with outgoing edges are old, and not the final one. -/
def Fresh (d : PartialDag Nat K V Unit) (next : Nat) : Prop := ∀ x ∈ d.seen, x.1 < next ∧ x.1 ≠ 1

theorem lookup_none {α β : Type} [DecidableEq α] (l : List (α × β)) (a : α) (h : ∀ x ∈ l, x.1 ≠ a) :
    (l.lookup a).isSome = false := by
  induction l with
  | nil => rfl
  | cons x l ih =>
    obtain ⟨k, v⟩ := x
    rw [List.lookup_cons, beq_eq_false_iff_ne.mpr (Ne.symm (h _ (List.mem_cons_self ..)))]
    exact ih fun y hy => h y (List.mem_cons_of_mem _ hy)

theorem add_fresh {d : PartialDag Nat K V Unit} {e : Edge Nat K V Unit} (h : ∀ x ∈ d.seen, x.1 ≠ e.dest) :
    d.addEdge e = .ok { d with seen := (e.source, e.dest) :: d.seen, edges := d.edges ++ [e] } := by
  unfold PartialDag.addEdge
  rw [lookup_none _ _ h]
  rfl

theorem add_path (kvs : List (K × V)) (cost : Cost) (d : PartialDag Nat K V Unit) (current next : Nat)
    (h : Fresh d next) (hc : current < next ∧ current ≠ 1) (hn : 2 ≤ next) :
    ∃ d' d'' current', addAssignments kvs d current next = .ok (d', current', next + kvs.length)
      ∧ d'.addEdge ⟨current', 1, cost, none, ()⟩ = .ok d''
      ∧ d''.initial = d.initial ∧ d''.edges = d.edges ++ pathEdges current next cost kvs
      ∧ Fresh d'' (next + kvs.length) := by
  induction kvs generalizing d current next with
  | nil =>
    refine ⟨d, _, current, rfl, add_fresh fun x hx => (h x hx).2, rfl, rfl, ?_⟩
    intro x hx
    rcases List.mem_cons.mp hx with rfl | hx
    · exact hc
    · exact h x hx
  | cons kv kvs ih =>
    obtain ⟨d', d'', c', h1, h2, h3, h4, h5⟩ := ih
      { d with seen := (current, next) :: d.seen, edges := d.edges ++ [⟨current, next, 0, some kv, ()⟩] }
      next (next + 1) (by
        intro x hx
        rcases List.mem_cons.mp hx with rfl | hx
        · exact ⟨by have := hc.1; simp only; omega, hc.2⟩
        · exact ⟨by have := (h x hx).1; omega, (h x hx).2⟩) ⟨by omega, by omega⟩ (by omega)
    refine ⟨d', d'', c', ?_, h2, h3, ?_, ?_⟩
    · rw [addAssignments, add_fresh fun x hx => ne_of_lt (h x hx).1]
      simp only [h1, List.length_cons]
      congr 3
      omega
    · rw [h4, pathEdges]
      simp
    · rw [List.length_cons, show next + (kvs.length + 1) = next + 1 + kvs.length by omega]
      exact h5

theorem add_paths (sort : List (K × V) → List (K × V)) (paths : List (List (K × V) × Cost))
    (d : PartialDag Nat K V Unit) (next : Nat) (h : Fresh d next) (hn : 2 ≤ next) :
    ∃ d', addPaths sort paths d next = .ok d' ∧ d'.initial = d.initial
      ∧ d'.edges = d.edges ++ allEdges sort paths next := by
  induction paths generalizing d next with
  | nil => exact ⟨d, rfl, rfl, by simp [allEdges]⟩
  | cons x paths ih =>
    obtain ⟨a, cost⟩ := x
    obtain ⟨d1, d2, c, h1, h2, h3, h4, h5⟩ := add_path (sort a) cost d 0 next h ⟨by omega, by omega⟩ hn
    obtain ⟨d3, h6, h7, h8⟩ := ih d2 _ h5 (by omega)
    refine ⟨d3, ?_, h7.trans h3, ?_⟩
    · rw [addPaths, h1]
      simp only [h2, h6]
    · rw [h8, h4, allEdges, List.append_assoc]

theorem built (sort : List (K × V) → List (K × V)) (paths : List (List (K × V) × Cost)) :
    dagFromPaths sort paths = .ok ⟨0, allEdges sort paths 2, 1⟩ := by
  obtain ⟨d, h1, h2, h3⟩ := add_paths sort paths (PartialDag.start 0) 2 (fun x hx => by cases hx) le_rfl
  rw [dagFromPaths, h1]
  simp only [PartialDag.finish, h2, h3]
  rfl

/-! ## Paths -/

theorem path_source (kvs : List (K × V)) (cost : Cost) (current next : Nat) :
    ∀ e ∈ pathEdges current next cost kvs,
      e.source = current ∨ next ≤ e.source ∧ e.source < next + kvs.length := by
  induction kvs generalizing current next with
  | nil =>
    intro e he
    rw [pathEdges, List.mem_singleton] at he
    exact .inl (by rw [he])
  | cons kv kvs ih =>
    intro e he
    rw [pathEdges, List.mem_cons] at he
    rcases he with rfl | he
    · exact .inl rfl
    · rw [List.length_cons]
      rcases ih next (next + 1) e he with h | h
      · exact .inr (by omega)
      · exact .inr (by omega)

theorem all_source (sort : List (K × V) → List (K × V)) (paths : List (List (K × V) × Cost)) (next : Nat) :
    ∀ e ∈ allEdges sort paths next, e.source = 0 ∨ next ≤ e.source := by
  induction paths generalizing next with
  | nil =>
    intro e he
    cases he
  | cons x paths ih =>
    obtain ⟨a, cost⟩ := x
    intro e he
    rw [allEdges, List.mem_append] at he
    rcases he with he | he
    · rcases path_source _ _ _ _ e he with h | h
      · exact .inl h
      · exact .inr h.1
    · rcases ih _ e he with h | h
      · exact .inl h
      · exact .inr (by omega)

theorem placed_ge (sort : List (K × V) → List (K × V)) (paths : List (List (K × V) × Cost)) (next : Nat) :
    ∀ x ∈ placed sort paths next, next ≤ x.1 := by
  induction paths generalizing next with
  | nil =>
    intro x hx
    cases hx
  | cons y paths ih =>
    obtain ⟨a, cost⟩ := y
    intro x hx
    rw [placed, List.mem_cons] at hx
    rcases hx with rfl | hx
    · exact le_rfl
    · have := ih _ x hx
      omega

theorem placed_of_mem (sort : List (K × V) → List (K × V)) (paths : List (List (K × V) × Cost)) (next : Nat)
    (x : List (K × V) × Cost) : x ∈ paths ↔ ∃ m, (m, x.1, x.2) ∈ placed sort paths next := by
  induction paths generalizing next with
  | nil => simp [placed]
  | cons y paths ih =>
    obtain ⟨a, cost⟩ := y
    rw [placed]
    simp only [List.mem_cons, exists_or]
    rw [← ih]
    constructor
    · rintro (h | h)
      · exact .inl ⟨next, by rw [h]⟩
      · exact .inr h
    · rintro (⟨m, h⟩ | h)
      · simp only [Prod.mk.injEq] at h
        exact .inl (Prod.ext h.2.1 h.2.2)
      · exact .inr h

theorem mem_all (sort : List (K × V) → List (K × V)) (paths : List (List (K × V) × Cost)) (next : Nat)
    (e : Edge Nat K V Unit) : e ∈ allEdges sort paths next
      ↔ ∃ x ∈ placed sort paths next, e ∈ pathEdges 0 x.1 x.2.2 (sort x.2.1) := by
  induction paths generalizing next with
  | nil => simp [allEdges, placed]
  | cons y paths ih =>
    obtain ⟨a, cost⟩ := y
    rw [allEdges, placed, List.mem_append, ih]
    simp

theorem own_edges (sort : List (K × V) → List (K × V)) (paths : List (List (K × V) × Cost)) (next : Nat)
    (hn : 0 < next) (x : Nat × List (K × V) × Cost) (hx : x ∈ placed sort paths next) (e : Edge Nat K V Unit)
    (he : e ∈ allEdges sort paths next) (h : x.1 ≤ e.source ∧ e.source < x.1 + (sort x.2.1).length) :
    e ∈ pathEdges 0 x.1 x.2.2 (sort x.2.1) := by
  induction paths generalizing next with
  | nil => cases hx
  | cons y paths ih =>
    obtain ⟨a, cost⟩ := y
    rw [placed, List.mem_cons] at hx
    rw [allEdges, List.mem_append] at he
    rcases hx with rfl | hx
    · rcases he with he | he
      · exact he
      · rcases all_source sort paths _ e he with h' | h' <;> simp only at h <;> omega
    · have hx' := placed_ge sort paths _ x hx
      rcases he with he | he
      · rcases path_source _ _ _ _ e he with h' | h' <;> omega
      · exact ih _ (by omega) hx he

theorem walk_cons {E : List (Edge Nat K V Unit)} {a b : Nat} {p : List (Edge Nat K V Unit)} (hab : a ≠ b)
    (h : Walk Edge.source Edge.dest E a b p) :
    ∃ e q, p = e :: q ∧ e ∈ E ∧ e.source = a ∧ Walk Edge.source Edge.dest E e.dest b q := by
  cases h with
  | nil => exact (hab rfl).elim
  | cons he hw => exact ⟨_, _, rfl, he, rfl, hw⟩

theorem walk_end {E : List (Edge Nat K V Unit)} (h1 : ∀ e ∈ E, e.source ≠ 1) {a : Nat}
    {p : List (Edge Nat K V Unit)} (h : Walk Edge.source Edge.dest E a 1 p) (ha : a = 1) : p = [] := by
  cases h with
  | nil => rfl
  | cons he hw => exact (h1 _ he ha).elim

theorem only_path {E : List (Edge Nat K V Unit)} (kvs : List (K × V)) (cost : Cost) (current next : Nat)
    (h1 : ∀ e ∈ E, e.source ≠ 1) (hc : current < next) (hc1 : current ≠ 1) (hn : 2 ≤ next)
    (h : ∀ e ∈ E, (e.source = current ∨ next ≤ e.source ∧ e.source < next + kvs.length) →
      e ∈ pathEdges current next cost kvs)
    {p : List (Edge Nat K V Unit)} (hp : Walk Edge.source Edge.dest E current 1 p) :
    p = pathEdges current next cost kvs := by
  induction kvs generalizing current next p with
  | nil =>
    obtain ⟨e, q, rfl, he, hs, hw⟩ := walk_cons hc1 hp
    have := h e he (.inl hs)
    rw [pathEdges, List.mem_singleton] at this
    subst this
    rw [walk_end h1 hw rfl, pathEdges]
  | cons kv kvs ih =>
    obtain ⟨e, q, rfl, he, hs, hw⟩ := walk_cons hc1 hp
    have hm := h e he (.inl hs)
    rw [pathEdges, List.mem_cons] at hm
    rcases hm with rfl | hm
    · rw [pathEdges]
      congr 1
      refine ih next (next + 1) (by omega) (by omega) (by omega) ?_ hw
      intro e' he' hs'
      have := h e' he' (.inr (by rw [List.length_cons]; omega))
      rw [pathEdges, List.mem_cons] at this
      rcases this with rfl | this
      · simp only at hs'
        omega
      · exact this
    · rcases path_source _ _ _ _ e hm with h' | h' <;> omega

theorem path_walk {E : List (Edge Nat K V Unit)} (kvs : List (K × V)) (cost : Cost) (current next : Nat)
    (h : ∀ e ∈ pathEdges current next cost kvs, e ∈ E) :
    Walk Edge.source Edge.dest E current 1 (pathEdges current next cost kvs) := by
  induction kvs generalizing current next with
  | nil => exact .cons (h _ (List.mem_singleton.mpr rfl)) (.nil 1)
  | cons kv kvs ih =>
    rw [pathEdges] at h ⊢
    exact .cons (e := ⟨current, next, 0, some kv, ()⟩) (h _ (List.mem_cons_self ..))
      (ih next (next + 1) fun e he => h e (List.mem_cons_of_mem _ he))

theorem path_req (kvs : List (K × V)) (cost : Cost) (current next : Nat) :
    (pathEdges current next cost kvs).filterMap Edge.req = kvs := by
  induction kvs generalizing current next with
  | nil => rfl
  | cons kv kvs ih => rw [pathEdges, List.filterMap_cons, ih]

theorem path_weight (kvs : List (K × V)) (cost : Cost) (current next : Nat) :
    weight Edge.cost (pathEdges current next cost kvs) = cost := by
  induction kvs generalizing current next with
  | nil => simp [pathEdges, weight]
  | cons kv kvs ih =>
    have := ih next (next + 1)
    simp only [weight] at this
    simp [pathEdges, weight, this]

theorem walks (sort : List (K × V) → List (K × V)) (paths : List (List (K × V) × Cost))
    (p : List (Edge Nat K V Unit)) :
    Walk Edge.source Edge.dest (allEdges sort paths 2) 0 1 p
      ↔ ∃ x ∈ placed sort paths 2, p = pathEdges 0 x.1 x.2.2 (sort x.2.1) := by
  have h1 : ∀ e ∈ allEdges sort paths 2, e.source ≠ 1 := by
    intro e he
    rcases all_source sort paths 2 e he with h | h <;> omega
  constructor
  · intro h
    obtain ⟨e, q, rfl, he, hs, hw⟩ := walk_cons (by decide) h
    obtain ⟨x, hx, hm⟩ := (mem_all ..).mp he
    refine ⟨x, hx, ?_⟩
    obtain ⟨m, a, cost⟩ := x
    have hm2 := placed_ge sort paths 2 _ hx
    have own := own_edges sort paths 2 (by omega) _ hx
    simp only at hm hm2 own ⊢
    generalize sort a = kvs at hm own ⊢
    cases kvs with
    | nil =>
      rw [pathEdges, List.mem_singleton] at hm
      subst hm
      rw [walk_end h1 hw rfl, pathEdges]
    | cons kv kvs =>
      rw [pathEdges, List.mem_cons] at hm
      rcases hm with rfl | hm
      · rw [pathEdges]
        congr 1
        refine only_path kvs cost m (m + 1) h1 (by omega) (by omega) (by omega) ?_ hw
        intro e' he' hs'
        have := own e' he' (by rw [List.length_cons]; omega)
        rw [pathEdges, List.mem_cons] at this
        rcases this with rfl | this
        · simp only at hs'
          omega
        · exact this
      · rcases path_source _ _ _ _ e hm with h' | h' <;> omega
  · rintro ⟨x, hx, rfl⟩
    exact path_walk _ _ _ _ fun e he => (mem_all ..).mpr ⟨x, hx, he⟩

end

end RUSure.FromPaths

namespace RUSure.Props
open RUSure.FromPaths RUSure.Spec

section
variable {K V : Type}

/-- C76: no edge is rejected, and the paths from the initial to the final state are those given: each
given path is one, making the given assignments in sorted order at the given cost, and there are no
others. -/
theorem C76_paths (sort : List (K × V) → List (K × V)) (paths : List (List (K × V) × Cost)) :
    ∃ d, dagFromPaths sort paths = .ok d ∧ ∀ kvs c,
      (∃ p, DagWalk d d.initial d.final p ∧ p.filterMap Edge.req = kvs ∧ weight Edge.cost p = c)
        ↔ ∃ a, (a, c) ∈ paths ∧ sort a = kvs := by
  refine ⟨_, built sort paths, fun kvs c => ?_⟩
  constructor
  · rintro ⟨p, hp, h1, h2⟩
    obtain ⟨x, hx, rfl⟩ := (walks sort paths p).mp hp
    rw [path_req] at h1
    rw [path_weight] at h2
    exact ⟨x.2.1, (placed_of_mem sort paths 2 (x.2.1, c)).mpr ⟨x.1, by rw [← h2]; exact hx⟩, h1⟩
  · rintro ⟨a, ha, rfl⟩
    obtain ⟨m, hm⟩ := (placed_of_mem sort paths 2 (a, c)).mp ha
    exact ⟨_, (walks sort paths _).mpr ⟨_, hm, rfl⟩, path_req .., path_weight ..⟩

/-- C76: the cost of an assignment of all variables is the least of the costs of the given paths that agree
with it, infinite if there is none; so it is the given cost if only one path agrees. -/
theorem C76_cost (sort : List (K × V) → List (K × V)) (hs : ∀ l, (sort l).Perm l)
    (paths : List (List (K × V) × Cost)) (assignment : K → V) :
    ∃ d, dagFromPaths sort paths = .ok d ∧ ∀ c,
      IsMinimum (fun p => DagWalk d d.initial d.final p ∧ ∀ kv ∈ p.filterMap Edge.req, assignment kv.1 = kv.2)
          (weight Edge.cost) c
        ↔ IsMinimum (fun x => x ∈ paths ∧ ∀ kv ∈ x.1, assignment kv.1 = kv.2) Prod.snd c := by
  obtain ⟨d, hd, key⟩ := C76_paths sort paths
  have there : ∀ x, (x ∈ paths ∧ ∀ kv ∈ x.1, assignment kv.1 = kv.2) → ∃ p,
      (DagWalk d d.initial d.final p ∧ ∀ kv ∈ p.filterMap Edge.req, assignment kv.1 = kv.2)
        ∧ weight Edge.cost p = x.2 := by
    rintro ⟨a, c⟩ ⟨h1, h2⟩
    obtain ⟨p, h3, h4, h5⟩ := (key (sort a) c).mpr ⟨a, h1, rfl⟩
    exact ⟨p, ⟨h3, fun kv hkv => h2 kv ((hs a).subset (h4 ▸ hkv))⟩, h5⟩
  have back : ∀ p, (DagWalk d d.initial d.final p ∧ ∀ kv ∈ p.filterMap Edge.req, assignment kv.1 = kv.2) →
      ∃ x, (x ∈ paths ∧ ∀ kv ∈ x.1, assignment kv.1 = kv.2) ∧ x.2 = weight Edge.cost p := by
    rintro p ⟨h1, h2⟩
    obtain ⟨a, h3, h4⟩ := (key _ _).mp ⟨p, h1, rfl, rfl⟩
    exact ⟨(a, _), ⟨h3, fun kv hkv => h2 kv (h4 ▸ (hs a).symm.subset hkv)⟩, rfl⟩
  refine ⟨d, hd, fun c => ⟨fun h => ⟨?_, ?_⟩, fun h => ⟨?_, ?_⟩⟩⟩
  · intro x hx
    obtain ⟨p, hp, e⟩ := there x hx
    exact e ▸ h.le p hp
  · rcases h.attained with h' | ⟨p, hp, e⟩
    · exact .inl h'
    · obtain ⟨x, hx, e'⟩ := back p hp
      exact .inr ⟨x, hx, e'.trans e⟩
  · intro p hp
    obtain ⟨x, hx, e⟩ := back p hp
    exact e ▸ h.le x hx
  · rcases h.attained with h' | ⟨x, hx, e⟩
    · exact .inl h'
    · obtain ⟨p, hp, e'⟩ := there x hx
      exact .inr ⟨p, hp, e'.trans e⟩

-- The example of the docstring.
example : ∃ d, dagFromPaths (K := Nat) (V := Nat) id [([(0, 10), (1, 11), (2, 2)], 10), ([(0, 20), (1, 21)], 2)] = .ok d
    ∧ d.edges.map (fun e => (e.source, e.dest, e.req))
      = [(0, 2, some (0, 10)), (2, 3, some (1, 11)), (3, 4, some (2, 2)), (4, 1, none),
        (0, 5, some (0, 20)), (5, 6, some (1, 21)), (6, 1, none)] :=
  ⟨_, built _ _, by decide +kernel⟩

end

end RUSure.Props
