import Verif.Lemmas.MemoryHistory
import Verif.Props.Dual

/-!
# C70: systems in memory behave like values

`greedy_extract`, the wrappers and the demo copy a system and go on with the copy, while the solver
mutates arrays in place.
-/

namespace RUSure.Props
open RUSure RUSure.Spec RUSure.Lemmas
open RUSure.Memory (Heap Command DualRef Output runMemory runValues Apart run_refines
  runValues_untouched cloneData_refines sep_of_apart apart_append cloneSystem greedy_refines)

variable {K V : Type} [LinearOrder K] [DecidableEq V]

/-- Every program that makes systems, clones them (clones of clones included) and solves, averages,
extracts, commits, constrains or perturbs any of them in any order: the results and the contents of all
its systems are those of the same program on values, and it fails exactly if that one fails. The memory
it starts from does not matter. -/
theorem C70_history (invalid : Cost) (program : List (Command K V)) (h : Heap) :
    (runMemory invalid program (h, [], [])).map (fun st => (st.2.1.map st.1.dual, st.2.2)) =
      runValues invalid program ([], []) := by
  have ha : Apart h ([] : List (DualRef K V)) := ⟨List.nodup_nil, fun _ hl => by cases hl⟩
  rcases run_refines invalid program h [] [] ha with ⟨x, y⟩ | ⟨h', rs', out', x, y, _⟩
  · rw [x]
    exact y.symm
  · rw [x]
    exact y.symm

/-- What a program did before: its systems have different arrays. -/
theorem reached_apart {invalid : Cost} {before : List (Command K V)} {h h1 : Heap}
    {rs : List (DualRef K V)} {out : List Output}
    (hb : runMemory invalid before (h, [], []) = some (h1, rs, out)) : Apart h1 rs := by
  have ha : Apart h ([] : List (DualRef K V)) := ⟨List.nodup_nil, fun _ hl => by cases hl⟩
  rcases run_refines invalid before h [] [] ha with ⟨x, _⟩ | ⟨h', rs', out', x, _, hap⟩
  · rw [x] at hb; cases hb
  · rw [x] at hb
    simp only [Option.some.injEq, Prod.mk.injEq] at hb
    obtain ⟨rfl, rfl, -⟩ := hb
    exact hap

/-- In any state a program can reach, whatever it does next without operating on the `i`-th system
leaves all arrays of that system as they are. -/
theorem C70_untouched (invalid : Cost) (before : List (Command K V)) (h h1 : Heap)
    (rs : List (DualRef K V)) (out : List Output)
    (hb : runMemory invalid before (h, [], []) = some (h1, rs, out))
    (i : Nat) (r : DualRef K V) (hi : rs[i]? = some r) (rest : List (Command K V))
    (ha : ∀ c ∈ rest, c.avoids i) (h2 : Heap) (rs2 : List (DualRef K V)) (out2 : List Output)
    (hr : runMemory invalid rest (h1, rs, out) = some (h2, rs2, out2)) :
    ∃ r', rs2[i]? = some r' ∧ h2.dual r' = h1.dual r := by
  rcases run_refines invalid rest h1 rs out (reached_apart hb) with ⟨x, _⟩ | ⟨h', rs', out', x, y, _⟩
  · rw [x] at hr; cases hr
  · rw [x] at hr
    simp only [Option.some.injEq, Prod.mk.injEq] at hr
    obtain ⟨rfl, rfl, rfl⟩ := hr
    have hlt : i < (rs.map h1.dual).length := by
      rw [List.length_map]
      exact (List.getElem?_eq_some_iff.1 hi).1
    have := runValues_untouched invalid i rest _ out _ _ hlt ha y
    rw [List.getElem?_map, List.getElem?_map, hi, Option.map_some, Option.map_eq_some_iff] at this
    exact this

/-- In any state a program can reach, `clone_system` appends a system with the contents of the original.
Whatever the program does next without operating on the original leaves the original as it was at the
time of cloning, and whatever it does next without operating on the clone leaves the clone so. -/
theorem C70_clone (invalid : Cost) (before : List (Command K V)) (h h1 : Heap)
    (rs : List (DualRef K V)) (out : List Output)
    (hb : runMemory invalid before (h, [], []) = some (h1, rs, out))
    (i : Nat) (r : DualRef K V) (hi : rs[i]? = some r) (rest : List (Command K V))
    (h2 : Heap) (rs2 : List (DualRef K V)) (out2 : List Output)
    (hr : runMemory invalid (.clone i :: rest) (h1, rs, out) = some (h2, rs2, out2)) :
    ((∀ c ∈ rest, c.avoids i) → ∃ r', rs2[i]? = some r' ∧ h2.dual r' = h1.dual r) ∧
      ((∀ c ∈ rest, c.avoids rs.length) →
        ∃ r', rs2[rs.length]? = some r' ∧ h2.dual r' = h1.dual r) := by
  have hap := reached_apart hb
  have hm : r ∈ rs := List.mem_of_getElem? hi
  obtain ⟨a1, a2, a3⟩ := cloneData_refines (h := h1) (r := r.data) (sep_of_apart hap hm).2
  refine ⟨fun ha => ?_, fun ha => ?_⟩
  · exact C70_untouched invalid before h h1 rs out hb i r hi (.clone i :: rest)
      (by
        intro c hc
        rcases List.mem_cons.1 hc with rfl | hc
        · trivial
        · exact ha c hc) h2 rs2 out2 hr
  · simp only [runMemory, hi] at hr
    have hb' : Apart (cloneSystem h1 r).1 (rs ++ [(cloneSystem h1 r).2]) :=
      apart_append (r := (cloneSystem h1 r).2) a2 hap a3
    rcases run_refines invalid rest (cloneSystem h1 r).1 (rs ++ [(cloneSystem h1 r).2]) out hb' with
      ⟨x, _⟩ | ⟨h', rs', out', x, y, _⟩
    · rw [x] at hr; cases hr
    · rw [x] at hr
      simp only [Option.some.injEq, Prod.mk.injEq] at hr
      obtain ⟨rfl, rfl, rfl⟩ := hr
      have := runValues_untouched invalid rs.length rest _ out _ _ (by simp) ha y
      rw [List.getElem?_map, List.getElem?_map, List.getElem?_append_right (le_refl _)] at this
      simp only [Nat.sub_self, List.getElem?_cons_zero, Option.map_some,
        Option.map_eq_some_iff] at this
      obtain ⟨r', e1, e2⟩ := this
      refine ⟨r', e1, e2.trans ?_⟩
      unfold cloneSystem Memory.Heap.dual
      simp only [a1]

/-- In any state a program can reach, `greedy_extract` writes to no array that existed before the call:
not to the penalties, the tables or the validity marks of the system it is given, nor to those of any
other. -/
theorem C70_greedy (invalid : Cost) (before : List (Command K V)) (h h1 : Heap)
    (rs : List (DualRef K V)) (out : List Output)
    (hb : runMemory invalid before (h, [], []) = some (h1, rs, out))
    (r : DualRef K V) (hr : r ∈ rs) (dir : Direction) (h2 : Heap) (a : List Nat) (c : Option Cost)
    (hg : Memory.greedy h1 r.data dir = some (h2, a, c)) :
    (h1.dual r).data.greedy dir = some (a, c) ∧
      ∀ l < h1.next, h2.mats l = h1.mats l ∧ h2.rows l = h1.rows l ∧ h2.tags l = h1.tags l := by
  rcases greedy_refines (sep_of_apart (reached_apart hb) hr) dir with ⟨x, _⟩ | ⟨h', b, x, y, f⟩
  · rw [x] at hg; cases hg
  · rw [x] at hg
    simp only [Option.some.injEq, Prod.mk.injEq] at hg
    obtain ⟨rfl, rfl⟩ := hg
    exact ⟨y, fun l hl => ⟨f.mats l hl List.not_mem_nil, f.rows l hl List.not_mem_nil,
      f.tags l hl List.not_mem_nil⟩⟩

/-! ## A concrete program: clone, constrain the clone, extract from the original -/

example (h : Heap) : ∃ h' rs' out', runMemory 7
    [.make sampleDags (some [1, 2]), .clone 0, .run 1 (.constrain ⊤ [(7, 10)]),
      .run 0 (.greedy .forward)] (h, [], []) = some (h', rs', out') ∧ rs'.length = 2 := by
  obtain ⟨D, hD, hk, hv, hw, hne⟩ := sample_made
  obtain ⟨vec, c, hg⟩ := C39_greedy_defined hD sampleDags_good hw .start hne (by rw [hv]; simp)
    .forward
  have hcon := (C56_constrain_defined D ⊤ [(7, 10)]).2 (by simp [hk, hv])
  rw [Option.isSome_iff_exists] at hcon
  obtain ⟨D', hD'⟩ := hcon
  have e := C70_history 7 [.make sampleDags (some [1, 2]), .clone 0,
    .run 1 (.constrain ⊤ [(7, 10)]), .run 0 (.greedy .forward)] h
  have e2 : runValues 7 [.make sampleDags (some [1, 2]), .clone 0,
      .run 1 (.constrain ⊤ [(7, 10)]), .run 0 (.greedy .forward)] ([], []) =
      some ([D, D'], [.done, .solution vec c]) := by
    simp [runValues, hD, Memory.Op.onValue, hD', hg]
  rw [e2, Option.map_eq_some_iff] at e
  obtain ⟨st, hst, hst2⟩ := e
  refine ⟨st.1, st.2.1, st.2.2, hst, ?_⟩
  simp only [Prod.mk.injEq] at hst2
  have := congrArg List.length hst2.1
  simpa using this

end RUSure.Props
