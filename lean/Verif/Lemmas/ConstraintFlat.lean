import Verif.Lemmas.ConstraintMain
import Verif.Spec.Regions
import Mathlib.Data.List.Induction

/-!
# The region grammar and the declarative description of well-formed regions
-/

namespace RUSure.Lemmas
open RUSure RUSure.Spec
variable {M : Type}

/-- The placed nodes of a sequence: `pp` is the path of the parent, `c` the position of the first
node among its siblings and `i` its preorder index. -/
def pl (pp : List Nat) (c i : Nat) (ns : List (Node M)) : List (Placed M) :=
  ((walkFrom true false pp c ns).zipIdx i).map fun x => ⟨x.2, x.1.2.1, x.1.1⟩

theorem placed_eq (seq : List (Node M)) : placed seq = pl [] 0 0 seq := rfl

theorem walkFrom_length : ∀ (ns : List (Node M)) (pp : List Nat) (c : Nat),
    (walkFrom true false pp c ns).length = seqSize ns
  | [], _, _ => rfl
  | n :: ns, pp, c => by
    rw [walkFrom, List.length_append, walkFrom_length ns, seqSize]
    congr 1
    cases n with
    | group cs mt => simp [walkNode, nodeSize, walkFrom_length cs, Nat.add_comm]
    | _ => rfl

theorem pl_nil (pp : List Nat) (c i : Nat) : pl pp c i ([] : List (Node M)) = [] := rfl

/-- What comes below a node. -/
def below (pp : List Nat) (i : Nat) : Node M → List (Placed M)
  | .group cs _ => pl pp 0 i cs
  | _ => []

theorem pl_cons (pp : List Nat) (c i : Nat) (n : Node M) (ns : List (Node M)) :
    pl pp c i (n :: ns) = ⟨i, pp ++ [c], n⟩ :: (below (pp ++ [c]) (i + 1) n
      ++ pl pp (c + 1) (i + nodeSize n) ns) := by
  unfold pl
  rw [walkFrom, List.zipIdx_append, List.map_append]
  cases n with
  | group cs mt =>
    simp only [walkNode, if_true, Bool.false_eq_true, if_false, List.nil_append,
      List.append_nil, List.zipIdx_cons, List.map_cons, List.cons_append, below, pl, List.length_cons,
      walkFrom_length, nodeSize, Nat.add_comm 1]
  | _ => rfl

theorem pl_append (ms ns : List (Node M)) (pp : List Nat) (c i : Nat) :
    pl pp c i (ms ++ ns) = pl pp c i ms ++ pl pp (c + ms.length) (i + seqSize ms) ns := by
  induction ms generalizing c i with
  | nil => simp [pl_nil, seqSize]
  | cons m ms ih =>
    rw [List.cons_append, pl_cons, ih, pl_cons]
    simp [seqSize, Nat.add_assoc, Nat.add_comm 1]

theorem seqSize_append (ms ns : List (Node M)) :
    seqSize (ms ++ ns) = seqSize ms + seqSize ns := by
  induction ms with
  | nil => simp [seqSize]
  | cons m ms ih => simp only [List.cons_append, seqSize, ih]; omega

theorem pl_path : ∀ (ns : List (Node M)) (pp : List Nat) (c i : Nat), ∀ x ∈ pl pp c i ns,
    ∃ c' r, c ≤ c' ∧ x.path = pp ++ c' :: r
  | [], _, _, _ => by simp [pl_nil]
  | n :: ns, pp, c, i => by
    intro x hx
    have hr := pl_path ns pp (c + 1) (i + nodeSize n) x
    rw [pl_cons, List.mem_cons, List.mem_append] at hx
    rcases hx with rfl | hx | hx
    · exact ⟨c, [], le_refl _, rfl⟩
    · cases n with
      | group cs mt =>
        obtain ⟨c', r, h1, h2⟩ := pl_path cs (pp ++ [c]) 0 (i + 1) x hx
        exact ⟨c, c' :: r, le_refl _, by rw [h2]; simp⟩
      | _ => simp [below] at hx
    · obtain ⟨c', r, h1, h2⟩ := hr hx
      exact ⟨c', r, by omega, h2⟩

theorem below_path {n : Node M} {pp : List Nat} {i : Nat} : ∀ x ∈ below pp i n,
    ∃ c' r, x.path = pp ++ c' :: r := by
  intro x hx
  cases n with
  | group cs mt =>
    obtain ⟨c', r, -, h⟩ := pl_path cs pp 0 i x hx
    exact ⟨c', r, h⟩
  | _ => simp [below] at hx

section
variable (α : DecisionKey → DecisionValue)

/-- In a region after `l`, if it was so (or not) before. -/
def openFrom (b : Bool) : List (Placed M) → Bool
  | [] => b
  | x :: l => openFrom ((x.mark α).getD b) l

/-- No exit is taken in `l`. -/
def NoExit (l : List (Placed M)) : Prop := ∀ y ∈ l, y.exits α = false

/-- All nodes up to the exit are fine. -/
def AllOk (b : Bool) : List (Placed M) → Prop
  | [] => True
  | x :: l => x.Ok α b ∧ (x.exits α = false → AllOk ((x.mark α).getD b) l)

/-- All regions started before the exit end; `tail` comes after `l`. -/
def AllClosed (tail : List (Placed M)) : List (Placed M) → Prop
  | [] => True
  | x :: l => (x.mark α = some true → x.Closes α (l ++ tail))
      ∧ (x.exits α = false → AllClosed tail l)

/-- No region ends before the exit. -/
def NoEnd : List (Placed M) → Prop
  | [] => True
  | x :: l => x.mark α ≠ some false ∧ (x.exits α = false → NoEnd l)

/-- The decisions agree with the assignment. -/
def Agrees (ds : List Decision) : Prop := ∀ p ∈ ds, α p.1 = p.2

variable {α}

theorem noExit_cons {x : Placed M} {l : List (Placed M)} :
    NoExit α (x :: l) ↔ x.exits α = false ∧ NoExit α l := by simp [NoExit]

theorem noExit_append {l r : List (Placed M)} :
    NoExit α (l ++ r) ↔ NoExit α l ∧ NoExit α r := by
  simp only [NoExit, List.mem_append]
  constructor
  · intro h; exact ⟨fun y hy => h y (.inl hy), fun y hy => h y (.inr hy)⟩
  · rintro ⟨h1, h2⟩ y (hy | hy)
    · exact h1 y hy
    · exact h2 y hy

theorem openFrom_append (b : Bool) (l r : List (Placed M)) :
    openFrom α b (l ++ r) = openFrom α (openFrom α b l) r := by
  induction l generalizing b with
  | nil => rfl
  | cons x l ih => exact ih _

theorem openFrom_eq (b : Bool) (l : List (Placed M)) :
    openFrom α b l = (l.reverse.findSome? (Placed.mark α)).getD b := by
  induction l using List.reverseRecOn generalizing b with
  | nil => rfl
  | append_singleton l x ih =>
    rw [openFrom_append, ih]
    simp only [openFrom, List.reverse_append, List.reverse_cons, List.reverse_nil, List.nil_append,
      List.singleton_append, List.findSome?_cons]
    cases x.mark α <;> rfl

theorem allOk_append (b : Bool) (l r : List (Placed M)) :
    AllOk α b (l ++ r) ↔ AllOk α b l ∧ (NoExit α l → AllOk α (openFrom α b l) r) := by
  induction l generalizing b with
  | nil => simp [AllOk, openFrom, NoExit]
  | cons x l ih =>
    simp only [List.cons_append, AllOk, openFrom, noExit_cons, ih]
    tauto

theorem allOk_iff (b : Bool) (P : List (Placed M)) :
    AllOk α b P ↔ ∀ l x r, P = l ++ x :: r → NoExit α l → x.Ok α (openFrom α b l) := by
  constructor
  · rintro h l x r rfl hn
    rw [allOk_append] at h
    exact (h.2 hn).1
  · intro h
    induction P generalizing b with
    | nil => trivial
    | cons y P ih =>
      refine ⟨h [] y P rfl (by simp [NoExit]), fun hy => ih _ fun l x r hP hn => ?_⟩
      exact h (y :: l) x r (by rw [hP]; rfl) (noExit_cons.mpr ⟨hy, hn⟩)

theorem closes_append {x : Placed M} {l r : List (Placed M)} (h : x.Closes α l) :
    x.Closes α (l ++ r) := by
  obtain ⟨m, z, r', rfl, h2, h3⟩ := h
  exact ⟨m, z, r' ++ r, by simp, h2, h3⟩

theorem allClosed_append {tail l r : List (Placed M)} :
    AllClosed α tail (l ++ r)
      ↔ AllClosed α (r ++ tail) l ∧ (NoExit α l → AllClosed α tail r) := by
  induction l with
  | nil => simp [AllClosed, NoExit]
  | cons x l ih =>
    simp only [List.cons_append, AllClosed, noExit_cons, ih, List.append_assoc]
    tauto

theorem allClosed_mono {tail tail' l : List (Placed M)} (h : AllClosed α tail l) :
    AllClosed α (tail ++ tail') l := by
  induction l with
  | nil => trivial
  | cons x l ih =>
    refine ⟨fun hx => ?_, fun hx => ih (h.2 hx)⟩
    rw [← List.append_assoc]
    exact closes_append (h.1 hx)

theorem allClosed_iff (P : List (Placed M)) :
    AllClosed α [] P ↔ ∀ l x r, P = l ++ x :: r → NoExit α l → x.mark α = some true →
      x.Closes α r := by
  constructor
  · rintro h l x r rfl hn hx
    rw [allClosed_append] at h
    have := (h.2 hn).1 hx
    simpa using this
  · intro h
    induction P with
    | nil => trivial
    | cons y P ih =>
      refine ⟨fun hy => ?_, fun hy => ih fun l x r hP hn hx => ?_⟩
      · rw [List.append_nil]
        exact h [] y P rfl (by simp [NoExit]) hy
      · exact h (y :: l) x r (by rw [hP]; rfl) (noExit_cons.mpr ⟨hy, hn⟩) hx

theorem noEnd_append {l r : List (Placed M)} :
    NoEnd α (l ++ r) ↔ NoEnd α l ∧ (NoExit α l → NoEnd α r) := by
  induction l with
  | nil => simp [NoEnd, NoExit]
  | cons x l ih =>
    simp only [List.cons_append, NoEnd, noExit_cons, ih]
    tauto

theorem agrees_cons {k : DecisionKey} {v : DecisionValue} {ds : List Decision} :
    Agrees α ((k, v) :: ds) ↔ α k = v ∧ Agrees α ds := by simp [Agrees]

theorem agrees_append {ds ds' : List Decision} :
    Agrees α (ds ++ ds') ↔ Agrees α ds ∧ Agrees α ds' := by
  simp only [Agrees, List.mem_append]
  constructor
  · intro h; exact ⟨fun y hy => h y (.inl hy), fun y hy => h y (.inr hy)⟩
  · rintro ⟨h1, h2⟩ y (hy | hy)
    · exact h1 y hy
    · exact h2 y hy

/-! ### From the grammar to the declarative description -/

/-- What holds of the nodes of a sequence that is read by the grammar. -/
structure FlatFacts (α : DecisionKey → DecisionValue) (b x : Bool) (P : List (Placed M)) : Prop where
  ok : AllOk α b P
  stays : x = false → NoExit α P ∧ openFrom α b P = b
  leaves : x = true → ∃ l z r, P = l ++ z :: r ∧ NoExit α l ∧ z.exits α = true
  noEnd : b = true → NoEnd α P
  closed : AllClosed α [] P

/-- A node that changes nothing, before a sequence. -/
theorem FlatFacts.cons {b x : Bool} {P : List (Placed M)} (h : FlatFacts α b x P) {y : Placed M}
    (h1 : y.Ok α b) (h2 : y.mark α = none) (h3 : y.exits α = false) : FlatFacts α b x (y :: P) where
  ok := ⟨h1, fun _ => by rw [h2]; exact h.ok⟩
  stays hx := ⟨noExit_cons.mpr ⟨h3, (h.stays hx).1⟩, by
    rw [openFrom, h2]; exact (h.stays hx).2⟩
  leaves hx := by
    obtain ⟨l, z, r, rfl, g1, g2⟩ := h.leaves hx
    exact ⟨y :: l, z, r, rfl, noExit_cons.mpr ⟨h3, g1⟩, g2⟩
  noEnd hb := ⟨by rw [h2]; simp, fun _ => h.noEnd hb⟩
  closed := ⟨by rw [h2]; simp, fun _ => h.closed⟩

theorem FlatFacts.append {b x : Bool} {P Q : List (Placed M)} (hP : FlatFacts α b false P)
    (hQ : FlatFacts α b x Q) : FlatFacts α b x (P ++ Q) where
  ok := (allOk_append _ _ _).mpr ⟨hP.ok, fun _ => by rw [(hP.stays rfl).2]; exact hQ.ok⟩
  stays hx := ⟨noExit_append.mpr ⟨(hP.stays rfl).1, (hQ.stays hx).1⟩, by
    rw [openFrom_append, (hP.stays rfl).2, (hQ.stays hx).2]⟩
  leaves hx := by
    obtain ⟨l, z, r, rfl, g1, g2⟩ := hQ.leaves hx
    exact ⟨P ++ l, z, r, by simp, noExit_append.mpr ⟨(hP.stays rfl).1, g1⟩, g2⟩
  noEnd hb := noEnd_append.mpr ⟨hP.noEnd hb, fun _ => hQ.noEnd hb⟩
  closed := allClosed_append.mpr ⟨by simpa using allClosed_mono hP.closed, fun _ => hQ.closed⟩

/-- After an exit, anything may follow. -/
theorem FlatFacts.append_exit {b : Bool} {P : List (Placed M)} (hP : FlatFacts α b true P)
    (Q : List (Placed M)) : FlatFacts α b true (P ++ Q) := by
  obtain ⟨l, z, r, rfl, g1, g2⟩ := hP.leaves rfl
  have hne : ¬ NoExit α (l ++ z :: r) := by
    intro h
    have := h z (by simp)
    rw [g2] at this
    simp at this
  exact {
    ok := (allOk_append _ _ _).mpr ⟨hP.ok, fun h => absurd h hne⟩
    stays := by simp
    leaves := fun _ => ⟨l, z, r ++ Q, by simp, g1, g2⟩
    noEnd := fun hb => noEnd_append.mpr ⟨hP.noEnd hb, fun h => absurd h hne⟩
    closed := allClosed_append.mpr ⟨by simpa using allClosed_mono hP.closed, fun h => absurd h hne⟩ }

theorem noEnd_mem {l : List (Placed M)} (h : NoEnd α l) (hn : NoExit α l) :
    ∀ y ∈ l, y.mark α ≠ some false := by
  induction l with
  | nil => simp
  | cons x l ih =>
    obtain ⟨h1, h2⟩ := noExit_cons.mp hn
    intro y hy
    rcases List.mem_cons.mp hy with rfl | hy
    · exact h.1
    · exact ih (h.2 h1) h2 y hy

theorem grammar_flat {b x : Bool} {i : Nat} {ns : List (Node M)} {ds : List Decision}
    (h : RegionSeq b x i ns ds) : Agrees α ds → ∀ (pp : List Nat) (c : Nat),
    FlatFacts α b x (pl pp c i ns) := by
  induction h with
  | nil b i =>
    intro _ pp c
    exact { ok := trivial
            stays := fun _ => ⟨by simp [NoExit, pl_nil], rfl⟩
            leaves := by simp
            noEnd := fun _ => trivial
            closed := trivial }
  | deco _ ih =>
    intro ha pp c
    rw [pl_cons]
    exact (ih ha pp (c + 1)).cons trivial rfl rfl
  | @tok b x i t mt ns ds _ ih =>
    intro ha pp c
    rw [agrees_cons] at ha
    rw [pl_cons]
    refine (ih ha.2 pp (c + 1)).cons ?_ rfl rfl
    simp only [Placed.Ok, ha.1, inValue]
  | @group b x i cs mt ns ds ds' _ _ ih1 ih2 =>
    intro ha pp c
    rw [List.cons_append, agrees_cons, agrees_append] at ha
    rw [pl_cons]
    have e : i + nodeSize (.group cs mt) = i + 1 + seqSize cs := by simp only [nodeSize]; omega
    rw [e]
    refine ((ih1 ha.2.1 (pp ++ [c]) 0).append (ih2 ha.2.2 pp (c + 1))).cons ?_ rfl rfl
    simp only [Placed.Ok, ha.1, inValue]
  | @skipStart b x i ns ds _ ih =>
    intro ha pp c
    rw [agrees_cons] at ha
    rw [pl_cons]
    refine (ih ha.2 pp (c + 1)).cons ?_ ?_ rfl
    · simp only [Placed.Ok, ha.1]; cases b <;> simp
    · simp only [Placed.mark, ha.1]; cases b <;> simp
  | @skipEnd b x i ns ds _ ih =>
    intro ha pp c
    rw [agrees_cons] at ha
    rw [pl_cons]
    refine (ih ha.2 pp (c + 1)).cons ?_ ?_ rfl
    · simp only [Placed.Ok, ha.1]; cases b <;> simp
    · simp only [Placed.mark, ha.1]; cases b <;> simp
  | @skipExit b x i ns ds _ ih =>
    intro ha pp c
    rw [agrees_cons] at ha
    rw [pl_cons]
    refine (ih ha.2 pp (c + 1)).cons ?_ rfl ?_
    · simp [Placed.Ok, ha.1]
    · simp [Placed.exits, ha.1]
  | @exit b i ns =>
    intro ha pp c
    rw [agrees_cons] at ha
    rw [pl_cons]
    have he : (⟨i, pp ++ [c], .exit⟩ : Placed M).exits α = true := by simp [Placed.exits, ha.1]
    exact {
      ok := ⟨by simp [Placed.Ok, ha.1], by simp [he]⟩
      stays := by simp
      leaves := fun _ => ⟨[], _, _, rfl, by simp [NoExit], he⟩
      noEnd := fun _ => ⟨by simp [Placed.mark], by simp [he]⟩
      closed := ⟨by simp [Placed.mark], by simp [he]⟩ }
  | @exitGroup b i cs mt ns ds _ ih =>
    intro ha pp c
    rw [agrees_cons] at ha
    rw [pl_cons]
    refine ((ih ha.2 (pp ++ [c]) 0).append_exit _).cons ?_ rfl rfl
    simp only [Placed.Ok, ha.1, inValue]
  | @region x i mid ns ds ds' _ _ ih1 ih2 =>
    intro ha pp c
    rw [List.cons_append, agrees_cons, agrees_append, agrees_cons] at ha
    obtain ⟨a1, a2, a3, a4⟩ := ha
    have h1 := ih1 a2 pp (c + 1)
    have h2 := ih2 a4 pp (c + 1 + mid.length + 1)
    obtain ⟨n1, n2⟩ := h1.stays rfl
    rw [List.cons_append, pl_cons, pl_append, pl_cons]
    simp only [below, List.nil_append, nodeSize]
    set s : Placed M := ⟨i, pp ++ [c], .rstart⟩ with hs
    set e : Placed M := ⟨i + 1 + seqSize mid, pp ++ [c + 1 + mid.length], .rend⟩ with he
    have s1 : s.mark α = some true := by simp [hs, Placed.mark, a1]
    have s2 : s.exits α = false := rfl
    have e1 : e.mark α = some false := by simp [he, Placed.mark, a3]
    have e2 : e.exits α = false := rfl
    exact {
      ok := by
        refine ⟨by simp [hs, Placed.Ok, a1], fun _ => ?_⟩
        rw [s1, Option.getD_some, allOk_append]
        refine ⟨h1.ok, fun _ => ?_⟩
        rw [n2]
        refine ⟨by simp [he, Placed.Ok, a3], fun _ => ?_⟩
        rw [e1]
        exact h2.ok
      stays := fun hx => by
        refine ⟨noExit_cons.mpr ⟨s2, noExit_append.mpr ⟨n1, noExit_cons.mpr ⟨e2,
          (h2.stays hx).1⟩⟩⟩, ?_⟩
        rw [openFrom, s1, Option.getD_some, openFrom_append, n2, openFrom, e1]
        exact (h2.stays hx).2
      leaves := fun hx => by
        obtain ⟨l, z, r, hr, g1, g2⟩ := h2.leaves hx
        refine ⟨s :: (pl pp (c + 1) (i + 1) mid ++ e :: l), z, r, by rw [hr]; simp, ?_, g2⟩
        exact noExit_cons.mpr ⟨s2, noExit_append.mpr ⟨n1, noExit_cons.mpr ⟨e2, g1⟩⟩⟩
      noEnd := by simp
      closed := by
        refine ⟨fun _ => ?_, fun _ => ?_⟩
        · rw [List.append_nil]
          refine ⟨_, e, _, rfl, fun y hy => ⟨noEnd_mem (h1.noEnd rfl) n1 y hy, n1 y hy⟩,
            .inl ⟨e1, by simp [hs, he]⟩⟩
        · refine allClosed_append.mpr ⟨by simpa using allClosed_mono h1.closed, fun _ => ?_⟩
          exact ⟨by rw [e1]; simp, fun _ => h2.closed⟩ }
  | @exitRegion i ns ds _ ih =>
    intro ha pp c
    rw [agrees_cons] at ha
    obtain ⟨a1, a2⟩ := ha
    have h1 := ih a2 pp (c + 1)
    rw [pl_cons]
    simp only [below, List.nil_append, nodeSize]
    set s : Placed M := ⟨i, pp ++ [c], .rstart⟩ with hs
    have s1 : s.mark α = some true := by simp [hs, Placed.mark, a1]
    have s2 : s.exits α = false := rfl
    obtain ⟨l, z, r, hr, g1, g2⟩ := h1.leaves rfl
    exact {
      ok := by
        refine ⟨by simp [hs, Placed.Ok, a1], fun _ => ?_⟩
        rw [s1]
        exact h1.ok
      stays := by simp
      leaves := fun _ => ⟨s :: l, z, r, by rw [hr]; rfl, noExit_cons.mpr ⟨s2, g1⟩, g2⟩
      noEnd := by simp
      closed := by
        refine ⟨fun _ => ?_, fun _ => h1.closed⟩
        rw [List.append_nil]
        refine ⟨l, z, r, hr, fun y hy => ⟨?_, g1 y hy⟩, .inr ⟨g2, ?_⟩⟩
        · have := h1.noEnd rfl
          rw [hr, noEnd_append] at this
          exact noEnd_mem this.1 g1 y hy
        · obtain ⟨c', r', -, hp⟩ := pl_path ns pp (c + 1) (i + 1) z (by rw [hr]; simp)
          rw [hp, hs]
          simp }

/-! ### From the declarative description to the grammar -/

theorem noEnd_of_mem {l : List (Placed M)} (h : ∀ y ∈ l, y.mark α ≠ some false) : NoEnd α l := by
  induction l with
  | nil => trivial
  | cons x l ih => exact ⟨h x (by simp), fun _ => ih fun y hy => h y (by simp [hy])⟩

theorem openFrom_noEnd {l : List (Placed M)} (h : NoEnd α l) (hn : NoExit α l) :
    openFrom α true l = true := by
  induction l with
  | nil => rfl
  | cons x l ih =>
    obtain ⟨h1, h2⟩ := noExit_cons.mp hn
    rw [openFrom]
    have : (x.mark α).getD true = true := by
      rcases hm : x.mark α with _ | _ | _
      · rfl
      · exact absurd hm h.1
      · rfl
    rw [this]
    exact ih (h.2 h1) h2

/-- Elements that are not in the second list come from the first. -/
theorem split_left {β : Type} {l t m r : List β} {z : β} (h : l ++ t = m ++ z :: r) (hz : z ∉ t) :
    ∃ r', l = m ++ z :: r' ∧ r = r' ++ t := by
  rcases List.append_eq_append_iff.mp h with ⟨a, ha, hb⟩ | ⟨a, ha, hb⟩
  · exact absurd (by rw [hb]; simp) hz
  · cases a with
    | nil => exact absurd (by rw [List.nil_append] at hb; rw [← hb]; simp) hz
    | cons y a =>
      simp only [List.cons_append, List.cons.injEq] at hb
      obtain ⟨rfl, rfl⟩ := hb
      exact ⟨a, ha, rfl⟩

theorem split_right {β : Type} {l t m r : List β} {z : β} (h : l ++ t = m ++ z :: r) (hz : z ∉ l) :
    ∃ m', m = l ++ m' ∧ t = m' ++ z :: r := by
  rcases List.append_eq_append_iff.mp h with ⟨a, ha, hb⟩ | ⟨a, ha, hb⟩
  · exact ⟨a, ha, hb⟩
  · cases a with
    | nil => exact ⟨[], by simpa using ha.symm, by simpa using hb.symm⟩
    | cons y a =>
      simp only [List.cons_append, List.cons.injEq] at hb
      obtain ⟨rfl, rfl⟩ := hb
      exact absurd (by rw [ha]; simp) hz

theorem pl_split {pp : List Nat} (ns : List (Node M)) : ∀ (c i : Nat) (m r : List (Placed M))
    (z : Placed M), pl pp c i ns = m ++ z :: r → z.path.dropLast = pp →
    ∃ mid n rest, ns = mid ++ n :: rest ∧ m = pl pp c i mid
      ∧ z = ⟨i + seqSize mid, pp ++ [c + mid.length], n⟩ := by
  induction ns with
  | nil => intro c i m r z h; simp [pl_nil] at h
  | cons n ns ih =>
    intro c i m r z h hz
    rw [pl_cons] at h
    cases m with
    | nil =>
      rw [List.nil_append, List.cons.injEq] at h
      exact ⟨[], n, ns, rfl, rfl, by rw [← h.1]; simp [seqSize]⟩
    | cons y m =>
      rw [List.cons_append, List.cons.injEq] at h
      obtain ⟨rfl, h⟩ := h
      have hb : z ∉ below (pp ++ [c]) (i + 1) n := by
        intro hm
        obtain ⟨c', r', hp⟩ := below_path z hm
        have := congrArg List.length hz
        rw [hp] at this
        simp at this
      obtain ⟨m', rfl, h'⟩ := split_right h hb
      obtain ⟨mid, n', rest, rfl, rfl, rfl⟩ := ih _ _ _ _ _ h' hz
      refine ⟨n :: mid, n', rest, rfl, by rw [pl_cons], ?_⟩
      simp only [seqSize, List.length_cons]
      congr 1
      · omega
      · congr 2; omega

theorem flat_in : ∀ (ns : List (Node M)) (pp : List Nat) (c i : Nat),
    AllOk α true (pl pp c i ns) → NoEnd α (pl pp c i ns) →
    ∃ x ds, RegionSeq true x i ns ds ∧ Agrees α ds ∧ (x = false ↔ NoExit α (pl pp c i ns))
  | [], pp, c, i => fun _ _ => ⟨false, [], .nil _ _, by simp [Agrees], by simp [pl_nil, NoExit]⟩
  | n :: ns, pp, c, i => by
    rw [pl_cons]
    intro hok hne
    obtain ⟨o1, o2⟩ := hok
    obtain ⟨e1, e2⟩ := hne
    cases n with
    | deco t =>
      obtain ⟨x, ds, h1, h2, h3⟩ := flat_in ns pp (c + 1) (i + 1) (o2 rfl) (e2 rfl)
      exact ⟨x, ds, .deco h1, h2, by rw [noExit_cons, h3]; simp [below, Placed.exits, nodeSize]⟩
    | tok t mt =>
      obtain ⟨x, ds, h1, h2, h3⟩ := flat_in ns pp (c + 1) (i + 1) (o2 rfl) (e2 rfl)
      exact ⟨x, _, .tok h1, agrees_cons.mpr ⟨o1, h2⟩,
        by rw [noExit_cons, h3]; simp [below, Placed.exits, nodeSize]⟩
    | group cs mt =>
      have o3 := (allOk_append _ _ _).mp (o2 rfl)
      have e3 := noEnd_append.mp (e2 rfl)
      have es : i + nodeSize (.group cs mt) = i + 1 + seqSize cs := by simp only [nodeSize]; omega
      rw [es] at o3 e3 ⊢
      obtain ⟨x, ds, h1, h2, h3⟩ := flat_in cs (pp ++ [c]) 0 (i + 1) o3.1 e3.1
      cases x with
      | true =>
        refine ⟨true, _, .exitGroup h1, agrees_cons.mpr ⟨o1, h2⟩, ?_⟩
        rw [noExit_cons, noExit_append]
        simp only [below, ← h3]
        simp
      | false =>
        have hn : NoExit α (below (pp ++ [c]) (i + 1) (.group cs mt)) := h3.mp rfl
        have h5 : openFrom α true (below (pp ++ [c]) (i + 1) (.group cs mt)) = true :=
          openFrom_noEnd e3.1 hn
        obtain ⟨x, ds', h1', h2', h3'⟩ := flat_in ns pp (c + 1) (i + 1 + seqSize cs)
          (by have := o3.2 hn; rwa [show ((Placed.mark α ⟨i, pp ++ [c], .group cs mt⟩).getD true)
            = true from rfl, h5] at this) (e3.2 hn)
        refine ⟨x, _, .group h1 h1', agrees_cons.mpr ⟨o1, agrees_append.mpr ⟨h2, h2'⟩⟩, ?_⟩
        rw [noExit_cons, noExit_append, h3']
        simp only [hn, true_and]
        simp [Placed.exits]
    | rstart =>
      have o4 : α ⟨i, .start⟩ = .na := by simpa [Placed.Ok] using o1
      have hm : Placed.mark α ⟨i, pp ++ [c], (.rstart : Node M)⟩ = none := by
        simp [Placed.mark, o4]
      rw [hm] at o2
      obtain ⟨x, ds, h1, h2, h3⟩ := flat_in ns pp (c + 1) (i + 1) (o2 rfl) (e2 rfl)
      exact ⟨x, _, .skipStart h1, agrees_cons.mpr ⟨o4, h2⟩,
        by rw [noExit_cons, h3]; simp [below, Placed.exits, nodeSize]⟩
    | rend =>
      have o4 : α ⟨i, .stop⟩ = .no := by
        have h1 : α ⟨i, .stop⟩ ≠ .na := by simpa [Placed.Ok] using o1
        have h2 : α ⟨i, .stop⟩ ≠ .yes := by simpa [Placed.mark] using e1
        cases hv : α ⟨i, .stop⟩ with
        | no => rfl
        | yes => exact absurd hv h2
        | na => exact absurd hv h1
      have hm : Placed.mark α ⟨i, pp ++ [c], (.rend : Node M)⟩ = none := by
        simp [Placed.mark, o4]
      rw [hm] at o2
      obtain ⟨x, ds, h1, h2, h3⟩ := flat_in ns pp (c + 1) (i + 1) (o2 rfl) (e2 rfl)
      exact ⟨x, _, .skipEnd h1, agrees_cons.mpr ⟨o4, h2⟩,
        by rw [noExit_cons, h3]; simp [below, Placed.exits, nodeSize]⟩
    | exit =>
      have h1 : α ⟨i, .exit⟩ ≠ .na := o1
      cases hv : α ⟨i, .exit⟩ with
      | no =>
        have he : Placed.exits α ⟨i, pp ++ [c], (.exit : Node M)⟩ = false := by
          simp [Placed.exits, hv]
        obtain ⟨x, ds, h1, h2, h3⟩ := flat_in ns pp (c + 1) (i + 1) (o2 he) (e2 he)
        exact ⟨x, _, .skipExit h1, agrees_cons.mpr ⟨hv, h2⟩,
          by rw [noExit_cons, h3]; simp [below, he, nodeSize]⟩
      | yes =>
        have he : Placed.exits α ⟨i, pp ++ [c], (.exit : Node M)⟩ = true := by
          simp [Placed.exits, hv]
        exact ⟨true, _, .exit, agrees_cons.mpr ⟨hv, by simp [Agrees]⟩,
          by rw [noExit_cons]; simp [he]⟩
      | na => exact absurd hv h1

theorem flat_out (N : Nat) : ∀ (ns : List (Node M)) (pp : List Nat) (c i : Nat)
    (tail : List (Placed M)), seqSize ns ≤ N → (∀ z ∈ tail, ¬ pp <+: z.path) →
    AllOk α false (pl pp c i ns) → AllClosed α tail (pl pp c i ns) →
    ∃ x ds, RegionSeq false x i ns ds ∧ Agrees α ds ∧ (x = false ↔ NoExit α (pl pp c i ns)) := by
  induction N with
  | zero =>
    intro ns pp c i tail hN _ _ _
    cases ns with
    | nil => exact ⟨false, [], .nil _ _, by simp [Agrees], by simp [pl_nil, NoExit]⟩
    | cons n ns => cases n <;> simp [seqSize, nodeSize] at hN
  | succ N ih =>
    intro ns pp c i tail hN ht
    cases ns with
    | nil => exact fun _ _ => ⟨false, [], .nil _ _, by simp [Agrees], by simp [pl_nil, NoExit]⟩
    | cons n ns =>
      rw [pl_cons]
      rintro ⟨o1, o2⟩ ⟨e1, e2⟩
      rw [seqSize] at hN
      cases n with
      | deco t =>
        rw [nodeSize] at hN
        obtain ⟨x, ds, h1, h2, h3⟩ := ih ns pp (c + 1) (i + 1) tail (by omega) ht (o2 rfl) (e2 rfl)
        exact ⟨x, ds, .deco h1, h2, by rw [noExit_cons, h3]; simp [below, Placed.exits, nodeSize]⟩
      | tok t mt =>
        rw [nodeSize] at hN
        obtain ⟨x, ds, h1, h2, h3⟩ := ih ns pp (c + 1) (i + 1) tail (by omega) ht (o2 rfl) (e2 rfl)
        exact ⟨x, _, .tok h1, agrees_cons.mpr ⟨o1, h2⟩,
          by rw [noExit_cons, h3]; simp [below, Placed.exits, nodeSize]⟩
      | group cs mt =>
        rw [nodeSize] at hN
        have o3 := (allOk_append _ _ _).mp (o2 rfl)
        have e3 := allClosed_append.mp (e2 rfl)
        have es : i + nodeSize (.group cs mt) = i + 1 + seqSize cs := by simp only [nodeSize]; omega
        rw [es] at o3 e3 ⊢
        obtain ⟨x, ds, h1, h2, h3⟩ := ih cs (pp ++ [c]) 0 (i + 1) _ (by omega) (by
          intro z hz hp
          rcases List.mem_append.mp hz with hz | hz
          · obtain ⟨c', r', hc, hzp⟩ := pl_path ns pp (c + 1) _ z hz
            rw [hzp, List.prefix_append_right_inj] at hp
            simp only [List.cons_prefix_cons] at hp
            omega
          · exact ht z hz ((List.prefix_append pp [c]).trans hp)) o3.1 e3.1
        cases x with
        | true =>
          refine ⟨true, _, .exitGroup h1, agrees_cons.mpr ⟨o1, h2⟩, ?_⟩
          rw [noExit_cons, noExit_append]
          simp only [below, ← h3]
          simp
        | false =>
          have hn : NoExit α (below (pp ++ [c]) (i + 1) (.group cs mt)) := h3.mp rfl
          have h5 : openFrom α false (below (pp ++ [c]) (i + 1) (.group cs mt)) = false :=
            ((grammar_flat h1 h2 (pp ++ [c]) 0).stays rfl).2
          obtain ⟨x, ds', h1', h2', h3'⟩ := ih ns pp (c + 1) (i + 1 + seqSize cs) tail (by omega) ht
            (by have := o3.2 hn; rwa [show ((Placed.mark α ⟨i, pp ++ [c], .group cs mt⟩).getD false)
              = false from rfl, h5] at this) (e3.2 hn)
          refine ⟨x, _, .group h1 h1', agrees_cons.mpr ⟨o1, agrees_append.mpr ⟨h2, h2'⟩⟩, ?_⟩
          rw [noExit_cons, noExit_append, h3']
          simp only [hn, true_and]
          simp [Placed.exits]
      | rend =>
        rw [nodeSize] at hN
        have o4 : α ⟨i, .stop⟩ = .na := by simpa [Placed.Ok] using o1
        have hm : Placed.mark α ⟨i, pp ++ [c], (.rend : Node M)⟩ = none := by
          simp [Placed.mark, o4]
        rw [hm] at o2
        obtain ⟨x, ds, h1, h2, h3⟩ := ih ns pp (c + 1) (i + 1) tail (by omega) ht (o2 rfl) (e2 rfl)
        exact ⟨x, _, .skipEnd h1, agrees_cons.mpr ⟨o4, h2⟩,
          by rw [noExit_cons, h3]; simp [below, Placed.exits, nodeSize]⟩
      | exit =>
        rw [nodeSize] at hN
        have h1 : α ⟨i, .exit⟩ ≠ .na := o1
        cases hv : α ⟨i, .exit⟩ with
        | no =>
          have he : Placed.exits α ⟨i, pp ++ [c], (.exit : Node M)⟩ = false := by
            simp [Placed.exits, hv]
          obtain ⟨x, ds, h1, h2, h3⟩ := ih ns pp (c + 1) (i + 1) tail (by omega) ht (o2 he) (e2 he)
          exact ⟨x, _, .skipExit h1, agrees_cons.mpr ⟨hv, h2⟩,
            by rw [noExit_cons, h3]; simp [below, he, nodeSize]⟩
        | yes =>
          have he : Placed.exits α ⟨i, pp ++ [c], (.exit : Node M)⟩ = true := by
            simp [Placed.exits, hv]
          exact ⟨true, _, .exit, agrees_cons.mpr ⟨hv, by simp [Agrees]⟩,
            by rw [noExit_cons]; simp [he]⟩
        | na => exact absurd hv h1
      | rstart =>
        rw [nodeSize] at hN
        have h1 : α ⟨i, .start⟩ ≠ .na := by simpa [Placed.Ok] using o1
        cases hv : α ⟨i, .start⟩ with
        | na => exact absurd hv h1
        | no =>
          have hm : Placed.mark α ⟨i, pp ++ [c], (.rstart : Node M)⟩ = none := by
            simp [Placed.mark, hv]
          rw [hm] at o2
          obtain ⟨x, ds, h1, h2, h3⟩ := ih ns pp (c + 1) (i + 1) tail (by omega) ht
            (o2 rfl) (e2 rfl)
          exact ⟨x, _, .skipStart h1, agrees_cons.mpr ⟨hv, h2⟩,
            by rw [noExit_cons, h3]; simp [below, Placed.exits, nodeSize]⟩
        | yes =>
          have hm : Placed.mark α ⟨i, pp ++ [c], (.rstart : Node M)⟩ = some true := by
            simp [Placed.mark, hv]
          rw [hm, Option.getD_some] at o2
          replace o2 : AllOk α true (pl pp (c + 1) (i + 1) ns) := o2 rfl
          replace e2 : AllClosed α tail (pl pp (c + 1) (i + 1) ns) := e2 rfl
          obtain ⟨m, z, r, hmz, hmm, hz⟩ := e1 hm
          replace hmz : pl pp (c + 1) (i + 1) ns ++ tail = m ++ z :: r := hmz
          rw [show (⟨i, pp ++ [c], (.rstart : Node M)⟩ : Placed M).path.dropLast = pp by simp] at hz
          have hzp : pp <+: z.path := by
            rcases hz with ⟨-, hz⟩ | ⟨-, hz⟩
            · rw [← hz]; exact List.dropLast_prefix _
            · exact hz
          obtain ⟨r', hP, -⟩ := split_left hmz fun h => ht z h hzp
          have hnm : NoExit α m := fun y hy => (hmm y hy).2
          have hem : NoEnd α m := noEnd_of_mem fun y hy => (hmm y hy).1
          rcases hz with ⟨hz1, hz2⟩ | ⟨hz1, -⟩
          · obtain ⟨mid, n, rest, rfl, rfl, rfl⟩ := pl_split _ _ _ _ _ _ hP hz2
            have hn : n = .rend := by
              cases n <;> simp [Placed.mark] at hz1 ⊢
            subst hn
            have hstop : α ⟨i + 1 + seqSize mid, .stop⟩ = .yes := by
              simpa [Placed.mark] using hz1
            rw [pl_append, pl_cons] at o2 e2 hP ⊢
            have o3 := (allOk_append _ _ _).mp o2
            have e3 := (allClosed_append.mp e2).2 hnm
            obtain ⟨o4, o5⟩ := o3.2 hnm
            rw [hz1, Option.getD_some] at o5
            obtain ⟨x, ds, h1, h2, h3⟩ := flat_in mid pp (c + 1) (i + 1) o3.1 hem
            obtain rfl : x = false := h3.mpr hnm
            rw [seqSize_append, seqSize, nodeSize] at hN
            obtain ⟨x, ds', h1', h2', h3'⟩ := ih rest pp (c + 1 + mid.length + 1)
              (i + 1 + seqSize mid + 1) tail (by omega) ht (o5 rfl) (e3.2 rfl)
            refine ⟨x, _, .region h1 h1', agrees_cons.mpr ⟨hv, agrees_append.mpr ⟨h2,
              agrees_cons.mpr ⟨hstop, h2'⟩⟩⟩, ?_⟩
            rw [h3']
            simp only [below, List.nil_append, nodeSize, noExit_cons, noExit_append, hnm, true_and]
            simp [Placed.exits]
          · have hzm : z.mark α ≠ some false := by
              intro h
              cases hzn : z.node <;> simp [Placed.mark, Placed.exits, hzn] at h hz1
            have hne : NoEnd α (pl pp (c + 1) (i + 1) ns) := by
              rw [hP, noEnd_append]
              exact ⟨hem, fun _ => ⟨hzm, by simp [hz1]⟩⟩
            obtain ⟨x, ds, h1, h2, h3⟩ := flat_in ns pp (c + 1) (i + 1) o2 hne
            have hx : ¬ NoExit α (pl pp (c + 1) (i + 1) ns) := by
              intro h
              rw [hP] at h
              have := h z (by simp)
              rw [hz1] at this
              simp at this
            have : x = true := by
              cases x with
              | true => rfl
              | false => exact absurd (h3.mp rfl) hx
            subst this
            refine ⟨true, _, .exitRegion h1, agrees_cons.mpr ⟨hv, h2⟩, ?_⟩
            simp only [below, List.nil_append, nodeSize, noExit_cons, hx, and_false]
            simp

/-! ### Which decisions are made -/

/-- The keys of the nodes up to the exit. -/
def keysUpTo (α : DecisionKey → DecisionValue) : List (Placed M) → List DecisionKey
  | [] => []
  | x :: l => x.key.toList ++ if x.exits α then [] else keysUpTo α l

theorem keysUpTo_append {l r : List (Placed M)} (h : NoExit α l) :
    keysUpTo α (l ++ r) = l.filterMap Placed.key ++ keysUpTo α r := by
  induction l with
  | nil => rfl
  | cons x l ih =>
    obtain ⟨h1, h2⟩ := noExit_cons.mp h
    simp only [List.cons_append, keysUpTo, h1, Bool.false_eq_true, if_false, ih h2,
      List.filterMap_cons]
    cases x.key <;> simp

theorem keysUpTo_noExit {l : List (Placed M)} (h : NoExit α l) :
    keysUpTo α l = l.filterMap Placed.key := by
  have := keysUpTo_append (r := []) h
  simpa [keysUpTo] using this

theorem keysUpTo_append_exit {l r : List (Placed M)} (h : ¬ NoExit α l) :
    keysUpTo α (l ++ r) = keysUpTo α l := by
  induction l with
  | nil => exact absurd (by simp [NoExit]) h
  | cons x l ih =>
    rw [noExit_cons] at h
    simp only [List.cons_append, keysUpTo]
    cases hx : x.exits α with
    | true => rfl
    | false =>
      rw [ih fun h' => h ⟨hx, h'⟩]

theorem filterMap_key_pl : ∀ (ns : List (Node M)) (pp : List Nat) (c i : Nat),
    (pl pp c i ns).filterMap Placed.key = seqKeys i ns
  | [], _, _, _ => by simp [pl_nil, seqKeys]
  | n :: ns, pp, c, i => by
    rw [pl_cons, List.filterMap_cons, seqKeys, List.filterMap_append,
      filterMap_key_pl ns pp (c + 1) (i + nodeSize n)]
    cases n with
    | group cs mt =>
      simp only [Placed.key, below, nodeKeys, filterMap_key_pl cs, List.cons_append]
    | _ => simp [Placed.key, below, nodeKeys]

theorem not_noExit {b : Bool} {P : List (Placed M)} (h : FlatFacts α b true P) : ¬ NoExit α P := by
  obtain ⟨l, z, r, rfl, -, h2⟩ := h.leaves rfl
  intro h
  have := h z (by simp)
  rw [h2] at this
  simp at this

theorem seqKeys_append (ms ns : List (Node M)) (i : Nat) :
    seqKeys i (ms ++ ns) = seqKeys i ms ++ seqKeys (i + seqSize ms) ns := by
  induction ms generalizing i with
  | nil => simp [seqKeys, seqSize]
  | cons m ms ih => simp [seqKeys, seqSize, ih, Nat.add_assoc]

theorem grammar_keys {b x : Bool} {i : Nat} {ns : List (Node M)} {ds : List Decision}
    (h : RegionSeq b x i ns ds) : Agrees α ds → ∀ (pp : List Nat) (c : Nat),
    ds.map Prod.fst = keysUpTo α (pl pp c i ns) := by
  induction h with
  | nil b i => intro _ pp c; rfl
  | deco _ ih =>
    intro ha pp c
    rw [pl_cons, ih ha pp (c + 1)]
    rfl
  | tok _ ih =>
    intro ha pp c
    rw [agrees_cons] at ha
    rw [pl_cons, List.map_cons, ih ha.2 pp (c + 1)]
    rfl
  | @group b x i cs mt ns ds ds' h1 h2 ih1 ih2 =>
    intro ha pp c
    rw [List.cons_append, agrees_cons, agrees_append] at ha
    have f := grammar_flat h1 ha.2.1 (pp ++ [c]) 0
    have e : i + nodeSize (.group cs mt) = i + 1 + seqSize cs := by simp only [nodeSize]; omega
    rw [pl_cons, e, List.cons_append, List.map_cons, List.map_append, ih1 ha.2.1 (pp ++ [c]) 0,
      ih2 ha.2.2 pp (c + 1), keysUpTo_noExit (f.stays rfl).1, keysUpTo]
    simp only [below]
    rw [keysUpTo_append (f.stays rfl).1]
    rfl
  | skipStart _ ih =>
    intro ha pp c
    rw [agrees_cons] at ha
    rw [pl_cons, List.map_cons, ih ha.2 pp (c + 1)]
    rfl
  | skipEnd _ ih =>
    intro ha pp c
    rw [agrees_cons] at ha
    rw [pl_cons, List.map_cons, ih ha.2 pp (c + 1)]
    rfl
  | skipExit _ ih =>
    intro ha pp c
    rw [agrees_cons] at ha
    rw [pl_cons, List.map_cons, ih ha.2 pp (c + 1)]
    simp [keysUpTo, Placed.key, Placed.exits, ha.1, below, nodeSize]
  | exit =>
    intro ha pp c
    rw [agrees_cons] at ha
    rw [pl_cons]
    simp [keysUpTo, Placed.key, Placed.exits, ha.1]
  | @exitGroup b i cs mt ns ds h1 ih =>
    intro ha pp c
    rw [agrees_cons] at ha
    have f := grammar_flat h1 ha.2 (pp ++ [c]) 0
    rw [pl_cons, List.map_cons, ih ha.2 (pp ++ [c]) 0, keysUpTo]
    simp only [below]
    rw [keysUpTo_append_exit (not_noExit f)]
    rfl
  | @region x i mid ns ds ds' h1 h2 ih1 ih2 =>
    intro ha pp c
    rw [List.cons_append, agrees_cons, agrees_append, agrees_cons] at ha
    obtain ⟨a1, a2, a3, a4⟩ := ha
    have f := grammar_flat h1 a2 pp (c + 1)
    simp only [List.cons_append]
    rw [pl_cons, pl_append, pl_cons, List.map_cons, List.map_append, List.map_cons, ih1 a2 pp (c + 1), ih2 a4 pp (c + 1 + mid.length + 1),
      keysUpTo_noExit (f.stays rfl).1, keysUpTo]
    simp only [below, List.nil_append, nodeSize]
    rw [keysUpTo_append (f.stays rfl).1]
    rfl
  | exitRegion _ ih =>
    intro ha pp c
    rw [agrees_cons] at ha
    rw [pl_cons, List.map_cons, ih ha.2 pp (c + 1)]
    rfl

theorem first_exit {P : List (Placed M)} (h : ¬ NoExit α P) :
    ∃ l z r, P = l ++ z :: r ∧ NoExit α l ∧ z.exits α = true := by
  induction P with
  | nil => exact absurd (by simp [NoExit]) h
  | cons x P ih =>
    cases hx : x.exits α with
    | true => exact ⟨[], x, P, rfl, by simp [NoExit], hx⟩
    | false =>
      rw [noExit_cons] at h
      obtain ⟨l, z, r, rfl, h1, h2⟩ := ih fun h' => h ⟨hx, h'⟩
      exact ⟨x :: l, z, r, rfl, noExit_cons.mpr ⟨hx, h1⟩, h2⟩

theorem lookup_of_mem {ds : List Decision} (hn : (ds.map Prod.fst).Nodup) {k : DecisionKey}
    {v : DecisionValue} (h : (k, v) ∈ ds) : ds.lookup k = some v := by
  induction ds with
  | nil => simp at h
  | cons d ds ih =>
    obtain ⟨k', v'⟩ := d
    rw [List.map_cons, List.nodup_cons] at hn
    rw [List.lookup_cons]
    rcases List.mem_cons.mp h with h | hd
    · obtain ⟨rfl, rfl⟩ := Prod.mk.injEq .. ▸ h
      simp
    · have : k ≠ k' := by
        rintro rfl
        exact hn.1 (List.mem_map.mpr ⟨_, hd, rfl⟩)
      simp only [beq_eq_false_iff_ne.mpr this]
      exact ih hn.2 hd

theorem lookup_not_mem {ds : List Decision} {k : DecisionKey} (h : k ∉ ds.map Prod.fst) :
    ds.lookup k = none := by
  rw [List.lookup_eq_none_iff]
  rintro ⟨k', v⟩ hp
  simp only [bne_iff_ne]
  rintro rfl
  exact h (List.mem_map_of_mem (f := Prod.fst) hp)

theorem inRegionAfter_eq (l : List (Placed M)) : inRegionAfter α l = openFrom α false l :=
  (openFrom_eq false l).symm

/-- The grammar and the declarative description agree. -/
theorem validRegions_iff (proto : List (Node M)) :
    ValidRegions proto α ↔ WellFormedRegions α proto := by
  have hkeys : (placed proto).filterMap Placed.key = seqKeys 0 proto := by
    rw [placed_eq, filterMap_key_pl]
  have hnd : (seqKeys 0 proto).Nodup := (seqKeys_sorted proto 0).imp fun h => ne_of_lt h
  constructor
  · rintro ⟨x, ds, h, hα⟩
    obtain ⟨hpre, -⟩ := regionSeq_keys h
    have hnd' : (ds.map Prod.fst).Nodup := hnd.sublist hpre.sublist
    have ha : Agrees α ds := by
      rintro ⟨k, v⟩ hkv
      have hk : k ∈ seqKeys 0 proto := hpre.subset (List.mem_map_of_mem (f := Prod.fst) hkv)
      rw [hα k hk, decided, lookup_of_mem hnd' hkv]
      rfl
    have f := grammar_flat h ha [] 0
    rw [← placed_eq] at f
    refine ⟨fun l x r hP hn => ?_, (allClosed_iff _).mp f.closed, fun l z r hP hn hz y hy k hk => ?_⟩
    · rw [inRegionAfter_eq]
      exact (allOk_iff _ _).mp f.ok l x r hP hn
    · have hks := grammar_keys h ha [] 0
      rw [← placed_eq, hP, keysUpTo_append hn, keysUpTo, hz, if_pos rfl, List.append_nil] at hks
      have hkr : k ∈ r.filterMap Placed.key := List.mem_filterMap.mpr ⟨y, hy, hk⟩
      rw [hP, List.filterMap_append, List.filterMap_cons] at hkeys
      have hkm : k ∈ seqKeys 0 proto := by
        rw [← hkeys, List.mem_append]
        right
        cases z.key <;> simp [hkr]
      have hnk : k ∉ ds.map Prod.fst := by
        intro hm
        rw [hks] at hm
        have e : seqKeys 0 proto
            = (l.filterMap Placed.key ++ z.key.toList) ++ r.filterMap Placed.key := by
          rw [← hkeys]
          cases z.key <;> simp
        rw [e, List.nodup_append] at hnd
        exact hnd.2.2 k hm k hkr rfl
      rw [hα k hkm, decided, lookup_not_mem hnk]
      rfl
  · rintro ⟨h1, h2, h3⟩
    have hok : AllOk α false (pl [] 0 0 proto) := by
      rw [allOk_iff]
      intro l x r hP hn
      have := h1 l x r hP hn
      rwa [inRegionAfter_eq] at this
    obtain ⟨x, ds, hs, ha, hx⟩ := flat_out (seqSize proto) proto [] 0 0 [] (le_refl _) (by simp)
      hok ((allClosed_iff _).mpr h2)
    obtain ⟨hpre, hfull⟩ := regionSeq_keys hs
    have hnd' : (ds.map Prod.fst).Nodup := hnd.sublist hpre.sublist
    refine ⟨x, ds, hs, fun k hk => ?_⟩
    by_cases hkd : k ∈ ds.map Prod.fst
    · obtain ⟨⟨k', v⟩, hm, rfl⟩ := List.mem_map.mp hkd
      rw [ha _ hm, decided, lookup_of_mem hnd' hm]
      rfl
    · rw [decided, lookup_not_mem hkd]
      cases x with
      | false => exact absurd (by rw [hfull rfl]; exact hk) hkd
      | true =>
        obtain ⟨l, z, r, hP, hn, hz⟩ := first_exit (α := α) fun h => by simpa using hx.mpr h
        have hks := grammar_keys hs ha [] 0
        rw [hP, keysUpTo_append hn, keysUpTo, hz, if_pos rfl, List.append_nil] at hks
        rw [← placed_eq] at hP
        rw [hP, List.filterMap_append, List.filterMap_cons] at hkeys
        rw [← hkeys] at hk
        have hkr : k ∈ r.filterMap Placed.key := by
          rw [hks] at hkd
          cases hzk : z.key with
          | none =>
            rw [hzk] at hkd hk
            simp only [Option.toList, List.append_nil] at hkd
            rcases List.mem_append.mp hk with hk | hk
            · exact absurd hk hkd
            · exact hk
          | some k' =>
            rw [hzk] at hkd hk
            simp only [Option.toList, List.mem_append, List.mem_cons, not_or] at hkd hk
            rcases hk with hk | hk | hk
            · exact absurd hk hkd.1
            · exact absurd hk hkd.2.1
            · exact hk
        obtain ⟨y, hy, hyk⟩ := List.mem_filterMap.mp hkr
        exact h3 l z r hP hn hz y hy k hyk

end

end RUSure.Lemmas
