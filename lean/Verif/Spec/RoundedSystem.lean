import Verif.Model.RoundedSystem
import Verif.Spec.RoundedGreedy
import Verif.Spec.System

/-!
# Specification vocabulary for systems built in machine arithmetic
-/

namespace RUSure.Spec
open RUSure RUSure.Rounded

/-- The weight of each target: as given, or the machine's `1 / n` for all. -/
def machineWeights (A : Arith) (n : Nat) (factors : Option (List ℚ)) : List ℚ :=
  factors.getD (List.replicate n (A.div 1 (n : ℚ)))

/-- Scale factors that `build_system` can work with: there is a target, and the machine's weights and
their sum are positive. -/
structure MachineFactors {T : Type} (A : Arith) (total : List ℚ → ℚ) (targets : List T)
    (factors : Option (List ℚ)) : Prop where
  nonempty : factors = none → targets ≠ []
  positive : ∀ f ∈ machineWeights A targets.length factors, 0 < f
  total : 0 < total (machineWeights A targets.length factors)

/-- Scale factors for `float64`: none for at most `2^50` targets, or positive `float64` numbers that are
not too many and not too large. -/
structure FloatFactors {T : Type} (targets : List T) (factors : Option (List ℚ)) : Prop where
  uniform : factors = none → targets ≠ [] ∧ targets.length ≤ 2 ^ 50
  given : ∀ fs, factors = some fs → fs ≠ [] ∧ fs.length ≤ 2 ^ 50 ∧ (∀ f ∈ fs, IsFloat64 f ∧ 0 < f)
    ∧ 8 * fs.sum ≤ 2 ^ 1023

/-- A way to add up `float64` numbers that gives a positive `float64` number of at most twice the exact
sum. -/
def SoundSum (total : List ℚ → ℚ) : Prop :=
  ∀ fs : List ℚ, fs ≠ [] → fs.length ≤ 2 ^ 50 → (∀ f ∈ fs, IsFloat64 f ∧ 0 < f) →
    8 * fs.sum ≤ 2 ^ 1023 → IsFloat64 (total fs) ∧ 0 < total fs ∧ total fs ≤ 2 * fs.sum

/-- Finite costs are in `F` and can be multiplied by the scale `s`; complete paths have at most `n`
edges; the scaled absolute costs along a complete path add up to at most `size`. -/
structure ScaleInRange (F : ℚ → Prop) (limit : ℚ) (d : PackedDag) (s : ℚ) (n : Nat) (size : ℚ) :
    Prop where
  member : ∀ e ∈ d.edges, ∀ x : ℚ, e.cost = x → F x ∧ |x * s| ≤ limit
  length : ∀ p, Complete d p → p.length ≤ n
  total : ∀ p, Complete d p → ∀ l : List ℚ, p.map PackedEdge.cost = l.map (fun x : ℚ => (x : Cost)) →
    (l.map fun x => |x * s|).sum ≤ size

/-- This holds for all DAGs of a system. -/
structure PartsInRange {S I : Type} (F : ℚ → Prop) (limit : ℚ) (B : BuiltSystem S I) (n : Nat)
    (size : ℚ) : Prop where
  utilities : ∀ p ∈ B.utilities, ScaleInRange F limit p.conversion.packed p.scale n size
  constraint : ScaleInRange F limit B.constraint.conversion.packed B.constraint.scale n size

/-- The error of scaling the costs of `N` DAGs. -/
def scaleError (u τ : ℚ) (N n : Nat) (size : ℚ) : ℚ := N * (u * size + n * τ)

/-- The number of DAGs of a system: one for each target, and the constraint DAG. -/
def dagCount {S I : Type} (B : BuiltSystem S I) : Nat := B.utilities.length + 1

/-- The variables `vs` of the system are averaged one after the other, the machine's shares add up to
one up to `η`, and all numbers stay in range (see `ScaleInRange` and `StepInRange`). -/
structure SolvesInRange {S I : Type} (A : Arith) (F : ℚ → Prop) (u τ η limit : ℚ)
    (B : BuiltSystem S I) (vs : List Nat) (n : Nat) (size M : ℚ) : Prop where
  vars : ∀ v ∈ vs, v < B.system.data.numKeys
  shares : ∀ v ∈ vs, FairShares A B.system.data v η
  parts : PartsInRange F limit B n size
  run : RunInRange A F n M 0 vs B.system.data
  limit : rangeNeeded u η τ (dagCount B) n M 0 ≤ limit

/-- The numbers that greedy extraction adds up are in range. -/
structure ExtractsInRange {S I : Type} (F : ℚ → Prop) (u limit : ℚ) (B : BuiltSystem S I) (D : System)
    (n : Nat) (M : ℚ) : Prop where
  subs : ∀ s ∈ D.subs, InRange F s.memo.dag s.memo.pen n M
  limit : (1 + u) ^ (2 * n + 1 + dagCount B) * (dagCount B * M) ≤ limit

/-- A bound for the numbers added up along a path after `t` averaging steps, if the costs along a path
add up to at most `C` and there are `N` DAGs. -/
def pathSize (u η τ : ℚ) (N n : Nat) (C : ℚ) : Nat → ℚ
  | 0 => C
  | t + 1 => C + n * ((1 + u) * rangeNeeded u η τ N n (pathSize u η τ N n C t) 0)

/-- Edge by edge: a finite cost is in `F`, and scaled it has at most size `c`. There are at most `n`
states after the first one. -/
structure PartBounded {S I : Type} (F : ℚ → Prop) (p : Part S I) (n : Nat) (c : ℚ) : Prop where
  member : ∀ e ∈ p.conversion.packed.edges, ∀ x : ℚ, e.cost = x → F x ∧ |x * p.scale| ≤ c
  states : p.conversion.packed.numStates ≤ n + 1

/-- `P` holds for the costs of all steps of an edit script: of steps without cost, of starting a region
or an edit, of deleting or keeping a token of the prototype and of inserting a token of the target. -/
structure StepCosts {M : Type} (P : ℚ → Prop) (prm : Params) (proto target : List (Node M)) : Prop where
  zero : P 0
  region : P prm.regionCost
  highStart : P prm.highStart
  lowStart : P prm.lowStart
  delete : ∀ txt mt, Occurs proto (.tok txt mt) →
    P (prm.highDelete * txt.length) ∧ P (prm.lowDelete * txt.length)
  keep : ∀ txt mt, Occurs proto (.tok txt mt) →
    P (-(prm.highMatch * txt.length)) ∧ P (-(prm.lowMatch * txt.length))
  insert : ∀ txt mt, Occurs target (.tok txt mt) → P (prm.insertCost * txt.length)

/-- `P` holds for the costs of all steps of a selection: of steps without cost, of finding a selected
token and of not finding it. -/
structure LookupCosts {M : Type} (P : ℚ → Prop) (f : SelUtility M) (proto : List (Node M)) : Prop where
  zero : P 0
  found : ∀ txt mt, Occurs proto (.tok txt mt) → P (-f.matchUtility txt mt)
  missed : ∀ txt mt, Occurs proto (.tok txt mt) → P (f.deleteCost txt mt)

/-- A bound for the number of states of a packed edit DAG, for a prototype with `P` nodes and `K`
decisions and a target with `T` nodes. -/
def editStates (P K T : Nat) : Nat := (22 * ((2 * P + 1) * (2 * T + 1)) + 2) * (K + 1)

/-- A bound for the number of states of a packed selection DAG. -/
def selectionStates (P K T : Nat) : Nat := ((20 * P + 1) * (2 * T + 1) + 1) * (K + 1)

/-- A bound for the number of states of a packed constraint DAG. -/
def constraintStates (P K : Nat) : Nat := (4 * P ^ 2 + 2) * (K + 1)

/-- By how much a reported bound may exceed the cost of decisions: the penalties of the variables may
be out of balance, and there are the errors of adding up and of scaling costs. -/
def boundError {S I : Type} (u η τ : ℚ) (B : BuiltSystem S I) (n : Nat) (size M : ℚ) : ℚ :=
  (B.system.data.numKeys - 1) * imbalance u η τ (dagCount B) n M 0 + sumError u (dagCount B) n M 0
    + scaleError u τ (dagCount B) n size

/-- By how much the cost returned by greedy extraction may differ from the true one. -/
def suggestionError {S I : Type} (u η τ : ℚ) (B : BuiltSystem S I) (n : Nat) (size M M' : ℚ) : ℚ :=
  extractError u η τ (dagCount B) B.system.data.numKeys n M 0 M' + scaleError u τ (dagCount B) n size

/-- For `float64`: by how much the shares of a variable may differ from one together. -/
def floatShares {S I : Type} (B : BuiltSystem S I) : ℚ := (dagCount B + 2) / 2 ^ 52

/-- For `float64`: the numbers added up along a path of at most `n` edges with scaled costs of at most
`c` in at most `T` steps. -/
def floatSize {S I : Type} (B : BuiltSystem S I) (n : Nat) (c : ℚ) (T : Nat) : ℚ :=
  pathSize (1 / 2 ^ 53) (floatShares B) (2 ^ (-1075 : ℤ)) (dagCount B) n
    ((1 + 1 / 2 ^ 53) * (n * c) + n * 2 ^ (-1075 : ℤ)) T

/-- For `float64`: the largest intermediate result. -/
def floatRange {S I : Type} (B : BuiltSystem S I) (n : Nat) (c : ℚ) (T : Nat) : ℚ :=
  rangeNeeded (1 / 2 ^ 53) (floatShares B) (2 ^ (-1075 : ℤ)) (dagCount B) n (floatSize B n c T) 0

/-- For `float64`: by how much a reported bound may exceed the cost of decisions. -/
def floatBoundError {S I : Type} (B : BuiltSystem S I) (n : Nat) (c : ℚ) (T : Nat) : ℚ :=
  boundError (1 / 2 ^ 53) (floatShares B) (2 ^ (-1075 : ℤ)) B n (n * c) (floatSize B n c T)

/-- For `float64`: by how much the cost returned by greedy extraction may differ from the true one. -/
def floatCostError {S I : Type} (B : BuiltSystem S I) (n : Nat) (c : ℚ) (T : Nat) : ℚ :=
  suggestionError (1 / 2 ^ 53) (floatShares B) (2 ^ (-1075 : ℤ)) B n (n * c) (floatSize B n c T)
    (floatSize B n c T)

/-- An explicit bound of `floatSize`. -/
def sizeBound (N n : Nat) (c : ℚ) (T : Nat) : ℚ := (16 * N * n + 1) ^ T * (2 * n * c + 3 * n)

/-- An explicit bound of `floatBoundError` and `floatCostError`, for `N` DAGs and `k` variables. -/
def errorBound (N k n : Nat) (c : ℚ) (T : Nat) : ℚ :=
  N * sizeBound N n c T * (k * (6 * N + 20) + 2 * n + N + 4) / 2 ^ 52 + N * (2 * k + n) * 2 ^ (-1075 : ℤ)

end RUSure.Spec
