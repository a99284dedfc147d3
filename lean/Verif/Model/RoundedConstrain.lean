import Verif.Model.RoundedDual

/-!
# `constrain_system` and `break_symmetry_randomly` of `consistent_path_dual_solver.py` in machine arithmetic

`Model/Dual.lean` has the same functions with exact rational costs.
-/

namespace RUSure.Rounded

variable (A : Arith)

/-- `consistent_path_dual_solver.py:1074`: `penalty_vector / num_relevant`; `inf` stays `inf`. -/
def divide (c : Cost) (n : Nat) : Cost := c.map fun q => A.div q n

/-- `consistent_path_dual_solver.py:1053-1080` and `1119-1146`: adding extra costs for one variable,
divided evenly among the subproblems that assign it. -/
def addUnary (S : System) (v : Nat) (p : Nat → Cost) : System :=
  { S with
    extra := fun u x => if u = v then A.add (S.extra u x) (p x) else S.extra u x
    subs := S.subs.map fun s =>
      match s.index v with
      | none => s
      | some k =>
        let p' := fun x => A.add (s.memo.pen k x) (divide A (p x) (S.numRelevant v))
        { s with memo := s.memo.setPenalties k p' } }

/-- `consistent_path_dual_solver.py:1028-1080` `constrain_system`; `none` is a `KeyError`. -/
def constrain {K V : Type} [DecidableEq K] [DecidableEq V] (penalty : Cost) :
    List (K × V) → DualSystem K V → Option (DualSystem K V)
  | [], D => some D
  | (k, x) :: cs, D =>
    match dictIndex D.keys k, dictIndex D.values x with
    | some v, some i =>
      constrain penalty cs { D with data := addUnary A D.data v (setEntry (fun _ => penalty) i 0) }
    | _, _ => none

/-- `consistent_path_dual_solver.py:1083-1146` `break_symmetry_randomly`; `noise v` is the random
vector drawn for variable `v`. -/
def breakSymmetry (S : System) (noise : Nat → Nat → ℚ) : System :=
  (List.range S.numKeys).foldl (fun S v => addUnary A S v (fun x => (noise v x : Cost))) S

end RUSure.Rounded
