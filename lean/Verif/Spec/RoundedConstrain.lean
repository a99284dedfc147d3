import Verif.Model.RoundedConstrain
import Verif.Spec.RoundedDual

/-!
# Specification vocabulary for constraints and noise in machine arithmetic
-/

namespace RUSure.Spec
open RUSure RUSure.Rounded

/-- Adding zero does not round, and dividing by a count has a relative error of `u` and an underflow
error of `τ`. -/
structure AccurateShares (A : Arith) (F : ℚ → Prop) (u τ limit : ℚ) : Prop where
  zero_add : ∀ a : ℚ, F a → |a| ≤ limit → A.add ((0 : ℚ) : Cost) a = a
  div : ∀ (a : ℚ) (n : ℕ), F a → |a| ≤ limit → 0 < n →
    F (A.div a n) ∧ |A.div a n - a / n| ≤ u * |a / n| + τ

/-- How a new system is prepared before its variables are averaged: not at all, with constraints (a
dictionary, so with different keys) for a penalty that is infinite or at most `X`, or with noise of
at most `X`. -/
inductive Prepared {K V : Type} [DecidableEq K] [DecidableEq V] (A : Arith) (F : ℚ → Prop) (X : ℚ)
    (D : DualSystem K V) : DualSystem K V → Prop
  | plain : Prepared A F X D D
  | constrained (penalty : Cost) (cs : List (K × V)) (D' : DualSystem K V)
    (hp : ∀ q : ℚ, penalty = q → F q ∧ |q| ≤ X) (hk : (cs.map Prod.fst).Nodup)
    (he : constrain A penalty cs D = some D') : Prepared A F X D D'
  | noisy (noise : Nat → Nat → ℚ) (hn : ∀ v x, F (noise v x) ∧ |noise v x| ≤ X) :
    Prepared A F X D { D with data := breakSymmetry A D.data noise }

end RUSure.Spec
