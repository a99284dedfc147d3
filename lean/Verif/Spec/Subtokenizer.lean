import Verif.Model.Subtokenizer

/-!
# Specification of simple tokens (`subtokenizer.py:38-68` docstring)
-/

namespace RUSure.Spec
open RUSure

/-- The shape of a simple token: all characters of one class, or an upper-case letter followed by
lower-case letters. -/
def TokenShape (K : CharClass) (t : Text) : Prop :=
  (∃ k, ∀ c ∈ t, K.state c = k)
  ∨ ∃ u ls, t = u :: ls ∧ K.state u = .upper ∧ ∀ c ∈ ls, K.state c = .lower

/-- Whitespace never shares a token with another character, except in runs of one repeated space or
tab of length at most 20. -/
def SpaceShape (K : CharClass) (t : Text) : Prop :=
  (∀ c ∈ t, K.isSpace c = true → ∀ d ∈ t, d = c)
  ∧ (∀ c ∈ t, K.isSpace c = true → t.length ≤ 20)
  ∧ (∀ c ∈ t, K.isSpace c = true → t.length = 1 ∨ c = ' ' ∨ c = '\t')

/-- The runtime facts about the character predicates used for the whitespace part: blanks and tabs
are whitespace, and whitespace characters are neither letters nor digits. -/
structure _root_.RUSure.CharClass.Sane (K : CharClass) : Prop where
  blank : K.isSpace ' ' = true
  tab : K.isSpace '\t' = true
  special : ∀ c, K.isSpace c = true → K.state c = .special

/-- Why two neighbouring tokens `a`, `b` were not kept together. -/
def SplitReason (K : CharClass) (a b : Text) : Prop :=
  ∃ a' x y b', a = a' ++ [x] ∧ b = y :: b' ∧
    ((K.state x ≠ K.state y ∧ ¬ (K.state x = .upper ∧ K.state y = .lower))
     ∨ (K.state x = .upper ∧ K.state y = .upper ∧ ∃ z b'', b' = z :: b'' ∧ K.state z = .lower)
     ∨ (K.state x = .special ∧ K.state y = .special ∧
        ((x = y ∧ (y = ' ' ∨ y = '\t') ∧ 20 ≤ a.length)
         ∨ (¬ (x = y ∧ (y = ' ' ∨ y = '\t')) ∧ (K.isSpace x = true ∨ K.isSpace y = true)))))

end RUSure.Spec
