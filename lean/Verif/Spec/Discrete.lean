import Mathlib.Algebra.Order.Field.Basic
import Mathlib.Algebra.BigOperators.Group.List.Basic

/-!
# What "probability distribution" and "sampling by inversion" mean

Nothing in this file mentions the model of the C++ code.
-/

namespace BFL.Spec

variable {K : Type} [Field K] [LinearOrder K]

/-- A list of numbers is a probability distribution: no entry is negative, the total is one. -/
def IsDistribution (p : List K) : Prop := (∀ x ∈ p, 0 ≤ x) ∧ p.sum = 1

/-- Probability mass of all states strictly before state `i`. -/
def massBelow (p : List K) (i : Nat) : K := (p.take i).sum

/-- State `i` is the inverse of the cumulative distribution at `u`: the mass below `i` is less than
`u`, and adding the mass of `i` reaches `u`. -/
def Inverts (p : List K) (u : K) (i : Nat) : Prop :=
  i < p.length ∧ massBelow p i < u ∧ u ≤ massBelow p (i + 1)

/-- `v` is proportional to `w` with a positive factor. -/
def Proportional (v w : List K) : Prop := ∃ c : K, 0 < c ∧ v = w.map (c * ·)

end BFL.Spec
