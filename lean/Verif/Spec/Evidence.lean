import Verif.Spec.Bayes
import Mathlib.Algebra.BigOperators.Group.List.Basic
import Mathlib.Algebra.Order.Field.Basic

/-!
# What readings tell

Nothing in this file mentions the model of the C++ code.
-/

namespace BFL.Spec

variable {K : Type} [Field K] [LinearOrder K]

/-- Two histories tell the same about a process on the states `0, ..., n-1`: the moves are the same,
and between two moves the products of the likelihoods of all readings agree up to a positive
factor. In particular readings may be permuted, scaled and combined into one. -/
inductive SameEvidence (n : Nat) : List (Step K) → List (Step K) → Prop
  | nil : SameEvidence n [] []
  | move (T : Nat → Nat → K) {ss ss' : List (Step K)} (h : SameEvidence n ss ss') :
      SameEvidence n (.move T :: ss) (.move T :: ss')
  | readings (Ls Ls' : List (Nat → K)) (c : K) (hc : 0 < c)
      (hL : ∀ x < n, (Ls.map fun L => L x).prod = c * (Ls'.map fun L => L x).prod)
      {ss ss' : List (Step K)} (h : SameEvidence n ss ss') :
      SameEvidence n (Ls.map .observe ++ ss) (Ls'.map .observe ++ ss')

end BFL.Spec
