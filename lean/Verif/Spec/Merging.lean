import Verif.Spec.Bayes
import Mathlib.Algebra.Order.Field.Basic

/-!
# Merging and renumbering the states of a finite process

`φ` says which of the new states every old state belongs to. Nothing in this file mentions the model of
the C++ code.
-/

namespace BFL.Spec

open Finset

variable {K : Type} [Field K]

/-- Probability of the new state `X`: all old states that belong to it together. -/
def mergedMass (n : Nat) (φ : Nat → Nat) (p : Nat → K) (X : Nat) : K :=
  ∑ x ∈ range n, if φ x = X then p x else 0

/-- Old states that belong to the same new state behave alike. A move: the probability of getting into
the new state `Y` is the same from all of them, namely what the new description says. A reading: it is
as likely in the old state as in the new one, up to a factor that does not depend on the state. -/
def Step.Merges [LT K] (n m : Nat) (φ : Nat → Nat) : Step K → Step K → Prop
  | .move T, .move T' => ∀ x < n, ∀ Y < m, mergedMass n φ (fun y => T y x) Y = T' Y (φ x)
  | .observe L, .observe L' => ∃ c : K, 0 < c ∧ ∀ x < n, L x = c * L' (φ x)
  | _, _ => False

end BFL.Spec
