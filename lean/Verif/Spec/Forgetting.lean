import Verif.Spec.Bayes
import Mathlib.Algebra.Order.AbsoluteValue.Basic

/-!
# Distance of two distributions on finitely many states, and moves that mix

Nothing in this file mentions the model of the C++ code.
-/

namespace BFL.Spec

open Finset

variable {K : Type} [Field K] [LinearOrder K]

/-- Total variation distance: the largest difference of the probabilities of an event. -/
def totalVariation (n : Nat) (p q : Nat → K) : K := (∑ x ∈ range n, |p x - q x|) / 2

/-- Up to the factor `σ` all states move alike: the probability of going to `y` is between `σ v y`
and `v y` whatever the present state. -/
def Mixes (n : Nat) (σ : K) (T : Nat → Nat → K) : Prop :=
  ∃ v : Nat → K, ∀ y < n, ∀ x < n, σ * v y ≤ T y x ∧ T y x ≤ v y

/-- All moves of a history mix. -/
def Step.MixesBy (n : Nat) (σ : K) : Step K → Prop
  | .move T => Mixes n σ T
  | .observe _ => True

end BFL.Spec
