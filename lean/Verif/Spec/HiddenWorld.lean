import Verif.Spec.Bayes
import Mathlib.Data.Fintype.Defs

/-!
# A hidden process that is moved and observed

Nothing in this file mentions the model of the C++ code. What is done next may depend on what was read so far.
-/

namespace BFL.Spec

open Finset

variable {Z K : Type} [Field K]

/-- What is going to be done: let the process move, look at it with a sensor and go on depending on the
reading, or stop. `L z x` is the probability of the reading `z` in the state `x`. -/
inductive Plan (Z K : Type) where
  | stop
  | move (T : Nat → Nat → K) (next : Plan Z K)
  | sense (L : Z → Nat → K) (next : Z → Plan Z K)

namespace Plan

/-- The readings `zs` are a complete record of the plan. -/
def Record : Plan Z K → List Z → Prop
  | .stop, zs => zs = []
  | .move _ next, zs => Record next zs
  | .sense _ _, [] => False
  | .sense _ next, z :: zs => Record (next z) zs

/-- What happens to the process if the readings are `zs`. -/
def steps : Plan Z K → List Z → List (Step K)
  | .stop, _ => []
  | .move T next, zs => .move T :: steps next zs
  | .sense _ _, [] => []
  | .sense L next, z :: zs => .observe (L z) :: steps (next z) zs

/-- Sum over all complete records. -/
def sum [Fintype Z] : Plan Z K → (List Z → K) → K
  | .stop, F => F []
  | .move _ next, F => sum next F
  | .sense _ next, F => ∑ z, sum (next z) fun zs => F (z :: zs)

/-- Transition probabilities and sensors are non-negative and sum to one. -/
def Proper [Fintype Z] [LE K] (n : Nat) : Plan Z K → Prop
  | .stop => True
  | .move T next => (∀ y < n, ∀ x < n, 0 ≤ T y x) ∧ (∀ x < n, ∑ y ∈ range n, T y x = 1) ∧ next.Proper n
  | .sense L next => (∀ z, ∀ x < n, 0 ≤ L z x) ∧ (∀ x < n, ∑ z, L z x = 1) ∧ ∀ z, (next z).Proper n

/-- The probability that `zs` is read and that the process ends in the state `x`. -/
def joint (n : Nat) (p : Nat → K) (plan : Plan Z K) (zs : List Z) (x : Nat) : K :=
  jointLast n p (plan.steps zs) x

/-- The probability that `zs` is read. -/
def chance (n : Nat) (p : Nat → K) (plan : Plan Z K) (zs : List Z) : K :=
  historyEvidence n p (plan.steps zs)

end Plan

end BFL.Spec
