import Verif.Spec.Forgetting

/-!
# Several moves of a finite process, and where it is in the long run

Nothing in this file mentions the model of the C++ code.
-/

namespace BFL.Spec

open Finset

variable {K : Type} [Field K]

/-- Transition probabilities: whatever the present state, the probabilities of the next states are not negative
and have the sum one. -/
def Stochastic [LE K] (n : Nat) (T : Nat → Nat → K) : Prop :=
  (∀ y < n, ∀ x < n, 0 ≤ T y x) ∧ ∀ x < n, ∑ y ∈ range n, T y x = 1

/-- Probability that the process is in `y` after the given moves (first move first) if it is in `x` before them. -/
def reach (n : Nat) : List (Nat → Nat → K) → Nat → Nat → K
  | [], y, x => if y = x then 1 else 0
  | T :: Ts, y, x => ∑ w ∈ range n, reach n Ts y w * T w x

/-- A distribution of the present state that is also that of the next state. -/
def Stationary [LE K] (n : Nat) (T : Nat → Nat → K) (π : Nat → K) : Prop :=
  (∀ x < n, 0 ≤ π x) ∧ ∑ x ∈ range n, π x = 1 ∧ ∀ y < n, ∑ x ∈ range n, T y x * π x = π y

/-- After `k` moves the process is in `y` with at least `σ` times the probability `w y`, wherever it started. -/
def Minorised [LE K] (n : Nat) (T : Nat → Nat → K) (k : Nat) (σ : K) (w : Nat → K) : Prop :=
  ∑ y ∈ range n, w y = 1 ∧ ∀ y < n, ∀ x < n, σ * w y ≤ reach n (List.replicate k T) y x

end BFL.Spec
