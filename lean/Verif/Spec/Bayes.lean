import Mathlib.Algebra.BigOperators.Group.Finset.Basic
import Mathlib.Algebra.Field.Basic

/-!
# Bayesian filtering on finitely many states

States are `0, ..., n-1`; distributions, likelihoods and transition probabilities are functions of
states. Nothing in this file mentions the model of the C++ code.
-/

namespace BFL.Spec

open Finset

variable {K : Type} [Field K]

/-- The table of a function on the states `0, ..., n-1`. -/
def tab {V : Type} (n : Nat) (p : Nat → V) : List V := (List.range n).map p

/-- Law of total probability: `P'(y) = sum over x of P(y|x) P(x)`. -/
def totalProbability (n : Nat) (T : Nat → Nat → K) (p : Nat → K) (y : Nat) : K :=
  ∑ x ∈ range n, T y x * p x

/-- Probability of the measurement with likelihood `L`. -/
def evidence (n : Nat) (L : Nat → K) (p : Nat → K) : K := ∑ x ∈ range n, p x * L x

/-- Bayes' rule. -/
def bayes (n : Nat) (L : Nat → K) (p : Nat → K) (x : Nat) : K := p x * L x / evidence n L p

/-- One thing that happens to the filtered process: it moves according to transition probabilities
`T y x = P(y|x)`, or it is observed, with likelihood `L x` in state `x`. -/
inductive Step (K : Type) where
  | move (T : Nat → Nat → K)
  | observe (L : Nat → K)

/-- Number of moves in a history. -/
def moves : List (Step K) → Nat
  | [] => 0
  | .move _ :: ss => moves ss + 1
  | .observe _ :: ss => moves ss

/-- All sequences of `k` states. -/
def paths (n : Nat) : Nat → List (List Nat)
  | 0 => [[]]
  | k + 1 => (List.range n).flatMap fun y => (paths n k).map fun xs => y :: xs

/-- Probability of visiting the states `xs` and of making all observations of the history, given
that the process starts in `x`: a product with one factor per step. -/
def weight : List (Step K) → Nat → List Nat → K
  | [], _, _ => 1
  | .observe L :: ss, x, xs => L x * weight ss x xs
  | .move T :: ss, x, y :: xs => T y x * weight ss y xs
  | .move _ :: _, _, [] => 0

/-- Joint probability of all observations of the history and of the process ending in state `x`:
sum over every trajectory, that is every initial state and every sequence of later states. -/
def jointLast (n : Nat) (p0 : Nat → K) (ss : List (Step K)) (x : Nat) : K :=
  ∑ x0 ∈ range n, ((paths n (moves ss)).map fun xs =>
    if (x0 :: xs).getLast? = some x then p0 x0 * weight ss x0 xs else 0).sum

/-- Probability of all observations of the history. -/
def historyEvidence (n : Nat) (p0 : Nat → K) (ss : List (Step K)) : K :=
  ∑ x ∈ range n, jointLast n p0 ss x

/-- Every factor of every step is non-negative on the states. -/
def Step.Nonneg [LE K] (n : Nat) : Step K → Prop
  | .move T => ∀ y < n, ∀ x < n, 0 ≤ T y x
  | .observe L => ∀ x < n, 0 ≤ L x

end BFL.Spec
