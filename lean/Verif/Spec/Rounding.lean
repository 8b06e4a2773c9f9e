import Mathlib.Algebra.Order.Field.Basic
import Mathlib.Algebra.Order.Round
import Mathlib.Data.Int.Log
import Verif.Spec.Bayes

/-!
# Rounded arithmetic

Nothing in this file mentions the model of the C++ code.
-/

namespace BFL.Spec

variable {K : Type} [Field K] [LinearOrder K]

/-- `fl` rounds with relative error at most `u`: the standard model of floating point arithmetic
without overflow and underflow. -/
def IsRounding (u : K) (fl : K → K) : Prop := 0 ≤ u ∧ ∀ x, |fl x - x| ≤ u * |x|

/-- Rounding to a nearest number with 53 significant bits and any exponent. -/
def nearest53 [FloorRing K] (x : K) : K :=
  (round (x / (2 : K) ^ (Int.log 2 |x| - 52)) : K) * (2 : K) ^ (Int.log 2 |x| - 52)

/-- Number of roundings between a probability before and after a history, on `n` states: a move
takes `n` products and sums and one division, an observation one product and one division. -/
def roundings (n : Nat) : List (Step K) → Nat
  | [] => 0
  | .move _ :: ss => n + 2 + roundings n ss
  | .observe _ :: ss => 2 + roundings n ss

end BFL.Spec
