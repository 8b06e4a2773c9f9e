import Verif.Spec.Rounding
import Verif.Spec.Discrete

/-!
# Specification for C85: sampling with rounded arithmetic

Nothing in this file mentions the model of the C++ code.
-/

namespace BFL.Spec

variable {K : Type} [Field K] [LinearOrder K]

/-- The probabilities that belong to the weights `ws`. -/
def probabilities (ws : List K) : List K := ws.map (· / ws.sum)

/-- `u` is farther than `δ` from every point where the inverse of the cumulative distribution jumps, except
from 0. -/
def AwayFromJumps (p : List K) (δ u : K) : Prop := ∀ i, 0 < i → i ≤ p.length → δ < |u - massBelow p i|

/-- The nearest integer, the even one of two. -/
def roundEven [FloorRing K] (x : K) : Int :=
  if Int.fract x < 1 / 2 then ⌊x⌋
  else if 1 / 2 < Int.fract x then ⌊x⌋ + 1
  else if ⌊x⌋ % 2 = 0 then ⌊x⌋ else ⌊x⌋ + 1

/-- Rounding of IEEE 754 (binary64, to nearest, ties to even), without overflow and underflow. -/
def double [FloorRing K] (x : K) : K :=
  (roundEven (x / (2 : K) ^ (Int.log 2 |x| - 52)) : K) * (2 : K) ^ (Int.log 2 |x| - 52)

end BFL.Spec
