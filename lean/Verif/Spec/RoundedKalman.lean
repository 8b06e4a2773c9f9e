import Mathlib.Algebra.Order.Field.Basic

/-!
# The variance of a scalar Kalman filter in exact arithmetic

Nothing in this file mentions the model of the C++ code.
-/

namespace BFL.Spec

variable {K : Type} [Field K] [LinearOrder K]

/-- A step of a scalar filter: the state is multiplied with `f` and noise of variance `q` is added,
or a sensor reads `h` times the state with noise of variance `r`. -/
inductive VarStep (K : Type) where
  | move (f q : K)
  | read (h r : K)

/-- The variance after a step: variances add; a reading adds its information `h²/r` to `1/p`,
written without the division by `p`. -/
def VarStep.next (p : K) : VarStep K → K
  | .move f q => f ^ 2 * p + q
  | .read h r => p * r / (h ^ 2 * p + r)

/-- The variance after a history. -/
def varAfter (p : K) : List (VarStep K) → K
  | [] => p
  | s :: ss => varAfter (s.next p) ss

/-- Noise variances are not negative, and sensors are noisy. -/
def VarStep.Valid : VarStep K → Prop
  | .move _ q => 0 ≤ q
  | .read _ r => 0 < r

/-- No reading of the history is more than `c` times as uncertain before it is taken,
`h² p + r`, as its sensor, `r`: no reading improves the variance by more than a factor `c`. -/
def Improves (c : K) (p : K) : List (VarStep K) → Prop
  | [] => True
  | .move f q :: ss => Improves c (VarStep.next p (.move f q)) ss
  | .read h r :: ss => h ^ 2 * p + r ≤ c * r ∧ Improves c (VarStep.next p (.read h r)) ss

end BFL.Spec
