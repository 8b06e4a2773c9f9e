import Mathlib.Analysis.SpecialFunctions.Sqrt

/-! # The error constant of particle filters that resample -/

namespace BFL.Spec

/-- Error constant after `t` updates. `ratio t` is the largest weight factor of update `t`, divided by the probability
(density) of its measurement; `s` bounds the number of particles divided by the effective number. -/
noncomputable def errorConstant (ratio : Nat → ℝ) (s : ℝ) : Nat → ℝ
  | 0 => 1
  | t + 1 => 2 * ratio t * (errorConstant ratio s t + 1 + √s) + 1

/-- Resampling keeps the weights even: either all `T` updates move the particles and each but the first resamples
before the move (`period = 1`), or all `T` updates have a measurement and resample after it if the effective number of
particles is below the threshold, and the threshold is at least `N / s`. -/
def KeepsEven (period : Nat) (threshold : ℝ) (moves measures : Nat → Prop) (T N : Nat) (s : ℝ) : Prop :=
  (period = 1 ∧ ∀ t < T, moves t) ∨ ((N : ℝ) ≤ s * threshold ∧ ∀ t < T, measures t)

end BFL.Spec
