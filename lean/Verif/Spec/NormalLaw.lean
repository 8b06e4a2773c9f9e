import Verif.Spec.GaussianDensity
import Mathlib.MeasureTheory.Measure.WithDensity
import Mathlib.MeasureTheory.Measure.Lebesgue.Basic

/-!
# The normal distribution

Nothing in this file mentions the model of the C++ code.
-/

namespace BFL.Spec

open MeasureTheory

/-- The normal distribution with mean `m` and positive definite covariance `S`. -/
noncomputable def normalLaw {n : Nat} (m : Fin n → ℝ) (S : Matrix (Fin n) (Fin n) ℝ) : Measure (Fin n → ℝ) :=
  volume.withDensity fun x => ENNReal.ofReal (normalDensity m S x)

end BFL.Spec
