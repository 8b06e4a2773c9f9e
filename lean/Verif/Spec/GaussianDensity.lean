import Verif.Spec.Linear
import Mathlib.Analysis.SpecialFunctions.Sqrt
import Mathlib.Analysis.SpecialFunctions.Trigonometric.Basic

/-! # The multivariate normal density -/

namespace BFL.Spec

/-- Density of the normal distribution with mean `μ` and covariance `S` at `x`. -/
noncomputable def normalDensity {n : Nat} (μ : Fin n → ℝ) (S : Matrix (Fin n) (Fin n) ℝ)
    (x : Fin n → ℝ) : ℝ :=
  Real.exp (-(quad S⁻¹ (x - μ)) / 2) / Real.sqrt ((2 * Real.pi) ^ n * S.det)

end BFL.Spec
