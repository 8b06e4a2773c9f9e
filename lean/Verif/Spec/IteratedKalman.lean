import Verif.Spec.Linear

/-!
# The iterated Kalman correction, independent of the model
-/

namespace BFL.Spec

open Matrix

variable {K : Type} [Field K] {n m : Nat}

/-- Kalman gain for prior covariance `P`, slope `H` and noise covariance `R`. -/
noncomputable def gainOf (P : Matrix (Fin n) (Fin n) K) (H : Matrix (Fin m) (Fin n) K)
    (R : Matrix (Fin m) (Fin m) K) : Matrix (Fin n) (Fin m) K := P * Hᵀ * (H * P * Hᵀ + R)⁻¹

/-- Posterior covariance `P - P H' S⁻¹ H P`, with `S = H P H' + R`. -/
noncomputable def posteriorCov (P : Matrix (Fin n) (Fin n) K) (H : Matrix (Fin m) (Fin n) K)
    (R : Matrix (Fin m) (Fin m) K) : Matrix (Fin n) (Fin n) K :=
  P - P * Hᵀ * (H * P * Hᵀ + R)⁻¹ * H * P

/-- One step of the Gauss-Newton iteration for the measurement `z` of a state with prior mean `x₀`
and prior covariance `P`: linearise the measurement function `h` at `x` and correct the prior. -/
noncomputable def relinearise (x₀ : Fin n → K) (P : Matrix (Fin n) (Fin n) K)
    (h : (Fin n → K) → (Fin m → K)) (H : (Fin n → K) → Matrix (Fin m) (Fin n) K)
    (R : (Fin n → K) → Matrix (Fin m) (Fin m) K) (z : Fin m → K) (x : Fin n → K) : Fin n → K :=
  x₀ + gainOf P (H x) (R x) *ᵥ (z - (h x + H x *ᵥ (x₀ - x)))

end BFL.Spec
