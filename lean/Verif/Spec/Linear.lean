import Mathlib.Algebra.Order.Field.Basic
import Mathlib.LinearAlgebra.Matrix.NonsingularInverse
import Mathlib.LinearAlgebra.Matrix.Symmetric

/-!
# Textbook linear algebra and Kalman filtering, independent of the model
-/

namespace BFL.Spec

variable {K : Type} [Field K] [LinearOrder K]

/-- A valid covariance: symmetric and positive semidefinite. -/
def PSD {n : Nat} (P : Matrix (Fin n) (Fin n) K) : Prop :=
  P.transpose = P ∧ ∀ x : Fin n → K, 0 ≤ x ⬝ᵥ (P.mulVec x)

/-- Symmetric and positive definite. -/
def PD {n : Nat} (P : Matrix (Fin n) (Fin n) K) : Prop :=
  P.transpose = P ∧ ∀ x : Fin n → K, x ≠ 0 → 0 < x ⬝ᵥ (P.mulVec x)

/-- The squared length of `x` in the metric `W`. -/
def quad {n : Nat} (W : Matrix (Fin n) (Fin n) K) (x : Fin n → K) : K := x ⬝ᵥ (W.mulVec x)

/-- What is paid for believing in state `x` when the prior is `(m, P)` and the measurement `z` was
predicted as `Z` at `m`, with slope `H` and noise covariance `R`. -/
noncomputable def cost {n m : Nat} (μ : Fin n → K) (P : Matrix (Fin n) (Fin n) K)
    (H : Matrix (Fin m) (Fin n) K) (R : Matrix (Fin m) (Fin m) K) (z Z : Fin m → K)
    (x : Fin n → K) : K :=
  quad P⁻¹ (x - μ) + quad R⁻¹ (z - (Z + H.mulVec (x - μ)))

end BFL.Spec

namespace BFL.Spec

variable {K : Type} [Field K] [LinearOrder K] {n m₁ m₂ : Nat}

/-- Two measurements read as one long measurement. -/
def stackV (v₁ : Fin m₁ → K) (v₂ : Fin m₂ → K) : Fin (m₁ + m₂) → K := Fin.append v₁ v₂

/-- The matrix with the rows of `H₁` followed by the rows of `H₂`. -/
def stackM (H₁ : Matrix (Fin m₁) (Fin n) K) (H₂ : Matrix (Fin m₂) (Fin n) K) :
    Matrix (Fin (m₁ + m₂)) (Fin n) K := 
  Matrix.of fun i j => Fin.append (fun i => H₁ i j) (fun i => H₂ i j) i

/-- Noise covariance of two independent measurements: `R₁` and `R₂` on the diagonal. -/
def independent (R₁ : Matrix (Fin m₁) (Fin m₁) K) (R₂ : Matrix (Fin m₂) (Fin m₂) K) :
    Matrix (Fin (m₁ + m₂)) (Fin (m₁ + m₂)) K :=
  Matrix.of fun i j =>
    Fin.addCases (fun i => Fin.addCases (fun j => R₁ i j) (fun _ => 0) j)
      (fun i => Fin.addCases (fun _ => 0) (fun j => R₂ i j) j) i

end BFL.Spec
