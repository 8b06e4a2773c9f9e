import Mathlib.LinearAlgebra.Matrix.Notation
import Mathlib.Data.Real.Basic

/-!
# Specification of the singular value decomposition and the pseudo-inverse
-/

namespace BFL.Spec

open Matrix

/-- `U diag(w) Vᵀ` is a singular value decomposition of `A`, in the form in which `U` has the shape
of `A`. With at least as many rows as columns the columns of `U` are orthonormal; otherwise those
that belong to a positive singular value are orthonormal, and orthogonal to the others. -/
structure IsSVD {m n : ℕ} (A : Matrix (Fin m) (Fin n) ℝ) (U : Matrix (Fin m) (Fin n) ℝ)
    (w : Fin n → ℝ) (V : Matrix (Fin n) (Fin n) ℝ) : Prop where
  eq : A = U * diagonal w * Vᵀ
  nonneg : ∀ i, 0 ≤ w i
  orthV : Vᵀ * V = 1
  orthU : ∀ i j, w j ≠ 0 → (Uᵀ * U) i j = if i = j then 1 else 0
  orthU' : n ≤ m → Uᵀ * U = 1

/-- The four conditions that define the Moore-Penrose pseudo-inverse. -/
structure IsPseudoinverse {m n : ℕ} (A : Matrix (Fin m) (Fin n) ℝ) (X : Matrix (Fin n) (Fin m) ℝ) :
    Prop where
  axa : A * X * A = A
  xax : X * A * X = X
  ax : (A * X)ᵀ = A * X
  xa : (X * A)ᵀ = X * A

end BFL.Spec
