import Verif.Spec.Linear

/-!
# Specification for C86: the most probable state by Gauss-Newton steps

Nothing in this file mentions the model of the C++ code. The prior has mean `μ` and covariance `P`, the sensor
measures `h x` plus noise of covariance `R`.
-/

namespace BFL.Spec

open Matrix

variable {K : Type} [Field K] [LinearOrder K] {n m : Nat}

/-- Minus twice the logarithm of the posterior density of the state `y` after the measurement `z`, up to a
constant. -/
noncomputable def misfit (μ : Fin n → K) (P : Matrix (Fin n) (Fin n) K) (h : (Fin n → K) → Fin m → K)
    (R : Matrix (Fin m) (Fin m) K) (z : Fin m → K) (y : Fin n → K) : K :=
  quad P⁻¹ (y - μ) + quad R⁻¹ (z - h y)

/-- The sensor `h` replaced by its tangent at `x`, of slope `H`. -/
def tangent (h : (Fin n → K) → Fin m → K) (H : Matrix (Fin m) (Fin n) K) (x y : Fin n → K) : Fin m → K :=
  h x + H *ᵥ (y - x)

/-- A Gauss-Newton step from `x` to `x'`: `x'` is the most probable state when the sensor is replaced by its
tangent at `x`, and no other state is as probable. -/
def GaussNewton (μ : Fin n → K) (P : Matrix (Fin n) (Fin n) K) (h : (Fin n → K) → Fin m → K)
    (H : Matrix (Fin m) (Fin n) K) (R : Matrix (Fin m) (Fin m) K) (z : Fin m → K) (x x' : Fin n → K) : Prop :=
  ∀ y, y ≠ x' → misfit μ P (tangent h H x) R z x' < misfit μ P (tangent h H x) R z y

end BFL.Spec
