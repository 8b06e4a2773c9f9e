import Verif.Spec.LinearWorld
import Mathlib.Analysis.Calculus.FDeriv.Basic
import Mathlib.Topology.Algebra.Module.FiniteDimension
import Mathlib.LinearAlgebra.Matrix.Trace
import Mathlib.Probability.Independence.Basic

/-!
# Mildly nonlinear models

How far a function is from being linear is measured by the rate at which its Jacobian changes.
-/

namespace BFL.Spec

open Matrix MeasureTheory

variable {Ω : Type} [MeasurableSpace Ω] {n m : Nat} {U : Type}

/-- The model computes `g x`, the Jacobian `F x` and the noise covariance `Q x`. The Jacobian is the derivative of
`g`, and it changes at most at rate `L`: the slope of every component in the direction from `y` to `x` changes by at
most `L` times the distance. -/
structure Mild (model : AnalyticModel ℝ n m U) (u : Option U) (g : (Fin n → ℝ) → Fin m → ℝ)
    (F : (Fin n → ℝ) → Matrix (Fin m) (Fin n) ℝ) (Q : (Fin n → ℝ) → Matrix (Fin m) (Fin m) ℝ) (L : ℝ) : Prop where
  evaluates : ∀ x, model.Evaluates u x (g x) (F x) (Q x)
  derivative : ∀ x, HasFDerivAt g (LinearMap.toContinuousLinearMap (Matrix.mulVecLin (F x))) x
  bend : ∀ x y i, |(F x *ᵥ (x - y)) i - (F y *ᵥ (x - y)) i| ≤ L * ((x - y) ⬝ᵥ (x - y))

/-- The vector of expectations. -/
noncomputable def mean (μ : Measure Ω) (X : Ω → Fin n → ℝ) : Fin n → ℝ := fun i => ∫ ω, X ω i ∂μ

/-- The covariance matrix of a random vector. -/
noncomputable def covariance (μ : Measure Ω) (X : Ω → Fin n → ℝ) : Matrix (Fin n) (Fin n) ℝ :=
  moment μ (fun ω => X ω - mean μ X) (fun ω => X ω - mean μ X)

end BFL.Spec
