import Verif.Spec.KalmanOrder

/-!
# How far apart two means are, and batch least squares

The effect of the prior mean is measured in standard deviations. The estimate from a list of readings of
a state that does not move is defined without any recursion.
-/

namespace BFL.Spec

open Matrix

variable {K : Type} [Field K] [LinearOrder K] {n : Nat} {U : Type}

/-- In every direction `w`, the vector `d` is at most `√e` standard deviations long, where the variance
in that direction is the one under the covariance `P`. -/
def WithinSigmas (e : K) (P : Matrix (Fin n) (Fin n) K) (d : Fin n → K) : Prop :=
  ∀ w : Fin n → K, (w ⬝ᵥ d) ^ 2 ≤ e * quad P w

/-- A reading `z` of the sensor `x ↦ H x + c` with noise covariance `R`, and the model with the sensor
parameter `s` that the filter is given for it. -/
structure Reading (K : Type) (n : Nat) (U : Type) where
  m : Nat
  model : AnalyticModel K n m U
  s : Option U
  H : Matrix (Fin m) (Fin n) K
  c : Fin m → K
  R : Matrix (Fin m) (Fin m) K
  z : Fin m → K

namespace Reading

/-- The model says what the sensor does, and no direction of the reading is exact. -/
def Right (r : Reading K n U) : Prop := r.model.IsLinear r.s r.H r.c r.R ∧ PD r.R

/-- The call of `Update` with this reading and no system model. -/
def call (r : Reading K n U) : Props.KStep K n U := ⟨r.m, none, some (r.model, r.z, r.s)⟩

end Reading

/-- The weighted sum of squares of everything known about a state that does not move: the deviation
from the prior and the residual of every reading. -/
noncomputable def squares (μ : Fin n → K) (P : Matrix (Fin n) (Fin n) K) (rs : List (Reading K n U))
    (x : Fin n → K) : K :=
  quad P⁻¹ (x - μ) + (rs.map fun r => quad r.R⁻¹ (r.z - (r.H *ᵥ x + r.c))).sum

end BFL.Spec
