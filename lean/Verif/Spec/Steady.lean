import Verif.Spec.KalmanOrder
import Verif.Spec.PriorMean
import Mathlib.Topology.Instances.Matrix
import Mathlib.Topology.Instances.Real.Lemmas

/-!
# Specification for C88: the same two models again and again
-/

namespace BFL.Spec

open Matrix

section

variable {K : Type} [Field K] [LinearOrder K] {n m : Nat} {U : Type}

/-- A call of `Update` with both models. The system model has the matrix `A` and the noise covariance `Q`, the
sensor has the matrix `H` and the noise covariance `R`. The constant terms, the inputs and the readings may be different
in every call. -/
inductive Steady (A Q : Matrix (Fin n) (Fin n) K) (H : Matrix (Fin m) (Fin n) K) (R : Matrix (Fin m) (Fin m) K) :
    Props.KStep K n U → Prop
  | mk {sy : AnalyticModel K n n U} {u : Option U} {b : Fin n → K} {me : AnalyticModel K n m U} {z c : Fin m → K}
      {s : Option U} (hs : sy.IsLinear u A b Q) (hm : me.IsLinear s H c R) :
      Steady A Q H R ⟨m, some (sy, u), some (me, z, s)⟩

/-- The steady Riccati equation: the information after a reading is the information of the prediction plus the
information of the reading. -/
def Riccati (A Q : Matrix (Fin n) (Fin n) K) (H : Matrix (Fin m) (Fin n) K) (R : Matrix (Fin m) (Fin m) K)
    (P : Matrix (Fin n) (Fin n) K) : Prop :=
  P⁻¹ = (A * P * Aᵀ + Q)⁻¹ + Hᵀ * R⁻¹ * H

end

/-- Correcting every prediction with the constant gain `G` is enough to follow the state: the error that is left
from the start dies out. -/
def Follows {n m : Nat} (A : Matrix (Fin n) (Fin n) ℝ) (H : Matrix (Fin m) (Fin n) ℝ) (G : Matrix (Fin n) (Fin m) ℝ) :
    Prop :=
  Filter.Tendsto (fun k => ((1 - G * H) * A) ^ k) Filter.atTop (nhds 0)

end BFL.Spec
