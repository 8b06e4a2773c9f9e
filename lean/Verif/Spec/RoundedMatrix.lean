import Mathlib.LinearAlgebra.Matrix.Notation
import Mathlib.Algebra.Order.Field.Basic

/-!
# How far rounding can carry a filter with several states

Nothing in this file mentions the model of the C++ code. The error of a rounded computation is compared
with the value that the same formula has for the absolute values of its arguments.
-/

namespace BFL.Spec

open Matrix

variable {K : Type} [Field K] [LinearOrder K] {k l n : Nat}

/-- Entrywise absolute value. -/
def absM (A : Matrix (Fin k) (Fin l) K) : Matrix (Fin k) (Fin l) K := A.map (|·|)

/-- Covariance propagated through motions `x ↦ F x` with noise `Q`, without any cancellation. -/
def absPredict (A : Matrix (Fin n) (Fin n) K) :
    List (Matrix (Fin n) (Fin n) K × Matrix (Fin n) (Fin n) K) → Matrix (Fin n) (Fin n) K
  | [] => A
  | (F, Q) :: steps => absPredict (absM F * A * (absM F)ᵀ + absM Q) steps

/-- A bound on estimates and on their error: covariances are at most `size` and have errors of at
most `(factor - 1) size`; the same for the mean with `mean`. -/
structure Slack (K : Type) (n : Nat) where
  factor : K
  size : Matrix (Fin n) (Fin n) K
  mean : Fin n → K

/-- The bound after a motion to `J`, for the rounding unit `u`. -/
def Slack.move (u : K) (J : Fin n → K) (F Q : Matrix (Fin n) (Fin n) K) (s : Slack K n) : Slack K n :=
  ⟨s.factor * (1 + u) ^ (2 * n + 3), absM F * s.size * (absM F)ᵀ + absM Q, fun i => |J i|⟩

/-- The loss of accuracy in the inverse of the innovation variance, of which at most the part `1/κ`
is left by cancellation. -/
def Slack.loss (u κ : K) (s : Slack K n) : K := 2 * (κ * (s.factor * (1 + u) ^ (2 * n + 3) - 1))

/-- The bound after a reading with innovation `ν` of variance `v`. -/
def Slack.read (u κ v ν : K) (H : Matrix (Fin 1) (Fin n) K) (s : Slack K n) : Slack K n :=
  ⟨s.factor ^ 2 * (1 + u) ^ (2 * n + 8) * (1 + s.loss u κ),
    s.size + s.size * (absM H)ᵀ * !![1 / v] * absM H * s.size,
    fun i => s.mean i + (s.size * (absM H)ᵀ) i 0 * (1 / v) * |ν|⟩

end BFL.Spec
