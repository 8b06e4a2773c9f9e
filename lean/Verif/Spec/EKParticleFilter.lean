import Verif.Model.EKParticleFilter
import Verif.Spec.Linear
import Verif.Spec.GaussianDensity

/-!
# Importance weights of a particle filter with an EKF proposal
-/

namespace BFL.Spec

open Matrix

variable {n m : Nat}

/-- The system and the measurement model of one update: predicted mean, Jacobian and noise covariance
as functions of the state. -/
structure EkModels (n m : Nat) where
  f : (Fin n → ℝ) → (Fin n → ℝ)
  F : (Fin n → ℝ) → Matrix (Fin n) (Fin n) ℝ
  Q : (Fin n → ℝ) → Matrix (Fin n) (Fin n) ℝ
  h : (Fin n → ℝ) → (Fin m → ℝ)
  H : (Fin n → ℝ) → Matrix (Fin m) (Fin n) ℝ
  R : (Fin n → ℝ) → Matrix (Fin m) (Fin m) ℝ

namespace EkModels

variable (M : EkModels n m)

/-- Noise covariances are positive definite. -/
def Valid : Prop := ∀ x, PD (M.Q x) ∧ PD (M.R x)

/-- Covariance predicted from N(x, S). -/
def predCov (x : Fin n → ℝ) (S : Matrix (Fin n) (Fin n) ℝ) : Matrix (Fin n) (Fin n) ℝ :=
  M.F x * S * (M.F x)ᵀ + M.Q x

/-- Kalman gain. -/
noncomputable def gain (x : Fin n → ℝ) (S : Matrix (Fin n) (Fin n) ℝ) : Matrix (Fin n) (Fin m) ℝ :=
  M.predCov x S * (M.H (M.f x))ᵀ *
    (M.H (M.f x) * M.predCov x S * (M.H (M.f x))ᵀ + M.R (M.f x))⁻¹

/-- Mean of one extended Kalman filter step from N(x, S) with measurement `z`. -/
noncomputable def ekfMean (z : Fin m → ℝ) (x : Fin n → ℝ) (S : Matrix (Fin n) (Fin n) ℝ) :
    Fin n → ℝ :=
  M.f x + M.gain x S *ᵥ (z - M.h (M.f x))

/-- Covariance of one extended Kalman filter step. -/
noncomputable def ekfCov (x : Fin n → ℝ) (S : Matrix (Fin n) (Fin n) ℝ) :
    Matrix (Fin n) (Fin n) ℝ :=
  M.predCov x S - M.gain x S * M.H (M.f x) * M.predCov x S

/-- Density of the measurement `z` given the state `y`. -/
noncomputable def likelihood (z : Fin m → ℝ) (y : Fin n → ℝ) : ℝ := normalDensity (M.h y) (M.R y) z

/-- Density of the state `y` given the previous state `x`. -/
noncomputable def transition (x y : Fin n → ℝ) : ℝ := normalDensity (M.f x) (M.Q x) y

/-- Density of the extended Kalman filter proposal from N(x, S). -/
noncomputable def proposal (z : Fin m → ℝ) (x : Fin n → ℝ) (S : Matrix (Fin n) (Fin n) ℝ)
    (y : Fin n → ℝ) : ℝ :=
  normalDensity (M.ekfMean z x S) (M.ekfCov x S) y

end EkModels

/-- Particles, weights, and one covariance per particle; the entries from the number of particles on
have no meaning. -/
structure EkCloud (n : Nat) where
  x : Nat → Fin n → ℝ
  w : Nat → ℝ
  S : Nat → Matrix (Fin n) (Fin n) ℝ

/-- The weighted samples of a cloud of `N` particles. -/
def EkCloud.list (c : EkCloud n) (N : Nat) : List (WSample ℝ (Fin n → ℝ)) :=
  (List.range N).map fun j => ⟨c.x j, some (c.w j)⟩

/-- Weights divided by their sum. -/
noncomputable def normalised (N : Nat) (v : Nat → ℝ) : Nat → ℝ :=
  fun j => v j / ((List.range N).map v).sum

/-- The models, the measurement and the particles drawn in one update. -/
structure EkStep (n m : Nat) where
  models : EkModels n m
  z : Fin m → ℝ
  y : Nat → Fin n → ℝ

/-- One update of a particle filter with EKF proposal: particle `j` is drawn from the proposal made
from its old state and its covariance, and its weight is multiplied by
likelihood · transition / proposal. -/
noncomputable def importanceStep (N : Nat) (c : EkCloud n) (t : EkStep n m) : EkCloud n :=
  let M := t.models
  { x := t.y
    w := normalised N fun j =>
      c.w j * (M.likelihood t.z (t.y j) * M.transition (c.x j) (t.y j) /
        M.proposal t.z (c.x j) (c.S j) (t.y j))
    S := fun j => M.ekfCov (c.x j) (c.S j) }

/-- The update that the program does: the transition and the proposal density start from the particles
`x0` of the prior given to the constructor, the proposal density uses the covariance of the last
particle, and both are left out for sensors with parameters. -/
noncomputable def programStep (N : Nat) (x0 : Nat → Fin n → ℝ) (sensor : Bool) (c : EkCloud n)
    (t : EkStep n m) : EkCloud n :=
  let M := t.models
  { x := t.y
    w := normalised N fun j =>
      c.w j * if sensor then M.likelihood t.z (t.y j)
        else M.likelihood t.z (t.y j) * M.transition (x0 j) (t.y j) /
          M.proposal t.z (x0 j) (c.S (N - 1)) (t.y j)
    S := fun j => M.ekfCov (c.x j) (c.S j) }

variable {U : Type}

/-- The models given to `Update` answer as `M`. -/
structure Implements (M : EkModels n m) (sys : AnalyticModel ℝ n n U) (u : Option U)
    (mm : AnalyticModel ℝ n m U) (s : Option U) : Prop where
  sys : ∀ x, sys.predictionGet u x = .ok (M.f x) ∧ sys.dfGet u x = .ok (M.F x) ∧
    sys.covGet u x = .ok (M.Q x)
  meas : ∀ x, mm.predictionGet s x = .ok (M.h x) ∧ mm.dfGet s x = .ok (M.H x) ∧
    mm.covGet s x = .ok (M.R x)

/-- The filter with the scratch vector of its proposal enlarged to `n` entries. -/
def enlarged (f : EKFilter n m U) : EKFilter n m U :=
  { f with proposal := { f.proposal with scratch := n } }

/-- One call of `Update` with its models. -/
structure EkUpdate (n m : Nat) (U : Type) where
  models : EkModels n m
  sys : AnalyticModel ℝ n n U
  u : Option U
  meas : AnalyticModel ℝ n m U
  s : Option U
  z : Fin m → ℝ
  noise : EKNoise n

/-- The models given are those described, with positive definite noise covariances. -/
def EkUpdate.Ok (t : EkUpdate n m U) : Prop :=
  t.models.Valid ∧ Implements t.models t.sys t.u t.meas t.s

/-- The call in the model. -/
def EkUpdate.call (t : EkUpdate n m U) : EKNoise n × EKCall n m U :=
  (t.noise, ⟨some t.sys, t.u, some t.meas, t.z, t.s⟩)

/-- The particles drawn: particle `j` is the mean of the extended Kalman filter step from its state and
covariance, plus the Cholesky factor of the covariance of that step times the normal numbers. -/
noncomputable def EkUpdate.step (t : EkUpdate n m U) (c : EkCloud n) : EkStep n m :=
  ⟨t.models, t.z, fun j => t.models.ekfMean t.z (c.x j) (c.S j) +
    (cholesky Real.sqrt machEps (t.models.ekfCov (c.x j) (c.S j))).2 *ᵥ t.noise.prop j⟩

/-- What the program computes in a sequence of updates. -/
noncomputable def programRun (N : Nat) (x0 : Nat → Fin n → ℝ) :
    List (EkUpdate n m U) → EkCloud n → EkCloud n
  | [], c => c
  | t :: ts, c => programRun N x0 ts (programStep N x0 (!t.meas.withoutInputs) c (t.step c))

/-- What it should compute. -/
noncomputable def importanceRun (N : Nat) : List (EkUpdate n m U) → EkCloud n → EkCloud n
  | [], c => c
  | t :: ts, c => importanceRun N ts (importanceStep N c (t.step c))

end BFL.Spec
