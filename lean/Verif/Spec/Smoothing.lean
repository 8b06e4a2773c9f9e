import Verif.Spec.Linear

/-!
# Smoothing of a linear Gaussian system, independent of the model
-/

namespace BFL.Spec

open Matrix

variable {K : Type} [Field K] [LinearOrder K] {n m : Nat}

/-- Smoother gain: regression of the state on its successor `F x + noise` (noise covariance `Q`) when
the state has covariance `P`. -/
noncomputable def smootherGain (P F Q : Matrix (Fin n) (Fin n) K) : Matrix (Fin n) (Fin n) K :=
  P * Fᵀ * (F * P * Fᵀ + Q)⁻¹

/-- The Rauch-Tung-Striebel mean: filtered mean `x`, predicted mean `xPred`, smoothed mean `y` of the
successor. -/
noncomputable def smoothedMean (x : Fin n → K) (P F Q : Matrix (Fin n) (Fin n) K)
    (xPred y : Fin n → K) : Fin n → K := x + smootherGain P F Q *ᵥ (y - xPred)

/-- The Rauch-Tung-Striebel covariance; `S` is the smoothed covariance of the successor. -/
noncomputable def smoothedCov (P F Q S : Matrix (Fin n) (Fin n) K) : Matrix (Fin n) (Fin n) K :=
  P + smootherGain P F Q * (S - (F * P * Fᵀ + Q)) * (smootherGain P F Q)ᵀ

/-- A linear measurement `z` of the state `x`: `H x + d` with noise of covariance `R`. -/
structure Observation (K : Type) (n : Nat) where
  m : Nat
  H : Matrix (Fin m) (Fin n) K
  d : Fin m → K
  R : Matrix (Fin m) (Fin m) K
  z : Fin m → K

/-- One step of a linear system with additive noise (`x ↦ F x + c`, covariance `Q`), followed by a
measurement or by none. -/
structure Stage (K : Type) (n : Nat) where
  F : Matrix (Fin n) (Fin n) K
  c : Fin n → K
  Q : Matrix (Fin n) (Fin n) K
  obs : Option (Observation K n)

/-- The squared size of the measurement noise implied by state `y`. -/
noncomputable def observationCost (y : Fin n → K) : Option (Observation K n) → K
  | none => 0
  | some o => quad o.R⁻¹ (o.z - (o.H *ᵥ y + o.d))

/-- What is paid for the successors `y :: ys` of the state `x`: the squared size of every system noise
and of every measurement noise that the trajectory implies. -/
noncomputable def transitionCost : List (Stage K n) → (Fin n → K) → List (Fin n → K) → K
  | st :: rest, x, y :: ys =>
    quad st.Q⁻¹ (y - (st.F *ᵥ x + st.c)) + observationCost y st.obs + transitionCost rest y ys
  | _, _, _ => 0

/-- Twice the negative log likelihood, up to a constant, of a trajectory (one state more than there are
stages) for a prior with mean `μ` and covariance `P` on its first state. -/
noncomputable def trajectoryCost (μ : Fin n → K) (P : Matrix (Fin n) (Fin n) K)
    (stages : List (Stage K n)) : List (Fin n → K) → K
  | [] => 0
  | x :: ys => quad P⁻¹ (x - μ) + transitionCost stages x ys

/-- The costs of all trajectories that pass through the state `x` at time `k`. -/
def costsThrough (μ : Fin n → K) (P : Matrix (Fin n) (Fin n) K) (stages : List (Stage K n))
    (k : Nat) (x : Fin n → K) : Set K :=
  {v | ∃ t : List (Fin n → K), t.length = stages.length + 1 ∧ t[k]? = some x ∧
    v = trajectoryCost μ P stages t}

end BFL.Spec
