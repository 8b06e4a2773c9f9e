import Verif.Model.Kalman
import Verif.Spec.Ginac
import Mathlib.Algebra.BigOperators.Fin

/-!
# Specification: first-order propagation of uncertainty

A prediction step is a system model together with the input. `endOf steps x` is where the models'
own predictions lead from the state `x`. An uncertainty `S` about a state becomes, to first order,
`J * S * Jᵀ` for a function of the state with Jacobian `J`.
-/

namespace BFL.Spec

open Matrix

variable {n : Nat} {U : Type}

/-- A system model with its input. -/
abbrev PredictStep (n : Nat) (U : Type) := AnalyticModel ℝ n n U × Option U

/-- The predicted state after the steps, one after the other. -/
def endOf : List (PredictStep n U) → (Fin n → ℝ) → Outcome (Fin n → ℝ)
  | [], x => .ok x
  | st :: rest, x => do
    let y ← st.1.predictionGet st.2 x
    endOf rest y

/-- The user's model is correct: it can be evaluated, its Jacobian is the derivative of its prediction,
and its noise covariance is symmetric. -/
def TrueJacobian (st : PredictStep n U) : Prop :=
  ∀ x, ∃ y F Q, st.1.predictionGet st.2 x = .ok y ∧ st.1.dfGet st.2 x = .ok F ∧
    HasJacobian (st.1.predictionGet st.2) x F ∧ st.1.covGet st.2 x = .ok Q ∧ Qᵀ = Q

/-- `S1` is the first-order uncertainty about the state after the steps: that of the initial state `x`
(covariance `S0`) propagated through all of them, and for every step `j` its noise `Q j`, evaluated at the
state where the step starts, propagated through the steps after it. -/
def Propagated (steps : List (PredictStep n U)) (x : Fin n → ℝ) (S0 S1 : Matrix (Fin n) (Fin n) ℝ) : Prop :=
  ∃ (J : Matrix (Fin n) (Fin n) ℝ) (Js Q : Fin steps.length → Matrix (Fin n) (Fin n) ℝ),
    HasJacobian (endOf steps) x J ∧
    (∀ j : Fin steps.length, ∃ before after, endOf (steps.take j) x = .ok before ∧
      endOf (steps.take (j + 1)) x = .ok after ∧
      (steps.get j).1.covGet (steps.get j).2 before = .ok (Q j) ∧
      HasJacobian (endOf (steps.drop (j + 1))) after (Js j)) ∧
    S1 = J * S0 * Jᵀ + ∑ j, Js j * Q j * (Js j)ᵀ

end BFL.Spec
