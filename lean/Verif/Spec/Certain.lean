import Verif.Lemmas.KalmanRun

/-! # Quantities that are known for certain -/

namespace BFL.Spec

open Matrix

variable {K : Type} [Field K] [LinearOrder K] {n m : Nat} {U : Type}

/-- According to the filter, the quantity `a · x` has the value `v`, without any uncertainty, and is
uncorrelated with everything else. -/
def Certain (a : Fin n → K) (v : K) (f : KF K n) : Prop :=
  a ⬝ᵥ f.mu = v ∧ f.sigma *ᵥ a = 0

/-- A motion that does not change `a · x`: not the prediction, not its Jacobian, and not the noise. -/
def Conserves (a : Fin n → K) (model : AnalyticModel K n n U) (u : Option U) : Prop :=
  ∀ x J F Q, model.Evaluates u x J F Q → a ⬝ᵥ J = a ⬝ᵥ x ∧ Fᵀ *ᵥ a = a ∧ Q *ᵥ a = 0 ∧ Qᵀ = Q

/-- The noise covariance of a sensor is symmetric (in the code it is a `SymmetricMatrix`). -/
def SymmetricNoise (model : AnalyticModel K n m U) (s : Option U) : Prop :=
  ∀ x R, model.covGet s x = .ok R → Rᵀ = R

end BFL.Spec
