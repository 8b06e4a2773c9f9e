import Verif.Model.EKParticleFilter

/-!
# What a client expects of an EKF proposal density
-/

namespace BFL.Spec

variable {K : Type} [Field K] [LinearOrder K] {n m : Nat} {U : Type}

/-- Mean and covariance of a newly constructed extended Kalman filter with prior N(`x`, `S`) after one
`Update` with the given system part and measurement part. -/
def freshEkf (be : Backend) (x : Fin n → K) (S : Matrix (Fin n) (Fin n) K)
    (sys : Option (AnalyticModel K n n U × Option U))
    (meas : Option (AnalyticModel K n m U × (Fin m → K) × Option U)) : Outcome (MeanCov K n) := do
  let (_, f) ← (KF.make x S).update be .extended sys meas
  return (f.mu, f.sigma)

/-- The input that reaches a model: models without inputs ignore it. -/
def givenTo {a b : Nat} (mo : AnalyticModel K a b U) (u : Option U) : Option U :=
  match mo with
  | .noInput _ _ _ => none
  | .withInput _ _ _ => u

/-- The calls that prepare the proposal for a query: both models, the covariance of the old particle,
and the conditional arguments. -/
def prepare (s : AnalyticModel K n n U) (mm : AnalyticModel K n m U) (S : Matrix (Fin n) (Fin n) K)
    (x : Fin n → K) (u : Option U) (z : Fin m → K) (sp : Option U) (p : EKProposal K n m U) :
    Outcome (EKProposal K n m U) := do
  let p ← p.systemModelSet (some s)
  let p ← p.measurementModelSet (some mm)
  let p ← p.sampleCovSet S
  p.setArgs s mm x u z sp

/-- Calls that ask for the mean or the covariance. -/
def isQuery : EKProposal.Op K n m U → Bool
  | .mean => true
  | .cov => true
  | _ => false

end BFL.Spec
