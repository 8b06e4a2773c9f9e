import Verif.Model.Kalman

/-!
# Model of the Rauch-Tung-Striebel smoother

`/repo/orocos_bfl/src/smoother/rauchtungstriebel.cpp` and `smoother/backwardfilter.cpp`. The state of
the smoother is that of a Kalman filter: the Gaussian `_post` and `_timestep`.
-/

namespace BFL

open Matrix

variable {K : Type} [Field K] [LinearOrder K] {n : Nat} {U : Type}

/-- State of a `RauchTungStriebel`. -/
structure RTS (K : Type) (n : Nat) where
  mu : Fin n → K
  sigma : Matrix (Fin n) (Fin n) K
  timestep : Nat

namespace RTS

/-- Constructor, rauchtungstriebel.cpp:27-43 and backwardfilter.cpp:24-28: the posterior is a copy of
the prior. -/
def make (mu : Fin n → K) (sigma : Matrix (Fin n) (Fin n) K) : RTS K n :=
  { mu := mu, sigma := sigma, timestep := 0 }

/-- `PostMuSet`, rauchtungstriebel.cpp:85-89. -/
def postMuSet (f : RTS K n) (c : Fin n → K) : RTS K n := { f with mu := c }

/-- `PostSigmaSet`, rauchtungstriebel.cpp:79-83. -/
def postSigmaSet (f : RTS K n) (s : Matrix (Fin n) (Fin n) K) : RTS K n := { f with sigma := s }

/-- `SysUpdate`, rauchtungstriebel.cpp:50-70; `xf` and `Pf` are the mean and the covariance of
`filtered_post`, a different object from `_post`. -/
def sysUpdate (be : Backend) (sys : AnalyticModel K n n U) (u : Option U) (xf : Fin n → K)
    (Pf : Matrix (Fin n) (Fin n) K) (f : RTS K n) : Outcome (RTS K n) := do
  let x := f.mu
  let F ← sys.dfGet u x
  let Q ← sys.covGet u x
  let Ppred := F * Pf * Fᵀ + Q
  let Pxx := Pf * Fᵀ
  let inv ← be.inverse Ppred
  let gain := Pxx * inv
  let xpred ← sys.predictionGet u xf
  let xsmooth := xf + gain *ᵥ (x - xpred)
  let Psmooth := Pf - gain * (Ppred - f.sigma) * gainᵀ
  return (f.postMuSet xsmooth).postSigmaSet (be.toSym Psmooth)

/-- `Update`, backwardfilter.cpp:50-61, and `UpdateInternal`, rauchtungstriebel.cpp:72-77: always
returns true. Without an input a default-constructed vector is passed on (`u = none`). -/
def update (be : Backend) (sys : AnalyticModel K n n U) (u : Option U) (xf : Fin n → K)
    (Pf : Matrix (Fin n) (Fin n) K) (f : RTS K n) : Outcome (Bool × RTS K n) := do
  let f' ← f.sysUpdate be sys u xf Pf
  return (true, f')

end RTS

end BFL
