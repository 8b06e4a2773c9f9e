import Verif.Model.MatrixWrapper
import Mathlib.Data.Matrix.Mul

/-!
# Model of the Kalman filter family

`filter/kalmanfilter.cpp`, `filter/extendedkalmanfilter.cpp`,
`filter/iteratedextendedkalmanfilter.cpp`, `filter/innovationCheck.cpp` and the queries of
`model/analyticsystemmodel_gaussianuncertainty.cpp` and
`model/analyticmeasurementmodel_gaussianuncertainty.cpp`, all under `/repo/orocos_bfl/src`.

The state dimension `n` and the measurement dimension `m` are fixed by types, so size mismatches
between the user's matrices are not modelled. The work buffers that the filter keeps per
measurement dimension (`_mapMeasUpdateVariables*`) are written before they are read, except in the
iterated filter with zero iterations, which is `ub` below.
-/

namespace BFL

open Matrix

variable {K : Type} [Field K] [LinearOrder K] {n m : Nat} {U : Type}

/-- A user supplied analytic model with Gaussian uncertainty: the conditional pdf has one
conditional argument (the state) or two (the state and an input). -/
inductive AnalyticModel (K : Type) (n m : Nat) (U : Type) where
  | noInput (predict : (Fin n → K) → (Fin m → K)) (df : (Fin n → K) → Matrix (Fin m) (Fin n) K)
      (cov : (Fin n → K) → Matrix (Fin m) (Fin m) K)
  | withInput (predict : U → (Fin n → K) → (Fin m → K))
      (df : U → (Fin n → K) → Matrix (Fin m) (Fin n) K)
      (cov : U → (Fin n → K) → Matrix (Fin m) (Fin m) K)

namespace AnalyticModel

/-- `PredictionGet(u,x)`, analyticsystemmodel_gaussianuncertainty.cpp:55-61 and
analyticmeasurementmodel_gaussianuncertainty.cpp:46-52: argument 0 is the state, argument 1 the
input, set only if the pdf has two arguments. `none` is the default-constructed vector of size zero
that the `Update` overloads without input pass on (filter/filter.cpp:64-123); a pdf with two
arguments then multiplies a matrix with a vector of the wrong size. -/
def predictionGet (mo : AnalyticModel K n m U) (u : Option U) (x : Fin n → K) :
    Outcome (Fin m → K) :=
  match mo, u with
  | noInput f _ _, _ => .ok (f x)
  | withInput f _ _, some u => .ok (f u x)
  | withInput _ _ _, none => .ub

/-- `df_dxGet(u,x)`, analyticsystemmodel_gaussianuncertainty.cpp:46-52 and
analyticmeasurementmodel_gaussianuncertainty.cpp:37-43. -/
def dfGet (mo : AnalyticModel K n m U) (u : Option U) (x : Fin n → K) :
    Outcome (Matrix (Fin m) (Fin n) K) :=
  match mo, u with
  | noInput _ d _, _ => .ok (d x)
  | withInput _ d _, some u => .ok (d u x)
  | withInput _ _ _, none => .ub

/-- `CovarianceGet(u,x)`, analyticsystemmodel_gaussianuncertainty.cpp:64-70 and
analyticmeasurementmodel_gaussianuncertainty.cpp:55-61. -/
def covGet (mo : AnalyticModel K n m U) (u : Option U) (x : Fin n → K) :
    Outcome (Matrix (Fin m) (Fin m) K) :=
  match mo, u with
  | noInput _ _ c, _ => .ok (c x)
  | withInput _ _ c, some u => .ok (c u x)
  | withInput _ _ _, none => .ub

end AnalyticModel

/-- Observable state of a `KalmanFilter`: mean and covariance of `_post`, and `_timestep`. The
density cache inside the `Gaussian` is modelled separately in `Verif.Model.Gaussian`. -/
structure KF (K : Type) (n : Nat) where
  mu : Fin n → K
  sigma : Matrix (Fin n) (Fin n) K
  timestep : Nat

namespace KF

/-- Constructor, kalmanfilter.cpp:28-37: the posterior is a copy of the prior; the time step is 0
(filter/filter.cpp:25-29). -/
def make (mu : Fin n → K) (sigma : Matrix (Fin n) (Fin n) K) : KF K n :=
  { mu := mu, sigma := sigma, timestep := 0 }

/-- `PostMuSet`, kalmanfilter.cpp:171-175, which calls `Gaussian::ExpectedValueSet`
(pdf/gaussian.cpp:190-199). -/
def postMuSet (f : KF K n) (c : Fin n → K) : KF K n := { f with mu := c }

/-- `PostSigmaSet`, kalmanfilter.cpp:165-169, which calls `Gaussian::CovarianceSet`
(pdf/gaussian.cpp:201-211). -/
def postSigmaSet (f : KF K n) (s : Matrix (Fin n) (Fin n) K) : KF K n := { f with sigma := s }

/-- `CalculateSysUpdate`, kalmanfilter.cpp:75-85. -/
def calculateSysUpdate (be : Backend) (f : KF K n) (J : Fin n → K) (F Q : Matrix (Fin n) (Fin n) K) :
    KF K n :=
  let sigmaTemp := F * (f.sigma * Fᵀ) + Q
  (f.postMuSet J).postSigmaSet (be.toSym sigmaTemp)

/-- `CalculateMeasUpdate`, kalmanfilter.cpp:87-127. -/
def calculateMeasUpdate (be : Backend) (f : KF K n) (z Z : Fin m → K) (H : Matrix (Fin m) (Fin n) K)
    (R : Matrix (Fin m) (Fin m) K) : Outcome (KF K n) := do
  let postHT := f.sigma * Hᵀ
  let S := H * postHT + R
  let Sinv ← be.inverse S
  let gain := postHT * Sinv
  let innov := z - Z
  let muNew := gain *ᵥ innov + f.mu
  let sigmaTemp := f.sigma - gain * H * f.sigma
  return (f.postMuSet muNew).postSigmaSet (be.toSym sigmaTemp)

/-- `CalculateNis`, kalmanfilter.cpp:129-146. Only work buffers and `_Nis` are written. -/
def calculateNis (be : Backend) (f : KF K n) (z Z : Fin m → K) (H : Matrix (Fin m) (Fin n) K)
    (R : Matrix (Fin m) (Fin m) K) : Outcome (K × KF K n) := do
  let postHT := f.sigma * Hᵀ
  let S := H * postHT + R
  let innov := z - Z
  let Sinv ← be.inverse S
  return (innov ⬝ᵥ (Sinv *ᵥ innov), f)

/-- `SysUpdate`, extendedkalmanfilter.cpp:74-84 and iteratedextendedkalmanfilter.cpp:79-96 (the two
are identical). -/
def sysUpdate (be : Backend) (sys : AnalyticModel K n n U) (u : Option U) (f : KF K n) :
    Outcome (KF K n) := do
  let x := f.mu
  let J ← sys.predictionGet u x
  let F ← sys.dfGet u x
  let Q ← sys.covGet u x
  return f.calculateSysUpdate be J F Q

/-- `ExtendedKalmanFilter::MeasUpdate`, extendedkalmanfilter.cpp:86-100. -/
def ekfMeasUpdate (be : Backend) (meas : AnalyticModel K n m U) (z : Fin m → K) (s : Option U)
    (f : KF K n) : Outcome (KF K n) := do
  let x := f.mu
  let Z ← meas.predictionGet s x
  let H ← meas.dfGet s x
  let R ← meas.covGet s x
  f.calculateMeasUpdate be z Z H R

/-- `ExtendedKalmanFilter::NisGet`, extendedkalmanfilter.cpp:102-112: always evaluates the model
with a default-constructed sensor parameter. -/
def nisGet (be : Backend) (meas : AnalyticModel K n m U) (z : Fin m → K) (f : KF K n) :
    Outcome (K × KF K n) := do
  let x := f.mu
  let Z ← meas.predictionGet none x
  let H ← meas.dfGet none x
  let R ← meas.covGet none x
  f.calculateNis be z Z H R

/-- `InnovationCheck::check`, innovationCheck.cpp:34-40. -/
def innovationCheck (minInnovation : K) (innovation : Fin n → K) : Bool :=
  decide (minInnovation ≤ innovation ⬝ᵥ innovation)

/-- `_innovationChecker->check`, iteratedextendedkalmanfilter.cpp:122-123: with a NULL pointer the
flag stays true. A user may derive from `InnovationCheck`, so the check is any function. -/
def passes (chk : Option ((Fin n → K) → Bool)) (innovation : Fin n → K) : Bool :=
  match chk with
  | none => true
  | some c => c innovation

/-- The loop of `IteratedExtendedKalmanFilter::MeasUpdate`, iteratedextendedkalmanfilter.cpp:112-133,
with `k` iterations left, at linearisation point `xi`; `buf` is the content of `_Z_i`, `_H_i` and
`_R_i`, `none` when never written. -/
def iekfLoop (be : Backend) (meas : AnalyticModel K n m U) (z : Fin m → K) (s : Option U)
    (chk : Option ((Fin n → K) → Bool)) (x : Fin n → K) (P : Matrix (Fin n) (Fin n) K) :
    Nat → (Fin n → K) →
    Option ((Fin m → K) × Matrix (Fin m) (Fin n) K × Matrix (Fin m) (Fin m) K) →
    Outcome (Option ((Fin m → K) × Matrix (Fin m) (Fin n) K × Matrix (Fin m) (Fin m) K))
  | 0, _, buf => .ok buf
  | k + 1, xi, _ => do
    let H ← meas.dfGet s xi
    let R ← meas.covGet s xi
    let S := H * P * Hᵀ + R
    let Sinv ← be.inverse S
    let gain := P * Hᵀ * Sinv
    let h ← meas.predictionGet s xi
    let Z := h + H *ᵥ (x - xi)
    let xi' := x + gain *ᵥ (z - Z)
    if passes chk (xi' - xi) then iekfLoop be meas z s chk x P k xi' (some (Z, H, R))
    else return some (Z, H, R)

/-- The end of `IteratedExtendedKalmanFilter::MeasUpdate`, iteratedextendedkalmanfilter.cpp:135: with
zero iterations the buffers are freshly allocated and not initialised. -/
def iekfFinish (be : Backend) (f : KF K n) (z : Fin m → K) :
    Option ((Fin m → K) × Matrix (Fin m) (Fin n) K × Matrix (Fin m) (Fin m) K) → Outcome (KF K n)
  | none => .ub
  | some (Z, H, R) => f.calculateMeasUpdate be z Z H R

/-- `IteratedExtendedKalmanFilter::MeasUpdate`, iteratedextendedkalmanfilter.cpp:98-136. -/
def iekfMeasUpdate (be : Backend) (nrIterations : Nat) (chk : Option ((Fin n → K) → Bool))
    (meas : AnalyticModel K n m U) (z : Fin m → K) (s : Option U) (f : KF K n) :
    Outcome (KF K n) := do
  let buf ← iekfLoop be meas z s chk f.mu f.sigma nrIterations f.mu none
  f.iekfFinish be z buf

/-- The two filters that share `KalmanFilter`. -/
inductive Kind (K : Type) (n : Nat) where
  | extended
  | iterated (nrIterations : Nat) (chk : Option ((Fin n → K) → Bool))

/-- The virtual `MeasUpdate`. -/
def measUpdate (be : Backend) (kind : Kind K n) (meas : AnalyticModel K n m U) (z : Fin m → K)
    (s : Option U) (f : KF K n) : Outcome (KF K n) :=
  match kind with
  | .extended => f.ekfMeasUpdate be meas z s
  | .iterated nr chk => f.iekfMeasUpdate be nr chk meas z s

/-- The measurement half of `UpdateInternal`, kalmanfilter.cpp:158-161. -/
def measPart (be : Backend) (kind : Kind K n) (f : KF K n) :
    Option (AnalyticModel K n m U × (Fin m → K) × Option U) → Outcome (KF K n)
  | none => .ok f
  | some (meas, z, s) => f.measUpdate be kind meas z s

/-- The system half of `UpdateInternal`, kalmanfilter.cpp:154-157. -/
def sysPart (be : Backend) (f : KF K n) :
    Option (AnalyticModel K n n U × Option U) → Outcome (KF K n)
  | none => .ok f
  | some (sys, u) => f.sysUpdate be sys u

/-- `UpdateInternal`, kalmanfilter.cpp:148-163, reached from every `Update` overload
(filter/filter.cpp:54-123). Always returns true; `_timestep` is not touched. -/
def update (be : Backend) (kind : Kind K n) (sys : Option (AnalyticModel K n n U × Option U))
    (meas : Option (AnalyticModel K n m U × (Fin m → K) × Option U)) (f : KF K n) :
    Outcome (Bool × KF K n) := do
  let f1 ← f.sysPart be sys
  let f2 ← f1.measPart be kind meas
  return (true, f2)

end KF

end BFL
