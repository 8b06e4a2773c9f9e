import Verif.Model.Kalman
import Verif.Model.Cholesky

/-!
# Model of the square root iterated extended Kalman filter

`/repo/orocos_bfl/src/filter/SRiteratedextendedkalmanfilter.cpp` and the abstract class
`model/linearanalyticmeasurementmodel_gaussianuncertainty_implicit.h` that its measurement models
derive from. `sqrt` and `eps` are those of `cholesky_semidefinite` (`Verif.Model.Cholesky`). The
result flag of the Cholesky factorisation is ignored by the filter, so it is ignored here.
-/

namespace BFL

open Matrix

variable {K : Type} [Field K] [LinearOrder K] {n m : Nat} {U Sens : Type}

/-- A user supplied implicit measurement model,
linearanalyticmeasurementmodel_gaussianuncertainty_implicit.h:55-99. All members are pure virtual
there. `ExpectedValueGet()`, `CovarianceGet()`, `SRCovariance()` and `Is_Identity()` take no argument:
they answer for "the current x and z" (70-83), which are the ones last given to `df_dxGet`. -/
structure ImplicitModel (K : Type) (n m : Nat) (Sens : Type) where
  df : Sens → (Fin n → K) → Matrix (Fin m) (Fin n) K
  expected : Sens → (Fin n → K) → (Fin m → K)
  cov : Sens → (Fin n → K) → Matrix (Fin m) (Fin m) K
  srCov : Sens → (Fin n → K) → Matrix (Fin m) (Fin m) K
  isIdentity : Sens → (Fin n → K) → Bool

/-- State of an `SRIteratedExtendedKalmanFilter`: that of the Kalman filter, and the factor `JP`. -/
structure SRKF (K : Type) (n : Nat) where
  base : KF K n
  JP : Matrix (Fin n) (Fin n) K

namespace SRKF

/-- Constructor, SRiteratedextendedkalmanfilter.cpp:29-34. -/
def make (sqrt : K → K) (eps : K) (mu : Fin n → K) (sigma : Matrix (Fin n) (Fin n) K) : SRKF K n :=
  { base := KF.make mu sigma, JP := (cholesky sqrt eps sigma).2 }

/-- `SRCovarianceSet`, SRiteratedextendedkalmanfilter.cpp:158-161. -/
def srCovarianceSet (f : SRKF K n) (J : Matrix (Fin n) (Fin n) K) : SRKF K n := { f with JP := J }

/-- `PriorSet`, SRiteratedextendedkalmanfilter.cpp:163-167: the factor is left alone. -/
def priorSet (f : SRKF K n) (x : Fin n → K) (P : Matrix (Fin n) (Fin n) K) : SRKF K n :=
  { f with base := (f.base.postMuSet x).postSigmaSet P }

/-- `SysUpdate`, SRiteratedextendedkalmanfilter.cpp:38-56: the update of the Kalman filter, then the
Cholesky factor of the new covariance, transposed. -/
def sysUpdate (be : Backend) (sqrt : K → K) (eps : K) (sys : AnalyticModel K n n U) (u : Option U)
    (f : SRKF K n) : Outcome (SRKF K n) := do
  let x := f.base.mu
  let J ← sys.predictionGet u x
  let F ← sys.dfGet u x
  let Q ← sys.covGet u x
  let b := f.base.calculateSysUpdate be J F Q
  let JP := (cholesky sqrt eps b.sigma).2
  return { base := b, JP := JPᵀ }

/-- What `CalculateMatrix` writes into its output arguments. -/
structure Work (K : Type) (n m : Nat) where
  invS : Matrix (Fin m) (Fin m) K
  gain : Matrix (Fin n) (Fin m) K
  Sr : Matrix (Fin m) (Fin m) K

/-- `CalculateMatrix`, SRiteratedextendedkalmanfilter.cpp:187-210. -/
def calculateMatrix (be : Backend) (sqrt : K → K) (eps : K) (f : SRKF K n)
    (H : Matrix (Fin m) (Fin n) K) (R : Matrix (Fin m) (Fin m) K) : Outcome (Work K n m) := do
  let S1 := H * f.JP * f.JPᵀ * Hᵀ
  let S := be.toSym (S1 + R)ᵀ
  let Sr := ((cholesky sqrt eps S).2)ᵀ
  let invS ← be.inverse Sr
  return { invS := invS, gain := f.JP * f.JPᵀ * Hᵀ * invSᵀ * invS, Sr := Sr }

/-- `CalculateMean`, SRiteratedextendedkalmanfilter.cpp:212-218. -/
def calculateMean (f : SRKF K n) (xk : Fin n → K) (z Z : Fin m → K) (gain : Matrix (Fin n) (Fin m) K) :
    SRKF K n :=
  { f with base := f.base.postMuSet (xk + gain *ᵥ (z - Z)) }

/-- `CalculateCovariance`, SRiteratedextendedkalmanfilter.cpp:220-231. -/
def calculateCovariance (be : Backend) (f : SRKF K n) (Rvf : Matrix (Fin m) (Fin m) K)
    (H : Matrix (Fin m) (Fin n) K) (invS Sr : Matrix (Fin m) (Fin m) K) : Outcome (SRKF K n) := do
  let temp := Rvf + Sr
  let inv ← be.inverse temp
  let JP := f.JP - f.JP * f.JPᵀ * Hᵀ * invSᵀ * inv * H * f.JP
  return { base := f.base.postSigmaSet (be.toSym (JP * JPᵀ)ᵀ), JP := JP }

/-- The choice of `R_vf`, SRiteratedextendedkalmanfilter.cpp:103-112. -/
def noiseFactor (sqrt : K → K) (eps : K) (meas : ImplicitModel K n m Sens) (s : Sens)
    (x : Fin n → K) : Matrix (Fin m) (Fin m) K :=
  if meas.isIdentity s x then (meas.srCov s x)ᵀ else ((cholesky sqrt eps (meas.cov s x)).2)ᵀ

/-- The branch `if (i==nr_iterations)`, SRiteratedextendedkalmanfilter.cpp:136-139. -/
def covarianceIfLast (be : Backend) (last : Bool) (f : SRKF K n) (Rvf : Matrix (Fin m) (Fin m) K)
    (H : Matrix (Fin m) (Fin n) K) (invS Sr : Matrix (Fin m) (Fin m) K) : Outcome (SRKF K n) :=
  if last then f.calculateCovariance be Rvf H invS Sr else .ok f

/-- The loop of `MeasUpdate`, SRiteratedextendedkalmanfilter.cpp:93-141, with `k` iterations left.
The "numerical limitations" (114-130) never take effect and are left out: the macro
`Numerical_Limitation` is `100*100`, so `max(V(k),1.0/(100*100))` is at least 1e-4, while
`1/(100*100)` is the integer 0, and `change` stays 0. -/
def measLoop (be : Backend) (sqrt : K → K) (eps : K) (meas : ImplicitModel K n m Sens)
    (z : Fin m → K) (s : Sens) (xk : Fin n → K) : Nat → SRKF K n → Outcome (SRKF K n)
  | 0, f => .ok f
  | k + 1, f => do
    let xi := f.base.mu
    let H := meas.df s xi
    let Z := meas.expected s xi + H *ᵥ (xk - xi)
    let R := meas.cov s xi
    let Rvf := noiseFactor sqrt eps meas s xi
    let w ← f.calculateMatrix be sqrt eps H R
    let f1 := f.calculateMean xk z Z w.gain
    let f2 ← f1.covarianceIfLast be (k == 0) Rvf H w.invS w.Sr
    measLoop be sqrt eps meas z s xk k f2

/-- `MeasUpdate`, SRiteratedextendedkalmanfilter.cpp:65-142. -/
def measUpdate (be : Backend) (sqrt : K → K) (eps : K) (nrIterations : Nat)
    (meas : ImplicitModel K n m Sens) (z : Fin m → K) (s : Sens) (f : SRKF K n) :
    Outcome (SRKF K n) :=
  measLoop be sqrt eps meas z s f.base.mu nrIterations f

end SRKF

end BFL
