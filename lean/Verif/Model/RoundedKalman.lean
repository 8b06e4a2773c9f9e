import Verif.Model.Kalman
import Verif.Model.Rounded

/-!
# The Kalman filters with rounded arithmetic

`KalmanFilter::CalculateSysUpdate` and `CalculateMeasUpdate` of filter/kalmanfilter.cpp and
`CalculateCovariance` of filter/SRiteratedextendedkalmanfilter.cpp once more, with every addition,
subtraction, multiplication and division followed by a rounding `fl`. Assumed of the compiler and the
matrix library: every operation is rounded to double on its own, an entry of a product is
accumulated in a loop that starts at zero (Boost's `prod`), there is no contraction to fused
multiply-add and no extended precision.
-/

namespace BFL

open Matrix

variable {K : Type} [Field K] [LinearOrder K] {k l m n : Nat}

namespace Rounded

/-- `Matrix::operator*`, wrappers/matrix/matrix_BOOST.cpp:138-144 (`prod`). -/
def mul (fl : K → K) (a : Matrix (Fin k) (Fin l) K) (b : Matrix (Fin l) (Fin m) K) :
    Matrix (Fin k) (Fin m) K :=
  Matrix.of fun i j => sum fl (List.ofFn fun t => fl (a i t * b t j))

/-- `Matrix::operator+` and `+=`, wrappers/matrix/matrix_BOOST.cpp:130-136 and 146-152. -/
def add (fl : K → K) (a b : Matrix (Fin k) (Fin l) K) : Matrix (Fin k) (Fin l) K :=
  Matrix.of fun i j => fl (a i j + b i j)

/-- `Matrix::operator-` and `-=`, wrappers/matrix/matrix_BOOST.cpp:122-128 and 154-160. -/
def sub (fl : K → K) (a b : Matrix (Fin k) (Fin l) K) : Matrix (Fin k) (Fin l) K :=
  Matrix.of fun i j => fl (a i j - b i j)

/-- `Matrix * ColumnVector`, wrappers/matrix/matrix_BOOST.cpp:164-168. -/
def mulVec (fl : K → K) (a : Matrix (Fin k) (Fin l) K) (v : Fin l → K) : Fin k → K :=
  fun i => sum fl (List.ofFn fun t => fl (a i t * v t))

/-- `Matrix::inverse` of one row, wrappers/matrix/matrix_BOOST.cpp:258-270. Division by zero is `ub`
as in `Backend.inverse`. -/
def inverseOne (fl : K → K) (a : Matrix (Fin 1) (Fin 1) K) : Outcome (Matrix (Fin 1) (Fin 1) K) :=
  if a 0 0 = 0 then .ub else .ok !![fl (1 / a 0 0)]

/-- `CalculateSysUpdate`, filter/kalmanfilter.cpp:75-85. -/
def calculateSysUpdate (be : Backend) (fl : K → K) (f : KF K n) (J : Fin n → K)
    (F Q : Matrix (Fin n) (Fin n) K) : KF K n :=
  let sigmaTemp := add fl (mul fl F (mul fl f.sigma Fᵀ)) Q
  (f.postMuSet J).postSigmaSet (be.toSym sigmaTemp)

/-- `CalculateMeasUpdate` for a measurement of one dimension, filter/kalmanfilter.cpp:87-127. -/
def calculateMeasUpdate (be : Backend) (fl : K → K) (f : KF K n) (z Z : Fin 1 → K)
    (H : Matrix (Fin 1) (Fin n) K) (R : Matrix (Fin 1) (Fin 1) K) : Outcome (KF K n) := do
  let postHT := mul fl f.sigma Hᵀ
  let S := add fl (mul fl H postHT) R
  let Sinv ← inverseOne fl S
  let gain := mul fl postHT Sinv
  let innov : Fin 1 → K := fun i => fl (z i - Z i)
  let muNew : Fin n → K := fun i => fl (mulVec fl gain innov i + f.mu i)
  let sigmaTemp := sub fl f.sigma (mul fl (mul fl gain H) f.sigma)
  return (f.postMuSet muNew).postSigmaSet (be.toSym sigmaTemp)

/-- `CalculateCovariance` of the square root filter,
filter/SRiteratedextendedkalmanfilter.cpp:220-231, from the point where `temp.inverse()` has returned
`inv`: the new factor and the covariance that the filter reports. -/
def calculateCovariance (be : Backend) (fl : K → K) (JP : Matrix (Fin n) (Fin n) K)
    (H : Matrix (Fin m) (Fin n) K) (invS inv : Matrix (Fin m) (Fin m) K) :
    Matrix (Fin n) (Fin n) K × Matrix (Fin n) (Fin n) K :=
  let a := mul fl (mul fl (mul fl JP JPᵀ) Hᵀ) invSᵀ
  let JP := sub fl JP (mul fl (mul fl (mul fl a inv) H) JP)
  (JP, be.toSym (mul fl JP JPᵀ)ᵀ)

/-- The call that a filter of one state and one measurement makes to `CalculateSysUpdate`
(filter/extendedkalmanfilter.cpp:83) or `CalculateMeasUpdate` (99), with the numbers that the
user's models returned. -/
inductive Call (K : Type) where
  | sys (J F Q : K)
  | meas (z Z H R : K)

/-- The calls of a history. -/
def runCalls (be : Backend) (fl : K → K) (f : KF K 1) : List (Call K) → Outcome (KF K 1)
  | [] => .ok f
  | .sys J F Q :: cs => runCalls be fl (calculateSysUpdate be fl f ![J] !![F] !![Q]) cs
  | .meas z Z H R :: cs => do
    let f ← calculateMeasUpdate be fl f ![z] ![Z] !![H] !![R]
    runCalls be fl f cs

end Rounded

end BFL
