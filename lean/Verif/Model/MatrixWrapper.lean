import Verif.Prelude
import Mathlib.LinearAlgebra.Matrix.Adjugate
import Mathlib.LinearAlgebra.Matrix.Notation

/-!
# Model of the matrix wrapper (`/repo/orocos_bfl/src/wrappers/matrix/`)

The library is compiled against one of several linear algebra back ends; the Boost and the Eigen
one are modelled. The number of rows and columns is part of the type, so the asserts on matching
sizes inside `inverse`, `determinant` and `convertToSymmetricMatrix` always hold. Entries are
elements of an ordered field (exact arithmetic). A division by zero is `ub`: it is undefined in
C++, and on IEEE hardware yields infinities and NaNs, which the field has no name for.
-/

namespace BFL

/-- The linear algebra back end selected by CMake. -/
inductive Backend where
  | boost
  | eigen
  deriving DecidableEq, Repr

namespace Backend

variable {K : Type} [Field K] [DecidableEq K] {n : Nat}

/-- `Matrix::convertToSymmetricMatrix`. Boost, matrix_BOOST.cpp:296-312: the entries on and below
the diagonal are copied into the symmetric matrix. Eigen, matrix_EIGEN.cpp:220-229: the
self-adjoint view of the part on and above the diagonal. -/
def toSym (be : Backend) (a : Matrix (Fin n) (Fin n) K) : Matrix (Fin n) (Fin n) K :=
  match be with
  | boost => Matrix.of fun i j => if j ≤ i then a i j else a j i
  | eigen => Matrix.of fun i j => if i ≤ j then a i j else a j i

/-- `Matrix::determinant`, matrix_BOOST.cpp:229-255 and `SymmetricMatrix::determinant`, 416-448:
explicit formulas for one and two rows; otherwise the product of the pivots of Boost's
`lu_factorize` with the sign of the row exchanges, with an assert that no pivot vanished. For an
invertible matrix this product is the determinant; for a singular one the assert fails (both are
facts about the Boost library, which is trusted). Eigen, matrix_EIGEN.cpp:202-208 and 303-310:
Eigen's `determinant()`. -/
def determinant (be : Backend) : {n : Nat} → Matrix (Fin n) (Fin n) K → Outcome K
  | 1, a => .ok (a 0 0)
  | 2, a => .ok (a 0 0 * a 1 1 - a 1 0 * a 0 1)
  | _, a =>
    match be with
    | boost => if a.det = 0 then .abort else .ok a.det
    | eigen => .ok a.det

/-- `Matrix::inverse`, matrix_BOOST.cpp:258-293: explicit formulas for one and two rows; otherwise
Boost's `lu_factorize`, an assert that it succeeded (it fails exactly on singular matrices), and
`lu_substitute` into the identity. Eigen, matrix_EIGEN.cpp:211-217: Eigen's `inverse()`, which
divides by zero on a singular matrix. For three or more rows the two libraries are trusted to
compute the inverse, written here as the adjugate over the determinant. -/
def inverse (be : Backend) : {n : Nat} → Matrix (Fin n) (Fin n) K →
    Outcome (Matrix (Fin n) (Fin n) K)
  | 1, a => if a 0 0 = 0 then .ub else .ok !![1 / a 0 0]
  | 2, a =>
    let det := a 0 0 * a 1 1 - a 0 1 * a 1 0
    if det = 0 then .ub else .ok !![a 1 1 / det, -a 0 1 / det; -a 1 0 / det, a 0 0 / det]
  | _, a =>
    if a.det = 0 then
      match be with
      | boost => .abort
      | eigen => .ub
    else .ok (a.det⁻¹ • a.adjugate)

/-- `SymmetricMatrix::inverse`, matrix_BOOST.cpp:378-414: the same computation on the full matrix,
then the stored triangle of the result is kept. Eigen, matrix_EIGEN.cpp:294-301: the full
inverse. -/
def symInverse (be : Backend) (a : Matrix (Fin n) (Fin n) K) :
    Outcome (Matrix (Fin n) (Fin n) K) := do
  let b ← be.inverse a
  return match be with
    | boost => boost.toSym b
    | eigen => b

end Backend

end BFL
