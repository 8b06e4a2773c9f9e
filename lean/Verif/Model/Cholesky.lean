import Verif.Prelude
import Mathlib.Data.Matrix.Basic
import Mathlib.Data.List.FinRange

/-!
# Model of `SymmetricMatrix_Wrapper::cholesky_semidefinite`

`/repo/orocos_bfl/src/wrappers/matrix/matrix_wrapper.cpp:10-44`, loop by loop. Indices start at 0
here and at 1 in the source. `eps` is `std::numeric_limits<double>::epsilon()` and `sqrt` the C
function; the square root is only taken of non-negative numbers and the divisor is at least `eps`,
so the function is total.
-/

namespace BFL

variable {K : Type} [Field K] [LinearOrder K] {n : Nat}

/-- The assignment `a(i,j) = v`. -/
def setEntry (a : Matrix (Fin n) (Fin n) K) (i j : Fin n) (v : K) : Matrix (Fin n) (Fin n) K :=
  Matrix.of fun i' j' => if i' = i ∧ j' = j then v else a i' j'

/-- The values `k+1, …, sz` of a loop variable in increasing order. -/
def above (k : Fin n) : List (Fin n) := (List.finRange n).filter fun i => decide (k < i)

/-- The values `j, …, sz` of a loop variable in increasing order. -/
def fromIndex (j : Fin n) : List (Fin n) := (List.finRange n).filter fun i => decide (j ≤ i)

/-- matrix_wrapper.cpp:20-22: a pivot near zero is set to zero. -/
def cholSnap (eps : K) (a : Matrix (Fin n) (Fin n) K) (k : Fin n) : Matrix (Fin n) (Fin n) K :=
  if a k k < eps ∧ -eps < a k k then setEntry a k k 0 else a

/-- matrix_wrapper.cpp:29-34: the column below the pivot is divided by the pivot, or set to
zero. -/
def cholScale (eps : K) (a : Matrix (Fin n) (Fin n) K) (k : Fin n) : Matrix (Fin n) (Fin n) K :=
  (above k).foldl
    (fun a i => setEntry a i k (if a k k < eps then 0 else a i k / a k k)) a

/-- matrix_wrapper.cpp:36: the inner loop of the update of the remaining columns. -/
def cholReduceColumn (k : Fin n) (a : Matrix (Fin n) (Fin n) K) (j : Fin n) :
    Matrix (Fin n) (Fin n) K :=
  (fromIndex j).foldl (fun a i => setEntry a i j (a i j - a i k * a j k)) a

/-- matrix_wrapper.cpp:35-37: the update of the remaining columns. -/
def cholReduce (a : Matrix (Fin n) (Fin n) K) (k : Fin n) : Matrix (Fin n) (Fin n) K :=
  (above k).foldl (cholReduceColumn k) a

/-- matrix_wrapper.cpp:18-38: the remaining iterations of the outer loop; `none` is the early
return on a negative pivot (23-27). -/
def cholLoop (sqrt : K → K) (eps : K) : List (Fin n) → Matrix (Fin n) (Fin n) K →
    Option (Matrix (Fin n) (Fin n) K)
  | [], a => some a
  | k :: ks, a =>
    let a1 := cholSnap eps a k
    if a1 k k < 0 then none
    else
      let a2 := setEntry a1 k k (sqrt (a1 k k))
      let a3 := cholScale eps a2 k
      let a4 := cholReduce a3 k
      cholLoop sqrt eps ks a4

/-- matrix_wrapper.cpp:40-42: the entries above the diagonal are set to zero. -/
def zeroUpper (a : Matrix (Fin n) (Fin n) K) : Matrix (Fin n) (Fin n) K :=
  (List.finRange n).foldl
    (fun a i => (above i).foldl (fun a j => setEntry a i j 0) a) a

/-- `cholesky_semidefinite`, matrix_wrapper.cpp:10-44: the returned flag and the content of the
output argument. -/
def cholesky (sqrt : K → K) (eps : K) (A : Matrix (Fin n) (Fin n) K) :
    Bool × Matrix (Fin n) (Fin n) K :=
  match cholLoop sqrt eps (List.finRange n) A with
  | none => (false, 0)
  | some a => (true, zeroUpper a)

end BFL
