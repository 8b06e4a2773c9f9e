import Verif.Model.MatrixWrapper

/-!
# Model of the vector wrapper and of the copying functions of the matrix wrapper

`/repo/orocos_bfl/src/wrappers/matrix/vector_BOOST.cpp`, `vector_EIGEN.cpp`, `matrix_BOOST.cpp`,
`matrix_EIGEN.cpp`.

A vector is the list of its entries; `none` stands for an entry that was allocated and never
written. Reading such an entry, indexing outside the vector and violating a size precondition of
the back end (checked by the back ends in debug builds only) are `ub`. Sizes are natural numbers
below `2^32`, so that the unsigned subtraction `i - 1` at `i = 0` gives an index past the end.
Column and row vectors store the same data; where the two classes differ there are two functions.
-/

namespace BFL

variable {K : Type}

/-- Storage of a `ColumnVector` or `RowVector`. -/
abbrev Vec (K : Type) := List (Option K)

namespace Vec

/-- `ColumnVector(int num_rows)`, vector_BOOST.cpp:29, vector_EIGEN.cpp:10 (row vectors: 251 and
209): the entries are not initialised. -/
def alloc (n : Nat) : Vec K := List.replicate n none

/-- `ColumnVector(int num_rows, double value)`, vector_BOOST.cpp:30-32, vector_EIGEN.cpp:11-13 (row
vectors: 252-254 and 210-212). -/
def make (n : Nat) (x : K) : Vec K := List.replicate n (some x)

/-- `operator()(unsigned int i) const`, vector_BOOST.cpp:100-105, vector_EIGEN.cpp:69-74: entry
number `i`, counted from one. -/
def get (v : Vec K) (i : Nat) : Outcome K :=
  match i with
  | 0 => .ub
  | i + 1 => do
    let e ← vget v i
    readMember e

/-- Assignment through `double& operator()(unsigned int i)`, vector_BOOST.cpp:93-98,
vector_EIGEN.cpp:62-67. -/
def put (v : Vec K) (i : Nat) (x : K) : Outcome (Vec K) :=
  match i with
  | 0 => .ub
  | i + 1 => vset v i (some x)

/-- `operator[](unsigned int i)`, vector_wrapper.h:74-80: entries counted from zero. -/
def get0 (v : Vec K) (i : Nat) : Outcome K := v.get (i + 1)

/-- `resize`, vector_BOOST.cpp:58-62: `ublas::vector::resize` keeps the entries that fit and fills
up with zeros. vector_EIGEN.cpp:31-35: Eigen's `resize` allocates anew, unless the size is
unchanged. -/
def resize [Zero K] (be : Backend) (v : Vec K) (n : Nat) : Vec K :=
  match be with
  | .boost => v.take n ++ List.replicate (n - v.length) (some 0)
  | .eigen => if n = v.length then v else alloc n

/-- The loop of vector_BOOST.cpp:69-70 (row vectors: 277-278): `op1(i+1) = value` for `i` from
`i` on, `k` times. The object `op1` is the Boost vector, whose indices start at zero. -/
def assignLoop (x : K) : Nat → Nat → Vec K → Outcome (Vec K)
  | 0, _, v => .ok v
  | k + 1, i, v => do
    let v ← vset v (i + 1) (some x)
    assignLoop x k (i + 1) v

/-- `assign`, vector_BOOST.cpp:65-71 (row vectors: 273-279); vector_EIGEN.cpp:38-43 (231-236):
resize and `setConstant`. -/
def assign [Zero K] (be : Backend) (v : Vec K) (n : Nat) (x : K) : Outcome (Vec K) :=
  match be with
  | .boost => assignLoop x n 0 (v.resize .boost n)
  | .eigen => .ok ((v.resize .eigen n).map fun _ => some x)

/-- `operator=(double)`, vector_BOOST.cpp:225-231, vector_EIGEN.cpp:188-193. -/
def fill (v : Vec K) (x : K) : Vec K := v.map fun _ => some x

/-- The loops of vector_BOOST.cpp:84-88 (row vectors: 292-296): `res(off+i+1) = v(i+1)` for `k`
indices from `i` on. -/
def copyLoop (v : Vec K) (off : Nat) : Nat → Nat → Vec K → Outcome (Vec K)
  | 0, _, res => .ok res
  | k + 1, i, res => do
    let x ← v.get (i + 1)
    let res ← res.put (off + i + 1) x
    copyLoop v off k (i + 1) res

/-- Assignment `x.segment(start, n) = v` in Eigen (also `head` and `tail`): the segment must lie in
`x` and have the length of `v`. -/
def setSegment (x : Vec K) (start n : Nat) (v : Vec K) : Outcome (Vec K) :=
  if start + n ≤ x.length ∧ v.length = n then .ok (x.take start ++ v ++ x.drop (start + n))
  else .ub

/-- The common shape of the Eigen `vectorAdd`: a result of `n1 + n2` entries, whose first `n1` are
set to `v1` and whose last `n2` to `v2`. -/
def joinEigen (n1 n2 : Nat) (v1 v2 : Vec K) : Outcome (Vec K) := do
  let res ← (alloc (n1 + n2)).setSegment 0 n1 v1
  res.setSegment (n1 + n2 - n2) n2 v2

/-- Boost `vectorAdd` of two column vectors, vector_BOOST.cpp:78-91, of two row vectors, 286-299. -/
def joinBoost (v1 v2 : Vec K) : Outcome (Vec K) := do
  let res ← copyLoop v1 0 v1.length 0 (alloc (v1.length + v2.length))
  copyLoop v2 v1.length v2.length 0 res

/-- `ColumnVector::vectorAdd`, vector_BOOST.cpp:78-91, vector_EIGEN.cpp:50-60. -/
def vectorAdd (be : Backend) (v1 v2 : Vec K) : Outcome (Vec K) :=
  match be with
  | .boost => joinBoost v1 v2
  | .eigen => joinEigen v1.length v2.length v1 v2

/-- `RowVector::rows`, vector_EIGEN.cpp:239: a row vector has one row. -/
def rowVectorRows (_ : Vec K) : Nat := 1

/-- `RowVector::vectorAdd`, vector_BOOST.cpp:286-299; vector_EIGEN.cpp:243-252, which uses the
number of rows of its arguments where the number of columns is meant. -/
def rowVectorAdd (be : Backend) (v1 v2 : Vec K) : Outcome (Vec K) :=
  match be with
  | .boost => joinBoost v1 v2
  | .eigen => joinEigen v1.rowVectorRows v2.rowVectorRows v1 v2

/-- The loop of vector_BOOST.cpp:236-237: `subvector(j-j_start+1) = (*this)(j)` for `k` indices
from `j = start + i` on. -/
def subLoop (v : Vec K) (start : Nat) : Nat → Nat → Vec K → Outcome (Vec K)
  | 0, _, res => .ok res
  | k + 1, i, res => do
    let x ← v.get (start + i)
    let res ← res.put (i + 1) x
    subLoop v start k (i + 1) res

/-- `sub(int j_start, int j_end)`, vector_BOOST.cpp:233-240 (row vectors: 441-448): the entries
`j_start` to `j_end`, both included. vector_EIGEN.cpp:195-199 (383-387): the segment of
`j_end-j_start+1` entries from `j_start-1`. Simplification: the bounds are natural numbers; a
negative length asks for an impossible allocation and is `ub`, as is the start index 0 for Eigen
even if the length is zero. -/
def sub (be : Backend) (v : Vec K) (start stop : Nat) : Outcome (Vec K) :=
  if stop + 1 < start then .ub
  else match be with
  | .boost => subLoop v start (stop + 1 - start) 0 (alloc (stop + 1 - start))
  | .eigen =>
    if 1 ≤ start ∧ start - 1 + (stop + 1 - start) ≤ v.length then
      .ok ((v.drop (start - 1)).take (stop + 1 - start))
    else .ub

end Vec

namespace Mat

variable {r c : Nat}

/-- `Matrix::operator()(unsigned int, unsigned int) const`, matrix_BOOST.cpp:178-182,
matrix_EIGEN.cpp:160-164 and the same for `SymmetricMatrix`: row and column counted from one. -/
def get (m : Matrix (Fin r) (Fin c) K) (i j : Nat) : Outcome K :=
  if h : (1 ≤ i ∧ i ≤ r) ∧ (1 ≤ j ∧ j ≤ c) then .ok (m ⟨i - 1, by omega⟩ ⟨j - 1, by omega⟩)
  else .ub

/-- The loop `temp(i) = entry i` over all `i` below `n`, matrix_BOOST.cpp:206-207 and 215-216. -/
def copyEntries (n : Nat) (entry : Nat → Outcome K) : Outcome (Vec K) := do
  let l ← mapOutcome entry (List.range n)
  return l.map some

/-- `Matrix::rowCopy`, matrix_BOOST.cpp:202-209; matrix_EIGEN.cpp:183-186: Eigen's `row(r)`, which
counts from zero. -/
def rowCopy (be : Backend) (m : Matrix (Fin r) (Fin c) K) (i : Nat) : Outcome (Vec K) :=
  match be with
  | .boost => copyEntries c fun j => get m i (j + 1)
  | .eigen => if h : i < r then .ok ((List.ofFn (m ⟨i, h⟩)).map some) else .ub

/-- `Matrix::columnCopy`, matrix_BOOST.cpp:211-218; matrix_EIGEN.cpp:188-191: Eigen's `col(c)`. -/
def columnCopy (be : Backend) (m : Matrix (Fin r) (Fin c) K) (j : Nat) : Outcome (Vec K) :=
  match be with
  | .boost => copyEntries r fun i => get m (i + 1) j
  | .eigen => if h : j < c then .ok ((List.ofFn fun i => m i ⟨j, h⟩).map some) else .ub

/-- `SymmetricMatrix::rowCopy`, matrix_BOOST.cpp:366-374, matrix_EIGEN.cpp:282-290. -/
def symRowCopy (m : Matrix (Fin r) (Fin r) K) (i : Nat) : Outcome (Vec K) :=
  copyEntries r fun j => get m i (j + 1)

/-- `Matrix::operator[](unsigned int i)`, matrix_BOOST.cpp:50-52, matrix_EIGEN.cpp:32-34. -/
def index (be : Backend) (m : Matrix (Fin r) (Fin c) K) (i : Nat) : Outcome (Vec K) :=
  rowCopy be m i

end Mat

end BFL
