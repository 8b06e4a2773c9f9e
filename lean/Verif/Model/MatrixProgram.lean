import Verif.Model.MatrixWrapper
import Mathlib.Algebra.BigOperators.Group.Finset.Basic
import Mathlib.Algebra.Order.Group.Abs

/-!
# Programs that compute with the classes `Matrix` and `SymmetricMatrix`

The arithmetic of the matrix wrapper, `wrappers/matrix/matrix_BOOST.cpp` and
`wrappers/matrix/matrix_EIGEN.cpp` under `/repo/orocos_bfl/src`, as commands of a client program with
numbered variables. Sizes are only known at run time. The contents of newly allocated memory are an
explicit input (`junk`). An index or size out of range, for which Boost and Eigen check nothing or
throw an exception depending on how they are compiled, is `ub`.
-/

namespace BFL

/-- A `Matrix`: `entry i j`, counted from zero, is meaningful for `i < rows` and `j < cols`. -/
structure WMat (K : Type) where
  rows : Nat
  cols : Nat
  entry : Nat → Nat → K

/-- A `SymmetricMatrix`: the stored entries. Boost (matrix_BOOST.h:40) uses only those with column at
most row, Eigen (matrix_EIGEN.h:14) all. -/
structure SMat (K : Type) where
  n : Nat
  store : Nat → Nat → K

/-- The operators of a matrix with a scalar. -/
inductive ScalarOp where
  | add | sub | mul | div
  deriving DecidableEq, Repr

/-- The operators of two matrices. -/
inductive MatOp where
  | add | sub | mul
  deriving DecidableEq, Repr

variable {K : Type} [Field K] [LinearOrder K]

/-- An entry and a scalar. -/
def ScalarOp.apply (op : ScalarOp) (x a : K) : K :=
  match op with
  | .add => x + a
  | .sub => x - a
  | .mul => x * a
  | .div => x / a

namespace WMat

/-- `operator()(unsigned int, unsigned int) const`, matrix_BOOST.cpp:178-182, matrix_EIGEN.cpp:160-164. -/
def get (m : WMat K) (i j : Nat) : Outcome K :=
  if (1 ≤ i ∧ i ≤ m.rows) ∧ (1 ≤ j ∧ j ≤ m.cols) then .ok (m.entry (i - 1) (j - 1)) else .ub

/-- Assignment through `operator()(unsigned int, unsigned int)`, matrix_BOOST.cpp:172-176,
matrix_EIGEN.cpp:154-158. -/
def put (m : WMat K) (i j : Nat) (x : K) : Outcome (WMat K) :=
  if (1 ≤ i ∧ i ≤ m.rows) ∧ (1 ≤ j ∧ j ≤ m.cols) then
    .ok { m with entry := fun a b => if a = i - 1 ∧ b = j - 1 then x else m.entry a b }
  else .ub

/-- `operator+(double)` and the other three, matrix_BOOST.cpp:91-111, matrix_EIGEN.cpp:73-93 (the
compound forms 63-89 and 45-71 do the same in place). Division by zero gives infinite entries, which
are outside the model, hence `ub`. -/
def scalar (op : ScalarOp) (m : WMat K) (a : K) : Outcome (WMat K) :=
  if op = .div ∧ a = 0 then .ub
  else .ok { m with entry := fun i j => op.apply (m.entry i j) a }

/-- `operator+`, `operator-`, `operator*` of two matrices, matrix_BOOST.cpp:122-144,
matrix_EIGEN.cpp:104-126. -/
def arith (op : MatOp) (m p : WMat K) : Outcome (WMat K) :=
  match op with
  | .add => if m.rows = p.rows ∧ m.cols = p.cols then
      .ok { m with entry := fun i j => m.entry i j + p.entry i j } else .ub
  | .sub => if m.rows = p.rows ∧ m.cols = p.cols then
      .ok { m with entry := fun i j => m.entry i j - p.entry i j } else .ub
  | .mul => if m.cols = p.rows then
      .ok ⟨m.rows, p.cols, fun i j => ∑ k ∈ Finset.range m.cols, m.entry i k * p.entry k j⟩ else .ub

/-- `transpose`, matrix_BOOST.cpp:223-227, matrix_EIGEN.cpp:196-200. -/
def trans (m : WMat K) : WMat K := ⟨m.cols, m.rows, fun i j => m.entry j i⟩

/-- `norm_inf` of ublas: the largest sum of absolute values in a row, starting from zero. -/
def normInf (m : WMat K) : K :=
  (List.range m.rows).foldl (fun t i => max t (∑ j ∈ Finset.range m.cols, |m.entry i j|)) 0

/-- `isApproxToConstant(0.0)` of Eigen with precision `prec`: every entry `x` satisfies
`|x - 0| <= min(|x|, |0|) * prec`. -/
def approxZero (prec : K) (m : WMat K) : Bool :=
  decide (∀ i < m.rows, ∀ j < m.cols, |m.entry i j - 0| ≤ min |m.entry i j| |0| * prec)

/-- `operator==`, matrix_BOOST.cpp:184-189, matrix_EIGEN.cpp:166-171. `prec` is Eigen's precision for
doubles. -/
def equal (be : Backend) (prec : K) (m p : WMat K) : Bool :=
  if m.rows ≠ p.rows then false
  else if m.cols ≠ p.cols then false
  else match be with
  | .boost => decide (normInf ⟨m.rows, m.cols, fun i j => m.entry i j - p.entry i j⟩ = 0)
  | .eigen => approxZero prec ⟨m.rows, m.cols, fun i j => m.entry i j - p.entry i j⟩

/-- `Matrix(int num_rows, const RowVector& v)`, matrix_BOOST.cpp:44-48, matrix_EIGEN.cpp:25-30: every
row is the vector. -/
def ofRows (num : Nat) (v : List K) : WMat K := ⟨num, v.length, fun _ j => v.getD j 0⟩

/-- `resize`, matrix_BOOST.cpp:314-319: ublas keeps the entries that fit and fills up with zeros;
matrix_EIGEN.cpp:231-236: a matrix of the same size keeps its entries, otherwise they are those of new
memory. -/
def resize (be : Backend) (junk : Nat → Nat → K) (m : WMat K) (r c : Nat) : WMat K :=
  match be with
  | .boost => ⟨r, c, fun i j => if i < m.rows ∧ j < m.cols then m.entry i j else 0⟩
  | .eigen => if m.rows = r ∧ m.cols = c then m else ⟨r, c, junk⟩

end WMat

/-- Inner loop of `sub`, matrix_BOOST.cpp:326-327: `submatrix(i-i_start+1,j-j_start+1) = (*this)(i,j)`
for `k` columns from `j` on. `read` is `operator()` of the matrix. -/
def subRow (read : Nat → Nat → Outcome K) (i0 j0 i : Nat) : Nat → Nat → WMat K → Outcome (WMat K)
  | 0, _, res => .ok res
  | k + 1, j, res => do
    let x ← read i j
    let res ← res.put (i - i0 + 1) (j - j0 + 1) x
    subRow read i0 j0 i k (j + 1) res

/-- Outer loop of `sub`, matrix_BOOST.cpp:325-327: `k` rows from `i` on. -/
def subRows (read : Nat → Nat → Outcome K) (i0 j0 width : Nat) : Nat → Nat → WMat K → Outcome (WMat K)
  | 0, _, res => .ok res
  | k + 1, i, res => do
    let res ← subRow read i0 j0 i width j0 res
    subRows read i0 j0 width k (i + 1) res

/-- The loops of `Matrix::sub`, matrix_BOOST.cpp:322-330, and of `SymmetricMatrix::sub`,
matrix_BOOST.cpp:612-620, matrix_EIGEN.cpp:473-481. Simplification: the bounds are natural numbers; a
negative number of rows or columns asks for an impossible allocation and is `ub`. -/
def subLoops (read : Nat → Nat → Outcome K) (junk : Nat → Nat → K) (i1 i2 j1 j2 : Nat) :
    Outcome (WMat K) :=
  if i2 + 1 < i1 ∨ j2 + 1 < j1 then .ub
  else subRows read i1 j1 (j2 + 1 - j1) (i2 + 1 - i1) i1 ⟨i2 + 1 - i1, j2 + 1 - j1, junk⟩

/-- `Matrix::sub`; Eigen (matrix_EIGEN.cpp:239-244) takes a block, which must lie in the matrix. -/
def WMat.sub (be : Backend) (junk : Nat → Nat → K) (m : WMat K) (i1 i2 j1 j2 : Nat) :
    Outcome (WMat K) :=
  match be with
  | .boost => subLoops m.get junk i1 i2 j1 j2
  | .eigen =>
    if (1 ≤ i1 ∧ i1 ≤ i2 + 1 ∧ i2 ≤ m.rows) ∧ (1 ≤ j1 ∧ j1 ≤ j2 + 1 ∧ j2 ≤ m.cols) then
      .ok ⟨i2 + 1 - i1, j2 + 1 - j1, fun i j => m.entry (i1 - 1 + i) (j1 - 1 + j)⟩
    else .ub

namespace SMat

/-- The entry in row `i` and column `j`, counted from zero. -/
def view (be : Backend) (s : SMat K) (i j : Nat) : K :=
  match be with
  | .boost => if j ≤ i then s.store i j else s.store j i
  | .eigen => s.store i j

/-- `operator()(unsigned int, unsigned int) const`, matrix_BOOST.cpp:630-634, matrix_EIGEN.cpp:491-495. -/
def get (be : Backend) (s : SMat K) (i j : Nat) : Outcome K :=
  if (1 ≤ i ∧ i ≤ s.n) ∧ (1 ≤ j ∧ j ≤ s.n) then .ok (s.view be (i - 1) (j - 1)) else .ub

/-- Assignment through `operator()(unsigned int, unsigned int)`, matrix_BOOST.cpp:624-628,
matrix_EIGEN.cpp:485-489. -/
def put (be : Backend) (s : SMat K) (i j : Nat) (x : K) : Outcome (SMat K) :=
  if (1 ≤ i ∧ i ≤ s.n) ∧ (1 ≤ j ∧ j ≤ s.n) then
    match be with
    | .boost =>
      let hi := max (i - 1) (j - 1)
      let lo := min (i - 1) (j - 1)
      .ok { s with store := fun a b => if a = hi ∧ b = lo then x else s.store a b }
    | .eigen => .ok { s with store := fun a b => if a = i - 1 ∧ b = j - 1 then x else s.store a b }
  else .ub

/-- The conversion to `Matrix` and `Matrix::operator=(const SymmetricMatrix&)`, matrix_BOOST.cpp:113-119,
matrix_EIGEN.cpp:95-101. -/
def toMat (be : Backend) (s : SMat K) : WMat K := ⟨s.n, s.n, s.view be⟩

/-- A symmetric matrix from an expression with the entries `e`. Boost copies the stored half and then
checks that the whole result has these entries, and otherwise throws an exception (ublas with type
check, as in a build without NDEBUG). Simplification: the check is exact. -/
def ofExpr (be : Backend) (n : Nat) (e : Nat → Nat → K) : Outcome (SMat K) :=
  match be with
  | .boost => if ∀ i < n, ∀ j < n, e i j = e j i then .ok ⟨n, e⟩ else .abort
  | .eigen => .ok ⟨n, e⟩

/-- `operator+(double)` and the other three, matrix_BOOST.cpp:489-509, matrix_EIGEN.cpp:350-370 (compound
forms 461-487 and 322-348). -/
def scalar (be : Backend) (op : ScalarOp) (s : SMat K) (a : K) : Outcome (SMat K) :=
  if op = .div ∧ a = 0 then .ub
  else ofExpr be s.n fun i j => op.apply (s.view be i j) a

/-- `operator+` and `operator-` of two symmetric matrices, matrix_BOOST.cpp:573-587,
matrix_EIGEN.cpp:434-448 (compound forms 557-571 and 418-432); `minus` selects the operator. -/
def combine (be : Backend) (minus : Bool) (s t : SMat K) : Outcome (SMat K) :=
  if s.n = t.n then
    ofExpr be s.n fun i j => if minus then s.view be i j - t.view be i j else s.view be i j + t.view be i j
  else .ub

/-- `operator+=(const Matrix&)` and `operator-=(const Matrix&)`, matrix_BOOST.cpp:515-527,
matrix_EIGEN.cpp:376-388. The reference to the wrong class that they return is not used. -/
def combineMat (be : Backend) (minus : Bool) (s : SMat K) (m : WMat K) : Outcome (SMat K) :=
  if s.n = m.rows ∧ s.n = m.cols then
    ofExpr be s.n fun i j => if minus then s.view be i j - m.entry i j else s.view be i j + m.entry i j
  else .ub

/-- `transpose`, matrix_BOOST.cpp:376, matrix_EIGEN.cpp:292: a copy. -/
def trans (s : SMat K) : SMat K := s

/-- `operator==`, matrix_BOOST.cpp:636-641, matrix_EIGEN.cpp:497-502. -/
def equal (be : Backend) (prec : K) (s t : SMat K) : Bool := (s.toMat be).equal be prec (t.toMat be)

/-- `SymmetricMatrix(int num_rows, const RowVector& v)`, matrix_BOOST.cpp:338-342: the assignment of row
`i` writes the stored entries of that row; matrix_EIGEN.cpp:252-257: every row is the vector.
Simplification: a vector of another length than `num_rows`, with which Eigen makes a matrix that is not
square, is `ub`. -/
def ofRows (be : Backend) (num : Nat) (v : List K) : Outcome (SMat K) :=
  if v.length = num then
    match be with
    | .boost => .ok ⟨num, fun i j => if j ≤ i then v.getD j 0 else 0⟩
    | .eigen => .ok ⟨num, fun _ j => v.getD j 0⟩
  else .ub

end SMat

/-- Inner loop of `convertToSymmetricMatrix`, matrix_BOOST.cpp:309-310: `sym(i+1,j+1) = (*this)(i+1,j+1)` for
`k` columns from `j` on. -/
def convRow (m : WMat K) (i : Nat) : Nat → Nat → SMat K → Outcome (SMat K)
  | 0, _, s => .ok s
  | k + 1, j, s => do
    let x ← m.get (i + 1) (j + 1)
    let s ← s.put .boost (i + 1) (j + 1) x
    convRow m i k (j + 1) s

/-- Outer loop of `convertToSymmetricMatrix`, matrix_BOOST.cpp:308-310: `k` rows from `i` on, the columns 0
to `i`. -/
def convRows (m : WMat K) : Nat → Nat → SMat K → Outcome (SMat K)
  | 0, _, s => .ok s
  | k + 1, i, s => do
    let s ← convRow m i (i + 1) 0 s
    convRows m k (i + 1) s

/-- `convertToSymmetricMatrix`, matrix_BOOST.cpp:296-312 with a new symmetric matrix (lines 304-305);
matrix_EIGEN.cpp:220-229: the upper half of the matrix, mirrored. -/
def WMat.toSym (be : Backend) (junk : Nat → Nat → K) (m : WMat K) : Outcome (SMat K) := do
  cassert (m.rows = m.cols)
  match be with
  | .boost => convRows m m.rows 0 ⟨m.rows, junk⟩
  | .eigen => .ok ⟨m.rows, fun i j => if i ≤ j then m.entry i j else m.entry j i⟩

/-- A command of a client program. Most commands make a new variable for the result; `matPut`, `symPut`
and `symSet` change a variable. `junk` are the contents of new memory. -/
inductive MatCmd (K : Type) where
  | matNew (r c : Nat) (x : K)
  | matPut (v i j : Nat) (x : K)
  | matScalar (op : ScalarOp) (v : Nat) (a : K)
  | matArith (op : MatOp) (v w : Nat)
  | matTrans (v : Nat)
  | matSub (v i1 i2 j1 j2 : Nat) (junk : Nat → Nat → K)
  | matResize (v r c : Nat) (junk : Nat → Nat → K)
  | matRows (num : Nat) (row : List K)
  | matEqual (v w : Nat)
  | symNew (n : Nat) (x : K)
  | symPut (v i j : Nat) (x : K)
  | symSet (v i j : Nat) (x : K)
  | symScalar (op : ScalarOp) (v : Nat) (a : K)
  | symCombine (minus : Bool) (v w : Nat)
  | symCombineMat (minus : Bool) (v w : Nat)
  | symMat (op : MatOp) (v w : Nat)
  | symMul (v w : Nat)
  | symTrans (v : Nat)
  | symToMat (v : Nat)
  | symSub (v i1 i2 j1 j2 : Nat) (junk : Nat → Nat → K)
  | symRows (num : Nat) (row : List K)
  | symEqual (v w : Nat)
  | toSym (v : Nat) (junk : Nat → Nat → K)

/-- The variables of both classes and the results of the comparisons so far. -/
structure MatState (K : Type) where
  mats : List (WMat K)
  syms : List (SMat K)
  tests : List Bool

namespace MatState

/-- Start of a program. -/
def start : MatState K := ⟨[], [], []⟩

/-- A matrix variable. -/
def mat (s : MatState K) (v : Nat) : Outcome (WMat K) := vget s.mats v

/-- A symmetric matrix variable. -/
def sym (s : MatState K) (v : Nat) : Outcome (SMat K) := vget s.syms v

/-- A new matrix variable. -/
def addMat (s : MatState K) (m : WMat K) : MatState K := { s with mats := s.mats ++ [m] }

/-- A new symmetric matrix variable. -/
def addSym (s : MatState K) (m : SMat K) : MatState K := { s with syms := s.syms ++ [m] }

/-- One command. `symSet` is the pair of assignments `s(i,j) = x; s(j,i) = x;`. The operators of a
symmetric matrix with a matrix (matrix_BOOST.cpp:530-552, matrix_EIGEN.cpp:391-413) and the product of two
symmetric matrices (589-595, 450-456) have a `Matrix` as result. -/
def exec (be : Backend) (prec : K) (s : MatState K) : MatCmd K → Outcome (MatState K)
  | .matNew r c x => .ok (s.addMat ⟨r, c, fun _ _ => x⟩)
  | .matPut v i j x => do
    let m ← s.mat v
    let m ← m.put i j x
    return { s with mats := s.mats.set v m }
  | .matScalar op v a => do
    let m ← s.mat v
    let m ← m.scalar op a
    return s.addMat m
  | .matArith op v w => do
    let m ← s.mat v
    let p ← s.mat w
    let m ← m.arith op p
    return s.addMat m
  | .matTrans v => do
    let m ← s.mat v
    return s.addMat m.trans
  | .matSub v i1 i2 j1 j2 junk => do
    let m ← s.mat v
    let m ← m.sub be junk i1 i2 j1 j2
    return s.addMat m
  | .matResize v r c junk => do
    let m ← s.mat v
    return { s with mats := s.mats.set v (m.resize be junk r c) }
  | .matRows num row => .ok (s.addMat (WMat.ofRows num row))
  | .matEqual v w => do
    let m ← s.mat v
    let p ← s.mat w
    return { s with tests := s.tests ++ [m.equal be prec p] }
  | .symNew n x => .ok (s.addSym ⟨n, fun _ _ => x⟩)
  | .symPut v i j x => do
    let m ← s.sym v
    let m ← m.put be i j x
    return { s with syms := s.syms.set v m }
  | .symSet v i j x => do
    let m ← s.sym v
    let m ← m.put be i j x
    let m ← m.put be j i x
    return { s with syms := s.syms.set v m }
  | .symScalar op v a => do
    let m ← s.sym v
    let m ← m.scalar be op a
    return s.addSym m
  | .symCombine minus v w => do
    let m ← s.sym v
    let p ← s.sym w
    let m ← m.combine be minus p
    return s.addSym m
  | .symCombineMat minus v w => do
    let m ← s.sym v
    let p ← s.mat w
    let m ← m.combineMat be minus p
    return { s with syms := s.syms.set v m }
  | .symMat op v w => do
    let m ← s.sym v
    let p ← s.mat w
    let m ← (m.toMat be).arith op p
    return s.addMat m
  | .symMul v w => do
    let m ← s.sym v
    let p ← s.sym w
    let m ← (m.toMat be).arith .mul (p.toMat be)
    return s.addMat m
  | .symTrans v => do
    let m ← s.sym v
    return s.addSym m.trans
  | .symToMat v => do
    let m ← s.sym v
    return s.addMat (m.toMat be)
  | .symSub v i1 i2 j1 j2 junk => do
    let m ← s.sym v
    let m ← subLoops (m.get be) junk i1 i2 j1 j2
    return s.addMat m
  | .symRows num row => do
    let m ← SMat.ofRows be num row
    return s.addSym m
  | .symEqual v w => do
    let m ← s.sym v
    let p ← s.sym w
    return { s with tests := s.tests ++ [m.equal be prec p] }
  | .toSym v junk => do
    let m ← s.mat v
    let m ← m.toSym be junk
    return s.addSym m

/-- A program. -/
def run (be : Backend) (prec : K) (s : MatState K) : List (MatCmd K) → Outcome (MatState K)
  | [] => .ok s
  | c :: cs => do
    let s ← s.exec be prec c
    s.run be prec cs

end MatState

end BFL
