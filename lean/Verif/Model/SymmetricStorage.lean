import Verif.Model.MatrixWrapper

/-!
# Model of the storage of a `SymmetricMatrix`

Boost (`matrix_BOOST.h:40`): `ublas::symmetric_matrix<double, lower>`, which stores the entries on
and below the diagonal and finds the others by exchanging the indices. Eigen
(`matrix_EIGEN.h:14`): a full `MatrixXd`, like a `Matrix`. The number of rows is part of the type;
an entry never written is `none`, and reading it is `ub`.
-/

namespace BFL

/-- The stored entries. For Boost only those with column at most row are used. -/
abbrev SymStore (K : Type) (n : Nat) := Fin n → Fin n → Option K

namespace SymStore

variable {K : Type} {n : Nat}

/-- Where the entry in row `i` and column `j` is stored. -/
def place (be : Backend) (i j : Fin n) : Fin n × Fin n :=
  match be with
  | .boost => if j ≤ i then (i, j) else (j, i)
  | .eigen => (i, j)

/-- `SymmetricMatrix(int n)`, matrix_BOOST.cpp:337, matrix_EIGEN.cpp:251: nothing written. -/
def make : SymStore K n := fun _ _ => none

/-- `operator()(unsigned int a, unsigned int b) const`, matrix_BOOST.cpp:630-634,
matrix_EIGEN.cpp:491-495: row and column counted from one. -/
def get (be : Backend) (s : SymStore K n) (a b : Nat) : Outcome K :=
  if h : (1 ≤ a ∧ a ≤ n) ∧ (1 ≤ b ∧ b ≤ n) then
    let p := place be (⟨a - 1, by omega⟩ : Fin n) ⟨b - 1, by omega⟩
    readMember (s p.1 p.2)
  else .ub

/-- Assignment through `double& operator()(unsigned int a, unsigned int b)`,
matrix_BOOST.cpp:624-628, matrix_EIGEN.cpp:485-489. -/
def put (be : Backend) (s : SymStore K n) (a b : Nat) (x : K) : Outcome (SymStore K n) :=
  if h : (1 ≤ a ∧ a ≤ n) ∧ (1 ≤ b ∧ b ≤ n) then
    let p := place be (⟨a - 1, by omega⟩ : Fin n) ⟨b - 1, by omega⟩
    .ok fun i j => if (i, j) = p then some x else s i j
  else .ub

/-- `operator=(const double)`, matrix_BOOST.cpp:452-457, matrix_EIGEN.cpp:314-318. -/
def fill (_ : SymStore K n) (x : K) : SymStore K n := fun _ _ => some x

/-- The calls that change a symmetric matrix. -/
inductive Op (K : Type) where
  | put (a b : Nat) (x : K)
  | fill (x : K)

/-- One call. -/
def step (be : Backend) (s : SymStore K n) : Op K → Outcome (SymStore K n)
  | .put a b x => s.put be a b x
  | .fill x => .ok (s.fill x)

/-- A sequence of calls. -/
def run (be : Backend) (s : SymStore K n) : List (Op K) → Outcome (SymStore K n)
  | [] => .ok s
  | op :: ops => do
    let s ← s.step be op
    s.run be ops

end SymStore

end BFL
