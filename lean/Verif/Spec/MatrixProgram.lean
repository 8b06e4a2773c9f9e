import Verif.Model.MatrixProgram

/-!
# Specification: programs with matrices as matrix algebra

What the commands of a client program mean, without storage and back ends: every variable is a
rectangular table of numbers, a symmetric matrix is a table that is symmetric. A command has a meaning
only under the conditions written here, which are the contract of the wrapper.
-/

namespace BFL.Spec

variable {K : Type} [Field K] [LinearOrder K]

/-- A table with `rows` rows and `cols` columns, counted from zero. -/
structure Table (K : Type) where
  rows : Nat
  cols : Nat
  entry : Nat → Nat → K

namespace Table

/-- Equal size and equal entries. -/
def Same (a b : Table K) : Prop :=
  a.rows = b.rows ∧ a.cols = b.cols ∧ ∀ i < a.rows, ∀ j < a.cols, a.entry i j = b.entry i j

/-- Square and equal to the mirrored table. -/
def Symmetric (a : Table K) : Prop :=
  a.rows = a.cols ∧ ∀ i < a.rows, ∀ j < a.cols, a.entry i j = a.entry j i

/-- All entries changed by `f`. -/
def map (f : K → K) (a : Table K) : Table K := ⟨a.rows, a.cols, fun i j => f (a.entry i j)⟩

/-- Entry by entry. -/
def zip (f : K → K → K) (a b : Table K) : Table K := ⟨a.rows, a.cols, fun i j => f (a.entry i j) (b.entry i j)⟩

/-- Rows times columns. -/
def mul (a b : Table K) : Table K :=
  ⟨a.rows, b.cols, fun i j => ∑ k ∈ Finset.range a.cols, a.entry i k * b.entry k j⟩

/-- Mirrored. -/
def flip (a : Table K) : Table K := ⟨a.cols, a.rows, fun i j => a.entry j i⟩

/-- Rows `i1` to `i2` and columns `j1` to `j2`, counted from one. -/
def cut (a : Table K) (i1 i2 j1 j2 : Nat) : Table K :=
  ⟨i2 + 1 - i1, j2 + 1 - j1, fun i j => a.entry (i1 - 1 + i) (j1 - 1 + j)⟩

/-- One entry, counted from one, changed. -/
def set (a : Table K) (i j : Nat) (x : K) : Table K :=
  { a with entry := fun p q => if p + 1 = i ∧ q + 1 = j then x else a.entry p q }

/-- The entry exists, counted from one. -/
def Has (a : Table K) (i j : Nat) : Prop := (1 ≤ i ∧ i ≤ a.rows) ∧ 1 ≤ j ∧ j ≤ a.cols

/-- The block of `cut` lies in the table; it may be empty. -/
def HasBlock (a : Table K) (i1 i2 j1 j2 : Nat) : Prop :=
  (1 ≤ i1 ∧ i1 ≤ i2 + 1 ∧ i2 ≤ a.rows) ∧ 1 ≤ j1 ∧ j1 ≤ j2 + 1 ∧ j2 ≤ a.cols

/-- The operators of two tables have a meaning for these sizes. -/
def Fits (op : MatOp) (a b : Table K) : Prop :=
  match op with
  | .mul => a.cols = b.rows
  | _ => a.rows = b.rows ∧ a.cols = b.cols

/-- The operators of two tables. -/
def arith (op : MatOp) (a b : Table K) : Table K :=
  match op with
  | .add => a.zip (· + ·) b
  | .sub => a.zip (· - ·) b
  | .mul => a.mul b

end Table

/-- The variables, and the results of the comparisons so far. -/
structure Tables (K : Type) where
  mats : List (Table K)
  syms : List (Table K)
  tests : List Bool

namespace Tables

/-- Start of a program. -/
def start : Tables K := ⟨[], [], []⟩

/-- A new matrix. -/
def addMat (t : Tables K) (a : Table K) : Tables K := { t with mats := t.mats ++ [a] }

/-- A new symmetric matrix. -/
def addSym (t : Tables K) (a : Table K) : Tables K := { t with syms := t.syms ++ [a] }

/-- What a command does. The conditions: indices and sizes must fit, no division by zero, a matrix is
resized to the size it has, a symmetric matrix is only made from or changed by symmetric data (an entry
off the diagonal is written together with its mirror image, rows are not given one by one). -/
inductive Step : Tables K → MatCmd K → Tables K → Prop
  | matNew (t : Tables K) (r c : Nat) (x : K) : Step t (.matNew r c x) (t.addMat ⟨r, c, fun _ _ => x⟩)
  | matPut (t : Tables K) (v i j : Nat) (x : K) (a : Table K) (ha : t.mats[v]? = some a) (h : a.Has i j) :
    Step t (.matPut v i j x) { t with mats := t.mats.set v (a.set i j x) }
  | matScalar (t : Tables K) (op : ScalarOp) (v : Nat) (x : K) (a : Table K) (ha : t.mats[v]? = some a)
    (h : op = .div → x ≠ 0) : Step t (.matScalar op v x) (t.addMat (a.map (op.apply · x)))
  | matArith (t : Tables K) (op : MatOp) (v w : Nat) (a b : Table K) (ha : t.mats[v]? = some a)
    (hb : t.mats[w]? = some b) (h : a.Fits op b) : Step t (.matArith op v w) (t.addMat (a.arith op b))
  | matTrans (t : Tables K) (v : Nat) (a : Table K) (ha : t.mats[v]? = some a) :
    Step t (.matTrans v) (t.addMat a.flip)
  | matSub (t : Tables K) (v i1 i2 j1 j2 : Nat) (junk : Nat → Nat → K) (a : Table K)
    (ha : t.mats[v]? = some a) (h : a.HasBlock i1 i2 j1 j2) :
    Step t (.matSub v i1 i2 j1 j2 junk) (t.addMat (a.cut i1 i2 j1 j2))
  | matResize (t : Tables K) (v : Nat) (junk : Nat → Nat → K) (a : Table K) (ha : t.mats[v]? = some a) :
    Step t (.matResize v a.rows a.cols junk) t
  | matRows (t : Tables K) (num : Nat) (row : List K) :
    Step t (.matRows num row) (t.addMat ⟨num, row.length, fun _ j => row.getD j 0⟩)
  | matEqual (t : Tables K) (v w : Nat) (a b : Table K) (ha : t.mats[v]? = some a)
    (hb : t.mats[w]? = some b) (r : Bool) (hr : r = true ↔ a.Same b) :
    Step t (.matEqual v w) { t with tests := t.tests ++ [r] }
  | symNew (t : Tables K) (n : Nat) (x : K) : Step t (.symNew n x) (t.addSym ⟨n, n, fun _ _ => x⟩)
  | symPut (t : Tables K) (v i : Nat) (x : K) (a : Table K) (ha : t.syms[v]? = some a) (h : a.Has i i) :
    Step t (.symPut v i i x) { t with syms := t.syms.set v (a.set i i x) }
  | symSet (t : Tables K) (v i j : Nat) (x : K) (a : Table K) (ha : t.syms[v]? = some a) (h : a.Has i j) :
    Step t (.symSet v i j x) { t with syms := t.syms.set v ((a.set i j x).set j i x) }
  | symScalar (t : Tables K) (op : ScalarOp) (v : Nat) (x : K) (a : Table K) (ha : t.syms[v]? = some a)
    (h : op = .div → x ≠ 0) : Step t (.symScalar op v x) (t.addSym (a.map (op.apply · x)))
  | symCombine (t : Tables K) (minus : Bool) (v w : Nat) (a b : Table K) (ha : t.syms[v]? = some a)
    (hb : t.syms[w]? = some b) (h : a.rows = b.rows) :
    Step t (.symCombine minus v w) (t.addSym (a.zip (fun x y => if minus then x - y else x + y) b))
  | symCombineMat (t : Tables K) (minus : Bool) (v w : Nat) (a b : Table K) (ha : t.syms[v]? = some a)
    (hb : t.mats[w]? = some b) (h : a.rows = b.rows) (hs : b.Symmetric) :
    Step t (.symCombineMat minus v w)
      { t with syms := t.syms.set v (a.zip (fun x y => if minus then x - y else x + y) b) }
  | symMat (t : Tables K) (op : MatOp) (v w : Nat) (a b : Table K) (ha : t.syms[v]? = some a)
    (hb : t.mats[w]? = some b) (h : a.Fits op b) : Step t (.symMat op v w) (t.addMat (a.arith op b))
  | symMul (t : Tables K) (v w : Nat) (a b : Table K) (ha : t.syms[v]? = some a)
    (hb : t.syms[w]? = some b) (h : a.Fits .mul b) : Step t (.symMul v w) (t.addMat (a.mul b))
  | symTrans (t : Tables K) (v : Nat) (a : Table K) (ha : t.syms[v]? = some a) :
    Step t (.symTrans v) (t.addSym a.flip)
  | symToMat (t : Tables K) (v : Nat) (a : Table K) (ha : t.syms[v]? = some a) :
    Step t (.symToMat v) (t.addMat a)
  | symSub (t : Tables K) (v i1 i2 j1 j2 : Nat) (junk : Nat → Nat → K) (a : Table K)
    (ha : t.syms[v]? = some a) (h : a.HasBlock i1 i2 j1 j2) :
    Step t (.symSub v i1 i2 j1 j2 junk) (t.addMat (a.cut i1 i2 j1 j2))
  | symEqual (t : Tables K) (v w : Nat) (a b : Table K) (ha : t.syms[v]? = some a)
    (hb : t.syms[w]? = some b) (r : Bool) (hr : r = true ↔ a.Same b) :
    Step t (.symEqual v w) { t with tests := t.tests ++ [r] }
  | toSym (t : Tables K) (v : Nat) (junk : Nat → Nat → K) (a : Table K) (ha : t.mats[v]? = some a)
    (hs : a.Symmetric) : Step t (.toSym v junk) (t.addSym a)

/-- A program within the contract. -/
inductive Steps : Tables K → List (MatCmd K) → Tables K → Prop
  | nil (t : Tables K) : Steps t [] t
  | cons {t u w : Tables K} {c : MatCmd K} {cs : List (MatCmd K)} (h : Step t c u) (hs : Steps u cs w) :
    Steps t (c :: cs) w

/-- A command whose indices or sizes do not fit the tables it names. -/
inductive Misfit : Tables K → MatCmd K → Prop
  | matPut (t : Tables K) (v i j : Nat) (x : K) (a : Table K) (ha : t.mats[v]? = some a) (h : ¬ a.Has i j) :
    Misfit t (.matPut v i j x)
  | matArith (t : Tables K) (op : MatOp) (v w : Nat) (a b : Table K) (ha : t.mats[v]? = some a)
    (hb : t.mats[w]? = some b) (h : ¬ a.Fits op b) : Misfit t (.matArith op v w)
  | symPut (t : Tables K) (v i j : Nat) (x : K) (a : Table K) (ha : t.syms[v]? = some a) (h : ¬ a.Has i j) :
    Misfit t (.symPut v i j x)
  | symCombine (t : Tables K) (minus : Bool) (v w : Nat) (a b : Table K) (ha : t.syms[v]? = some a)
    (hb : t.syms[w]? = some b) (h : a.rows ≠ b.rows) : Misfit t (.symCombine minus v w)
  | symCombineMat (t : Tables K) (minus : Bool) (v w : Nat) (a b : Table K) (ha : t.syms[v]? = some a)
    (hb : t.mats[w]? = some b) (h : ¬ (a.rows = b.rows ∧ a.cols = b.cols)) : Misfit t (.symCombineMat minus v w)
  | symMat (t : Tables K) (op : MatOp) (v w : Nat) (a b : Table K) (ha : t.syms[v]? = some a)
    (hb : t.mats[w]? = some b) (h : ¬ a.Fits op b) : Misfit t (.symMat op v w)
  | symMul (t : Tables K) (v w : Nat) (a b : Table K) (ha : t.syms[v]? = some a)
    (hb : t.syms[w]? = some b) (h : ¬ a.Fits .mul b) : Misfit t (.symMul v w)
  | matSub (t : Tables K) (v i1 i2 j1 j2 : Nat) (junk : Nat → Nat → K) (a : Table K)
    (ha : t.mats[v]? = some a) (hi : i1 ≤ i2) (hj : j1 ≤ j2) (h : ¬ a.HasBlock i1 i2 j1 j2) :
    Misfit t (.matSub v i1 i2 j1 j2 junk)
  | symSub (t : Tables K) (v i1 i2 j1 j2 : Nat) (junk : Nat → Nat → K) (a : Table K)
    (ha : t.syms[v]? = some a) (hi : i1 ≤ i2) (hj : j1 ≤ j2) (h : ¬ a.HasBlock i1 i2 j1 j2) :
    Misfit t (.symSub v i1 i2 j1 j2 junk)

end Tables

/-- The program's variables read as the tables say, in every entry, and the comparisons gave the same
results. -/
structure Shows (be : Backend) (s : MatState K) (t : Tables K) : Prop where
  numMats : s.mats.length = t.mats.length
  numSyms : s.syms.length = t.syms.length
  tests : s.tests = t.tests
  mats : ∀ (v : Nat) m a, s.mats[v]? = some m → t.mats[v]? = some a →
    m.rows = a.rows ∧ m.cols = a.cols ∧ ∀ i < a.rows, ∀ j < a.cols, m.get (i + 1) (j + 1) = .ok (a.entry i j)
  syms : ∀ (v : Nat) m a, s.syms[v]? = some m → t.syms[v]? = some a →
    m.n = a.rows ∧ m.n = a.cols ∧ ∀ i < a.rows, ∀ j < a.cols, m.get be (i + 1) (j + 1) = .ok (a.entry i j)

end BFL.Spec
