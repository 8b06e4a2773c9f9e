import Verif.Model.VectorWrapper
import Verif.Model.Prob
import Verif.Model.MCPdf

/-!
# Model of the RTT bindings: property bags and row access from scripts

`/repo/orocos_bfl/src/bindings/rtt/bfl_toolkit.cpp`, `bfl_toolkit.hpp`, `SampleComposition.hpp` and
`/repo/bfl_typekit/src/bflTypekitMatrix.cpp`.

RTT itself (the Orocos real-time toolkit) is not in the repository. What is assumed of it: a
`PropertyBag` has a type name and a list of named items; `add` appends; `size` is the number of
items; `getProperty<T>(name)` returns the first item of that name if it holds a `T`, and NULL
otherwise; `getItem(0)` is NULL for an empty bag; composing or decomposing a `RowVector` or
`ColumnVector` that sits inside another object goes through the functions registered for that type;
a property that exists is `ready()`. The descriptions of the items carry no data and are left out.
-/

namespace BFL

variable {K : Type}

/-- What an item of a `PropertyBag` holds: a `Property<double>` or a `Property<PropertyBag>` with
its type name and items. -/
inductive PVal (K : Type) where
  | num (x : K)
  | bag (type : String) (items : List (String × PVal K))

/-- A `PropertyBag`: type name and items in the order of insertion. -/
structure PBag (K : Type) where
  type : String
  items : List (String × PVal K)

namespace PBag

/-- A bag created by RTT as the target of `decomposeType`. -/
def fresh : PBag K := ⟨"", []⟩

/-- `PropertyBag::add`. -/
def add (b : PBag K) (name : String) (v : PVal K) : PBag K := { b with items := b.items ++ [(name, v)] }

/-- `PropertyBag::find`: the first item of that name. -/
def find (name : String) : List (String × PVal K) → Option (PVal K)
  | [] => none
  | (n, v) :: l => if n = name then some v else find name l

/-- `getProperty<double>(name)`; `none` is the NULL pointer. -/
def getNum (b : PBag K) (name : String) : Option K :=
  match find name b.items with
  | some (.num x) => some x
  | _ => none

/-- `getProperty<PropertyBag>(name)`; `none` is the NULL pointer. -/
def getBag (b : PBag K) (name : String) : Option (PBag K) :=
  match find name b.items with
  | some (.bag t l) => some ⟨t, l⟩
  | _ => none

end PBag

/-- `std::stringstream out; out << i;`. -/
def itemName (i : Nat) : String := toString i

/-- The loop of bfl_toolkit.cpp:123-128 (row vectors: 174-179): items `i`, `i+1`, ... for `k`
entries of the vector. -/
def decomposeVecLoop (v : Vec K) : Nat → Nat → PBag K → Outcome (PBag K)
  | 0, _, b => .ok b
  | k + 1, i, b => do
    let x ← v.get i
    decomposeVecLoop v k (i + 1) (b.add (itemName i) (.num x))

/-- `decomposeTypeImpl` of `ColumnVector`, bfl_toolkit.cpp:117-131, and of `RowVector`, 167-182.
`tn` is the type name, `"ColumnVector"` or `"RowVector"`. -/
def decomposeVec (tn : String) (v : Vec K) (target : PBag K) : Outcome (PBag K) :=
  decomposeVecLoop v v.length 1 { target with type := tn }

/-- The loop of bfl_toolkit.cpp:140-149 (row vectors: 191-200). `elem` is used without a check for
NULL; the test `elem->ready()` succeeds for every existing item. -/
def composeVecLoop (b : PBag K) : Nat → Nat → Vec K → Outcome (Vec K)
  | 0, _, v => .ok v
  | k + 1, i, v =>
    match b.getNum (itemName i) with
    | none => .ub
    | some x => do
      let v ← v.put i x
      composeVecLoop b k (i + 1) v

/-- `composeTypeImpl` of `ColumnVector`, bfl_toolkit.cpp:133-158, and of `RowVector`, 184-209: the
value returned and the vector `result` afterwards. -/
def composeVec [Zero K] (be : Backend) (tn : String) (b : PBag K) (result : Vec K) :
    Outcome (Bool × Vec K) :=
  if b.type = tn then do
    let v ← composeVecLoop b b.items.length 1 (result.resize be b.items.length)
    return (true, v)
  else .ok (false, result)

/-- A `Matrix` or `SymmetricMatrix` whose size is only known at run time: `entry i j`, counted from
zero, is meaningful for `i < rows` and `j < cols`; `none` is an entry that was never written. -/
structure DynMat (K : Type) where
  rows : Nat
  cols : Nat
  entry : Nat → Nat → Option K

namespace DynMat

/-- `Matrix()`, matrix_BOOST.cpp:31, matrix_EIGEN.cpp:12: no rows and no columns. -/
def empty : DynMat K := ⟨0, 0, fun _ _ => none⟩

/-- `resize`, matrix_BOOST.cpp:314-319: ublas keeps the entries that fit and fills up with zeros;
matrix_EIGEN.cpp:231-236: a matrix of the same size keeps its entries, otherwise they are lost
(simplification: also if the old and the new matrix have equally many entries). -/
def resize [Zero K] (be : Backend) (m : DynMat K) (r c : Nat) : DynMat K :=
  match be with
  | .boost => ⟨r, c, fun i j => if i < m.rows ∧ j < m.cols then m.entry i j else some 0⟩
  | .eigen => if m.rows = r ∧ m.cols = c then m else ⟨r, c, fun _ _ => none⟩

/-- Assignment through `operator()(unsigned int, unsigned int)`, matrix_BOOST.cpp:171-176,
matrix_EIGEN.cpp:153-158. -/
def put (m : DynMat K) (i j : Nat) (x : K) : Outcome (DynMat K) :=
  if (1 ≤ i ∧ i ≤ m.rows) ∧ (1 ≤ j ∧ j ≤ m.cols) then
    .ok { m with entry := fun a b => if a = i - 1 ∧ b = j - 1 then some x else m.entry a b }
  else .ub

/-- `Matrix::convertToSymmetricMatrix`, matrix_BOOST.cpp:296-312, matrix_EIGEN.cpp:220-229; see
`Backend.toSym`. The previous contents of the symmetric matrix play no role. -/
def toSym (be : Backend) (m : DynMat K) : Outcome (DynMat K) := do
  cassert (m.rows = m.cols)
  return match be with
  | .boost => ⟨m.rows, m.rows, fun i j => if j ≤ i then m.entry i j else m.entry j i⟩
  | .eigen => ⟨m.rows, m.rows, fun i j => if i ≤ j then m.entry i j else m.entry j i⟩

/-- The loop of bfl_toolkit.cpp:259-261 (326-328): `result(i,j) = row(j)` for `k` indices `j`. -/
def putRow (i : Nat) (row : Vec K) : Nat → Nat → DynMat K → Outcome (DynMat K)
  | 0, _, m => .ok m
  | k + 1, j, m => do
    let x ← row.get j
    let m ← m.put i j x
    putRow i row k (j + 1) m

end DynMat

/-- The loop of bfl_toolkit.cpp:221-228 (symmetric matrices: 287-295): one bag per row. -/
def decomposeMatLoop {r c : Nat} (be : Backend) (m : Matrix (Fin r) (Fin c) K) :
    Nat → Nat → PBag K → Outcome (PBag K)
  | 0, _, b => .ok b
  | k + 1, i, b => do
    let row ← Mat.rowCopy be m i
    let rb ← decomposeVec "RowVector" row .fresh
    decomposeMatLoop be m k (i + 1) (b.add (itemName i) (.bag rb.type rb.items))

/-- `decomposeTypeImpl` of `Matrix`, bfl_toolkit.cpp:217-231, and of `SymmetricMatrix`, 283-298,
which converts to a `Matrix` first; the same in bflTypekitMatrix.cpp:93-107 and 211-226. `tn` is
the type name. -/
def decomposeMat {r c : Nat} (be : Backend) (tn : String) (m : Matrix (Fin r) (Fin c) K)
    (target : PBag K) : Outcome (PBag K) :=
  decomposeMatLoop be m r 1 { target with type := tn }

/-- bfl_toolkit.cpp:251-258 (318-325): the first row fixes the number of columns and the size of
the result; another row of a different size is refused. -/
def sizeOfRow [Zero K] (be : Backend) (rows i cols : Nat) (row : Vec K) (m : DynMat K) :
    Option (Nat × DynMat K) :=
  if i = 1 then some (row.length, m.resize be rows row.length)
  else if row.length ≠ cols then none
  else some (cols, m)

/-- The loop over the rows, bfl_toolkit.cpp:238-266 (305-333). A row is composed into a new, empty
`RowVector`. Returns `false` and the matrix as far as written at the first failure. -/
def composeMatLoop [Zero K] (be : Backend) (b : PBag K) (rows : Nat) :
    Nat → Nat → Nat → DynMat K → Outcome (Bool × DynMat K)
  | 0, _, _, m => .ok (true, m)
  | k + 1, i, cols, m =>
    match b.getBag (itemName i) with
    | none => .ok (false, m)
    | some rb => do
      let (good, row) ← composeVec be "RowVector" rb []
      match good with
      | false => .ok (false, m)
      | true =>
        match sizeOfRow be rows i cols row m with
        | none => .ok (false, m)
        | some (cols, m) => do
          let m ← m.putRow i row row.length 1
          composeMatLoop be b rows k (i + 1) cols m

/-- `composeTypeImpl` of `Matrix`, bfl_toolkit.cpp:233-274, bflTypekitMatrix.cpp:109-150. -/
def composeMat [Zero K] (be : Backend) (b : PBag K) (result : DynMat K) :
    Outcome (Bool × DynMat K) :=
  if b.type = "Matrix" then composeMatLoop be b b.items.length b.items.length 1 0 result
  else .ok (false, result)

/-- `composeTypeImpl` of `SymmetricMatrix`, bfl_toolkit.cpp:300-342, bflTypekitMatrix.cpp:228-270:
the rows go into a local matrix, which is converted at the end. -/
def composeSym [Zero K] (be : Backend) (b : PBag K) (result : DynMat K) :
    Outcome (Bool × DynMat K) :=
  if b.type = "SymmetricMatrix" then do
    let (good, m) ← composeMatLoop be b b.items.length b.items.length 1 0 .empty
    match good with
    | false => .ok (false, result)
    | true => do
      let s ← m.toSym be
      return (true, s)
  else .ok (false, result)

/-- `decomposeTypeImpl` of `Probability`, bfl_toolkit.cpp:92-98. -/
def decomposeProb (p : K) (target : PBag K) : PBag K :=
  { target with type := "Probability" }.add "Probability" (.num p)

/-- `composeTypeImpl` of `Probability`, bfl_toolkit.cpp:99-106: the assignment converts the double
with the constructor of `Probability`. The type of the bag is not looked at. -/
def composeProb [Field K] [LinearOrder K] (b : PBag K) (prob : K) : Outcome (Bool × K) :=
  match b.getNum "Probability" with
  | none => .ok (false, prob)
  | some x => do
    let p ← mkProb x
    return (true, p)

section WeightedSamples

variable [Field K] [LinearOrder K]

/-- `decomposeProperty` of `WeightedSample<ColumnVector>`, SampleComposition.hpp:187-216. -/
def decomposeWSample (s : WSample K (Vec K)) (target : PBag K) : Outcome (PBag K) := do
  cassert (target.items = [])
  let vb ← decomposeVec "ColumnVector" s.value .fresh
  let w ← s.weightGet
  return ({ target with type := "WeightedSample" }.add "WeightedSampleValue"
    (.bag vb.type vb.items)).add "WeightedSampleWeight" (.num w)

/-- SampleComposition.hpp:234-247, the branch for a value that is not a bag, for
`T = ColumnVector`: the first item is looked at without a check for NULL, and an item that is not a
column vector is refused. Every item of this model is a number or a bag. -/
def composeWSamplePlain (b : PBag K) (s : WSample K (Vec K)) :
    Outcome (Bool × WSample K (Vec K)) :=
  match b.items with
  | [] => .ub
  | _ :: _ => .ok (false, s)

/-- SampleComposition.hpp:263-273: the weight. -/
def composeWeight (b : PBag K) (s : WSample K (Vec K)) : Outcome (Bool × WSample K (Vec K)) :=
  match b.getNum "WeightedSampleWeight" with
  | none => .ok (false, s)
  | some w => do
    let s ← s.weightSet w
    return (true, s)

/-- `composeProperty` of `WeightedSample<ColumnVector>`, SampleComposition.hpp:223-281. The value is
composed into a new, empty vector. -/
def composeWSample (be : Backend) (b : PBag K) (s : WSample K (Vec K)) :
    Outcome (Bool × WSample K (Vec K)) :=
  if b.type = "WeightedSample" then
    match b.getBag "WeightedSampleValue" with
    | none => composeWSamplePlain b s
    | some vb => do
      let (good, v) ← composeVec be "ColumnVector" vb []
      match good with
      | false => .ok (false, s)
      | true => composeWeight b { s with value := v }
  else .ok (false, s)

end WeightedSamples

/-! ## Row access from scripts -/

/-- `vector_index` and `rvector_index`, bfl_toolkit.cpp:347-367, the operator `[]` on vectors;
`none` is the returned `NAN`. -/
def toolkitVecIndex (v : Vec K) (index : Int) : Outcome (Option K) :=
  if index > v.length ∨ index < 1 then .ok none
  else do
    let x ← v.get index.toNat
    return some x

/-- Access to `m[index]` through the container type info of the older toolkit:
`MatrixIndexChecker`, bfl_toolkit.hpp:59-67, decides whether `operator[]` is evaluated; `none` means
refused. The index arrives as an `unsigned int`, so a negative one is larger than any number of rows. -/
def toolkitRow {r c : Nat} (be : Backend) (m : Matrix (Fin r) (Fin c) K) (index : Int) :
    Outcome (Option (Vec K)) :=
  if index > 0 ∧ index < r then do
    let v ← Mat.index be m index.toNat
    return some v
  else .ok none

/-- `get_matrix_item<Matrix>` and `get_matrix_item_copy<Matrix>`, bflTypekitMatrix.cpp:20-34;
`none` is the value "not available". -/
def typekitRow {r c : Nat} (be : Backend) (m : Matrix (Fin r) (Fin c) K) (index : Int) :
    Outcome (Option (Vec K)) :=
  if index ≥ r ∨ index < 0 then .ok none
  else do
    let v ← Mat.index be m index.toNat
    return some v

/-- The same functions for `SymmetricMatrix`, whose `operator[]`, matrix_BOOST.cpp:344-346 and
matrix_EIGEN.cpp:259-261, is its own `rowCopy`. -/
def typekitSymRow {r : Nat} (m : Matrix (Fin r) (Fin r) K) (index : Int) :
    Outcome (Option (Vec K)) :=
  if index ≥ r ∨ index < 0 then .ok none
  else do
    let v ← Mat.symRowCopy m index.toNat
    return some v

/-- Row access to a `SymmetricMatrix` through the older toolkit, bfl_toolkit.hpp:59-67. -/
def toolkitSymRow {r : Nat} (m : Matrix (Fin r) (Fin r) K) (index : Int) :
    Outcome (Option (Vec K)) :=
  if index > 0 ∧ index < r then do
    let v ← Mat.symRowCopy m index.toNat
    return some v
  else .ok none

end BFL
