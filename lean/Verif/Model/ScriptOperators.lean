import Verif.Model.MatrixProgram

/-!
# Arithmetic with vectors, and the operators that scripts are given

The arithmetic of `ColumnVector` and `RowVector`, `wrappers/matrix/vector_BOOST.cpp` and
`wrappers/matrix/vector_EIGEN.cpp` under `/repo/orocos_bfl/src`, the functors of
`/repo/bfl_typekit/src/bfl_typekit.cpp` and the table of operators that this file registers with the
script language (RTT, outside the repository).

Simplifications: vectors and matrices have been written completely before they are used; the contents
of newly allocated memory are one explicit input (`junk`). Of the script language only this is assumed: an
expression is resolved when the script is loaded, from the types of the operands, and the operator
that was registered first wins; there are no conversions between the five types. A script with an
expression that cannot be resolved is refused (`abort`).
-/

namespace BFL

/-- A `ColumnVector` or `RowVector`: `entry i`, counted from zero, is meaningful for `i < len`. -/
structure WVec (K : Type) where
  len : Nat
  entry : Nat → K

variable {K : Type} [Field K] [LinearOrder K]

namespace WVec

/-- `operator()(unsigned int) const`, vector_BOOST.cpp:100-105 and 308-313, vector_EIGEN.cpp:69-74 and
260-264. -/
def get (v : WVec K) (i : Nat) : Outcome K := if 1 ≤ i ∧ i ≤ v.len then .ok (v.entry (i - 1)) else .ub

/-- `operator+(double)` and the other three, vector_BOOST.cpp:172-192 and 379-399, vector_EIGEN.cpp:141-161
and 330-350. Division by zero gives infinite entries, which are outside the model, hence `ub`. -/
def scalar (op : ScalarOp) (v : WVec K) (a : K) : Outcome (WVec K) :=
  if op = .div ∧ a = 0 then .ub else .ok { v with entry := fun i => op.apply (v.entry i) a }

/-- `operator+` and `operator-` of two vectors, vector_BOOST.cpp:131-139 and 338-346, vector_EIGEN.cpp:100-108
and 289-297; `minus` selects the operator. Boost and Eigen do not check the sizes in every build. -/
def combine (minus : Bool) (v w : WVec K) : Outcome (WVec K) :=
  if v.len = w.len then
    .ok { v with entry := fun i => if minus then v.entry i - w.entry i else v.entry i + w.entry i }
  else .ub

/-- `norm_inf` of ublas for a vector: the largest absolute value, starting from zero. -/
def normInf (v : WVec K) : K := (List.range v.len).foldl (fun t i => max t |v.entry i|) 0

/-- `isApproxToConstant(0.0)` of Eigen with precision `prec`, as for matrices. -/
def approxZero (prec : K) (v : WVec K) : Bool :=
  decide (∀ i < v.len, |v.entry i - 0| ≤ min |v.entry i| |0| * prec)

/-- `operator==`, vector_BOOST.cpp:108-112 and 315-319, vector_EIGEN.cpp:77-81 and 266-270. -/
def equal (be : Backend) (prec : K) (v w : WVec K) : Bool :=
  if v.len ≠ w.len then false
  else match be with
  | .boost => decide (normInf ⟨v.len, fun i => v.entry i - w.entry i⟩ = 0)
  | .eigen => approxZero prec ⟨v.len, fun i => v.entry i - w.entry i⟩

/-- `operator=(double)`, vector_BOOST.cpp:225-231 and 433-439, vector_EIGEN.cpp:187-193 and 375-381. -/
def fill (v : WVec K) (a : K) : WVec K := { v with entry := fun _ => a }

/-- Inner loop of `ColumnVector * RowVector`, vector_BOOST.cpp:212-213: `result(i+1,j+1) = (*this)(i+1) *
a(j+1)` for `k` columns from `j` on. -/
def outerRow (v w : WVec K) (i : Nat) : Nat → Nat → WMat K → Outcome (WMat K)
  | 0, _, res => .ok res
  | k + 1, j, res => do
    let x ← v.get (i + 1)
    let y ← w.get (j + 1)
    let res ← res.put (i + 1) (j + 1) (x * y)
    outerRow v w i k (j + 1) res

/-- Outer loop, vector_BOOST.cpp:211-213: `k` rows from `i` on. -/
def outerRows (v w : WVec K) : Nat → Nat → WMat K → Outcome (WMat K)
  | 0, _, res => .ok res
  | k + 1, i, res => do
    let res ← outerRow v w i w.len 0 res
    outerRows v w k (i + 1) res

/-- `ColumnVector * RowVector`, vector_BOOST.cpp:205-215, vector_EIGEN.cpp:171-177. -/
def outer (be : Backend) (junk : Nat → Nat → K) (v w : WVec K) : Outcome (WMat K) :=
  match be with
  | .boost => outerRows v w v.len 0 ⟨v.len, w.len, junk⟩
  | .eigen => .ok ⟨v.len, w.len, fun i j => v.entry i * w.entry j⟩

/-- Loop of `RowVector * ColumnVector`, vector_BOOST.cpp:420-421: `k` entries from `i` on. -/
def innerLoop (v w : WVec K) : Nat → Nat → K → Outcome K
  | 0, _, res => .ok res
  | k + 1, i, res => do
    let x ← v.get (i + 1)
    let y ← w.get (i + 1)
    innerLoop v w k (i + 1) (res + x * y)

/-- `RowVector * ColumnVector`, vector_BOOST.cpp:412-423, vector_EIGEN.cpp:360-365. -/
def inner (be : Backend) (v w : WVec K) : Outcome K :=
  match be with
  | .boost => do
    cassert (v.len = w.len)
    innerLoop v w w.len 0 0
  | .eigen => if v.len = w.len then .ok (∑ i ∈ Finset.range v.len, v.entry i * w.entry i) else .ub

end WVec

/-- `Matrix * ColumnVector`, matrix_BOOST.cpp:164-168, matrix_EIGEN.cpp:146-150. -/
def WMat.mulVec (m : WMat K) (v : WVec K) : Outcome (WVec K) :=
  if m.cols = v.len then .ok ⟨m.rows, fun i => ∑ k ∈ Finset.range m.cols, m.entry i k * v.entry k⟩ else .ub

/-- `Matrix::operator=(double)`, matrix_BOOST.cpp:193-199, matrix_EIGEN.cpp:175-180. -/
def WMat.fill (m : WMat K) (a : K) : WMat K := { m with entry := fun _ _ => a }

/-- `SymmetricMatrix::operator=(double)`, matrix_BOOST.cpp:452-457, matrix_EIGEN.cpp:313-318. -/
def SMat.fill (s : SMat K) (a : K) : SMat K := { s with store := fun _ _ => a }

/-- The types that scripts know from the typekit, and the type of `==`. -/
inductive STy where
  | num | cv | rv | mat | sym | truth
  deriving DecidableEq, Repr

/-- A value of a script. -/
inductive SVal (K : Type) where
  | num (x : K)
  | cv (v : WVec K)
  | rv (v : WVec K)
  | mat (m : WMat K)
  | sym (s : SMat K)
  | truth (b : Bool)

/-- The type of a value. -/
def SVal.ty : SVal K → STy
  | num _ => .num
  | cv _ => .cv
  | rv _ => .rv
  | mat _ => .mat
  | sym _ => .sym
  | truth _ => .truth

/-- The symbols, bfl_typekit.cpp:236-276. -/
inductive OpSym where
  | plus | minus | times | over | equals | assign
  deriving DecidableEq, Repr

/-- The functors that are registered. -/
inductive OpFn where
  /-- `std::plus<T>` -/
  | stdPlus (t : STy)
  /-- `std::minus<T>` -/
  | stdMinus (t : STy)
  /-- `std::multiplies<Matrix>` -/
  | stdMultiplies
  /-- `std::equal_to<T>` -/
  | stdEqual (t : STy)
  /-- `set_T_d<T>`, bfl_typekit.cpp:108-116 -/
  | setTD (t : STy)
  /-- `multiply_sm_m`, bfl_typekit.cpp:128-135 -/
  | multiplySmM
  /-- `add_sm_m`, bfl_typekit.cpp:137-144 -/
  | addSmM
  /-- `subtract_sm_m`, bfl_typekit.cpp:146-153 -/
  | subtractSmM
  /-- `multiply_sm_cv`, bfl_typekit.cpp:155-162 -/
  | multiplySmCv
  /-- `multiply_m_cv`, bfl_typekit.cpp:164-171 -/
  | multiplyMCv
  /-- `multiply_cv_rv`, bfl_typekit.cpp:174-181 -/
  | multiplyCvRv
  /-- `multiply_rv_cv`, bfl_typekit.cpp:183-190 -/
  | multiplyRvCv
  /-- `multiply_T_double<T>`, `divide_T_double<T>`, `add_T_double<T>`, `subtract_T_double<T>`,
  bfl_typekit.cpp:192-230 -/
  | withDouble (op : ScalarOp) (t : STy)
  deriving DecidableEq, Repr

/-- The types of the operands, from the declarations of the functors. -/
def OpFn.args : OpFn → STy × STy
  | stdPlus t | stdMinus t | stdEqual t => (t, t)
  | stdMultiplies => (.mat, .mat)
  | setTD t | withDouble _ t => (t, .num)
  | multiplySmM | addSmM | subtractSmM => (.sym, .mat)
  | multiplySmCv => (.sym, .cv)
  | multiplyMCv => (.mat, .cv)
  | multiplyCvRv => (.cv, .rv)
  | multiplyRvCv => (.rv, .cv)

/-- The type of the result. -/
def OpFn.result : OpFn → STy
  | stdPlus t | stdMinus t | setTD t | withDouble _ t => t
  | stdEqual _ => .truth
  | stdMultiplies | multiplySmM | addSmM | subtractSmM | multiplyCvRv => .mat
  | multiplySmCv | multiplyMCv => .cv
  | multiplyRvCv => .num

/-- `loadOperators`, bfl_typekit.cpp:232-276: the operators in the order in which they are registered. -/
def typekitOps : List (OpSym × OpFn) :=
  [(.plus, .stdPlus .cv), (.plus, .stdPlus .rv), (.plus, .stdPlus .mat), (.plus, .stdPlus .sym),
   (.minus, .stdMinus .cv), (.minus, .stdMinus .rv), (.minus, .stdMinus .mat), (.minus, .stdMinus .sym),
   (.times, .stdMultiplies),
   (.equals, .stdEqual .cv), (.equals, .stdEqual .rv), (.equals, .stdEqual .mat), (.equals, .stdEqual .sym),
   (.times, .multiplyCvRv), (.times, .multiplyRvCv),
   (.assign, .setTD .mat), (.assign, .setTD .sym), (.assign, .setTD .cv), (.assign, .setTD .rv),
   (.times, .multiplySmM), (.times, .addSmM), (.times, .subtractSmM),
   (.times, .multiplyMCv), (.times, .multiplySmCv),
   (.times, .withDouble .mul .cv), (.times, .withDouble .mul .rv), (.times, .withDouble .mul .mat),
   (.times, .withDouble .mul .sym),
   (.over, .withDouble .div .cv), (.over, .withDouble .div .rv), (.over, .withDouble .div .mat),
   (.over, .withDouble .div .sym),
   (.plus, .withDouble .add .cv), (.plus, .withDouble .add .rv), (.plus, .withDouble .add .mat),
   (.plus, .withDouble .add .sym),
   (.minus, .withDouble .sub .cv), (.minus, .withDouble .sub .rv), (.minus, .withDouble .sub .mat),
   (.minus, .withDouble .sub .sym)]

/-- The operator that the script language picks: the first registered with this symbol and these types. -/
def resolve (ops : List (OpSym × OpFn)) (s : OpSym) (l r : STy) : Option OpFn :=
  (ops.find? fun e => decide (e.1 = s ∧ e.2.args = (l, r))).map Prod.snd

/-- A functor applied to two values, bfl_typekit.cpp:108-230; the arguments are copies. Values of other
types than declared do not occur. -/
def OpFn.apply (be : Backend) (prec : K) (junk : Nat → Nat → K) (f : OpFn) (a b : SVal K) :
    Outcome (SVal K) :=
  match f, a, b with
  | stdPlus .cv, .cv v, .cv w => do .ok (.cv (← v.combine false w))
  | stdPlus .rv, .rv v, .rv w => do .ok (.rv (← v.combine false w))
  | stdPlus .mat, .mat m, .mat p => do .ok (.mat (← m.arith .add p))
  | stdPlus .sym, .sym s, .sym t => do .ok (.sym (← s.combine be false t))
  | stdMinus .cv, .cv v, .cv w => do .ok (.cv (← v.combine true w))
  | stdMinus .rv, .rv v, .rv w => do .ok (.rv (← v.combine true w))
  | stdMinus .mat, .mat m, .mat p => do .ok (.mat (← m.arith .sub p))
  | stdMinus .sym, .sym s, .sym t => do .ok (.sym (← s.combine be true t))
  | stdMultiplies, .mat m, .mat p => do .ok (.mat (← m.arith .mul p))
  | stdEqual .cv, .cv v, .cv w => .ok (.truth (v.equal be prec w))
  | stdEqual .rv, .rv v, .rv w => .ok (.truth (v.equal be prec w))
  | stdEqual .mat, .mat m, .mat p => .ok (.truth (m.equal be prec p))
  | stdEqual .sym, .sym s, .sym t => .ok (.truth (s.equal be prec t))
  | setTD .cv, .cv v, .num d => .ok (.cv (v.fill d))
  | setTD .rv, .rv v, .num d => .ok (.rv (v.fill d))
  | setTD .mat, .mat m, .num d => .ok (.mat (m.fill d))
  | setTD .sym, .sym s, .num d => .ok (.sym (s.fill d))
  | multiplySmM, .sym s, .mat m => do .ok (.mat (← (s.toMat be).arith .mul m))
  | addSmM, .sym s, .mat m => do .ok (.mat (← (s.toMat be).arith .add m))
  | subtractSmM, .sym s, .mat m => do .ok (.mat (← (s.toMat be).arith .sub m))
  | multiplySmCv, .sym s, .cv v => do .ok (.cv (← (s.toMat be).mulVec v))
  | multiplyMCv, .mat m, .cv v => do .ok (.cv (← m.mulVec v))
  | multiplyCvRv, .cv v, .rv w => do .ok (.mat (← v.outer be junk w))
  | multiplyRvCv, .rv v, .cv w => do .ok (.num (← v.inner be w))
  | withDouble op .cv, .cv v, .num d => do .ok (.cv (← v.scalar op d))
  | withDouble op .rv, .rv v, .num d => do .ok (.rv (← v.scalar op d))
  | withDouble op .mat, .mat m, .num d => do .ok (.mat (← m.scalar op d))
  | withDouble op .sym, .sym s, .num d => do .ok (.sym (← s.scalar be op d))
  | _, _, _ => .ub

/-- An expression of a script: numbers, variables and operators. -/
inductive SExpr (K : Type) where
  | lit (x : K)
  | var (i : Nat)
  | bin (s : OpSym) (l r : SExpr K)

namespace SExpr

/-- The type that the script language finds when the script is loaded, for variables of the types `tys`;
`none` means that the script is refused. -/
def typeOf (ops : List (OpSym × OpFn)) (tys : List STy) : SExpr K → Option STy
  | lit _ => some .num
  | var i => tys[i]?
  | bin s l r =>
    match l.typeOf ops tys, r.typeOf ops tys with
    | some a, some b => (resolve ops s a b).map OpFn.result
    | _, _ => none

/-- The value of an expression, for variables with the values `env`. -/
def eval (be : Backend) (prec : K) (junk : Nat → Nat → K) (ops : List (OpSym × OpFn)) (env : List (SVal K)) :
    SExpr K → Outcome (SVal K)
  | lit x => .ok (.num x)
  | var i =>
    match env[i]? with
    | some v => .ok v
    | none => .abort
  | bin s l r => do
    let a ← l.eval be prec junk ops env
    let b ← r.eval be prec junk ops env
    match resolve ops s a.ty b.ty with
    | some f => f.apply be prec junk a b
    | none => .abort

end SExpr

end BFL
