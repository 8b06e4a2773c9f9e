import Verif.Model.Gaussian
import Mathlib.Data.Matrix.Mul

/-!
# Model of the linear conditional Gaussian and of the linear models built on it

`pdf/conditionalpdf.h`, `pdf/analyticconditionalgaussian_additivenoise.cpp`,
`pdf/linearanalyticconditionalgaussian.cpp`, `model/systemmodel.cpp`, `model/measurementmodel.cpp`,
`model/analyticsystemmodel_gaussianuncertainty.cpp`,
`model/linearanalyticsystemmodel_gaussianuncertainty.cpp` and
`model/linearanalyticmeasurementmodel_gaussianuncertainty.cpp`, under `/repo/orocos_bfl/src`.

The dimension `n` of the additive noise is fixed by the type (that is the size of `_mean_temp`). The
matrices and the conditional arguments carry their own sizes, because the setters accept any size:
multiplying or adding vectors and matrices whose sizes disagree violates a precondition of the
matrix library and is `ub`.
-/

namespace BFL

open Matrix

/-- A `ColumnVector` together with its size. -/
abbrev DVec (K : Type) := Σ c : Nat, (Fin c → K)

/-- A `Matrix` together with its numbers of rows and columns. -/
abbrev DMat (K : Type) := Σ r : Nat, Σ c : Nat, Matrix (Fin r) (Fin c) K

variable {K : Type} [Field K]

/-- The product `M * v` added to a vector with `n` rows, as in linearanalyticconditionalgaussian.cpp:75. -/
def DMat.addMulVec {n : Nat} (M : DMat K) (v : DVec K) (acc : Fin n → K) : Outcome (Fin n → K) :=
  if h : M.1 = n ∧ M.2.1 = v.1 then
    .ok (acc + fun i => ∑ j : Fin v.1, M.2.2 (Fin.cast h.1.symm i) (Fin.cast h.2.symm j) * v.2 j)
  else .ub

/-- Data members of a `LinearAnalyticConditionalGaussian`. `meanTemp` and `arg` are the two mutable
work vectors of linearanalyticconditionalgaussian.h:103-104; the entries of a vector of given size
have no value before the first assignment (`none`). -/
structure LinCond (K : Type) (n : Nat) where
  numArgs : Nat
  args : List (DVec K)
  ratio : List (DMat K)
  mu : Fin n → K
  sigma : Matrix (Fin n) (Fin n) K
  meanTemp : Option (Fin n → K)
  arg : Option (DVec K)

namespace LinCond

variable {n : Nat}

/-- `ConditionalArgumentSet`, conditionalpdf.h:172-179. -/
def argSet (p : LinCond K n) (i : Nat) (v : DVec K) : Outcome (LinCond K n) := do
  cassert (i < p.numArgs)
  let a ← vset p.args i v
  return { p with args := a }

/-- `ConditionalArgumentGet`, conditionalpdf.h:164-170. -/
def argGet (p : LinCond K n) (i : Nat) : Outcome (DVec K) := do
  cassert (i < p.numArgs)
  vget p.args i

/-- `ConditionalArgumentsSet`, conditionalpdf.h:157-162. -/
def argsSet (p : LinCond K n) (l : List (DVec K)) : Outcome (LinCond K n) := do
  cassert (l.length = p.numArgs)
  return { p with args := l }

/-- `MatrixSet`, linearanalyticconditionalgaussian.cpp:95-100. -/
def matrixSet (p : LinCond K n) (i : Nat) (M : DMat K) : Outcome (LinCond K n) := do
  cassert (i < p.numArgs)
  let r ← vset p.ratio i M
  return { p with ratio := r }

/-- `MatrixGet` and `dfGet`, linearanalyticconditionalgaussian.cpp:81-86, 102-107. -/
def matrixGet (p : LinCond K n) (i : Nat) : Outcome (DMat K) := do
  cassert (i < p.numArgs)
  vget p.ratio i

/-- The zero vector with as many rows as the matrix has columns,
linearanalyticconditionalgaussian.cpp:40-41. -/
def zeroFor (M : DMat K) : DVec K := ⟨M.2.1, 0⟩

/-- The loop of the constructor, linearanalyticconditionalgaussian.cpp:38-43, from index `i` on, with
`todo` the matrices not treated yet. -/
def initLoop (p : LinCond K n) (i : Nat) : List (DMat K) → Outcome (LinCond K n)
  | [] => .ok p
  | M :: todo => do
    let p' ← p.argSet i (zeroFor M)
    initLoop p' (i + 1) todo

/-- The constructor, linearanalyticconditionalgaussian.cpp:29-44 (a list of matrices) and 46-58 (one
matrix). The conditional arguments are default constructed by conditionalpdf.h:116-120, that is
vectors of size zero, and the noise is copied from a `Gaussian` by
analyticconditionalgaussian_additivenoise.cpp:34-40. -/
def make (ratio : List (DMat K)) (mu : Fin n → K) (sigma : Matrix (Fin n) (Fin n) K) :
    Outcome (LinCond K n) :=
  initLoop { numArgs := ratio.length, args := List.replicate ratio.length ⟨0, 0⟩, ratio := ratio,
             mu := mu, sigma := sigma, meanTemp := none, arg := none } 0 ratio

/-- The loop of `ExpectedValueGet`, linearanalyticconditionalgaussian.cpp:72-76: `k` iterations
remain, the next index is `i`. -/
def meanLoop (p : LinCond K n) (i : Nat) : Nat → Outcome (LinCond K n)
  | 0 => .ok p
  | k + 1 => do
    let a ← p.argGet i
    let p1 := { p with arg := some a }
    let M ← p1.matrixGet i
    let v ← readMember p1.arg
    let t ← readMember p1.meanTemp
    let t' ← M.addMulVec v t
    meanLoop { p1 with meanTemp := some t' } (i + 1) k

/-- `ExpectedValueGet`, linearanalyticconditionalgaussian.cpp:68-79. -/
def expectedValueGet (p : LinCond K n) : Outcome ((Fin n → K) × LinCond K n) := do
  let p1 ← meanLoop { p with meanTemp := some 0 } 0 p.numArgs
  let t ← readMember p1.meanTemp
  let t' := t + p1.mu
  return (t', { p1 with meanTemp := some t' })

/-- `CovarianceGet`, analyticconditionalgaussian_additivenoise.cpp:54-58. -/
def covarianceGet (p : LinCond K n) : Matrix (Fin n) (Fin n) K := p.sigma

/-- `AdditiveNoiseMuSet` and `AdditiveNoiseSigmaSet`,
analyticconditionalgaussian_additivenoise.cpp:72-82, for arguments of the right size. -/
def muSet (p : LinCond K n) (m : Fin n → K) : LinCond K n := { p with mu := m }

@[inherit_doc muSet]
def sigmaSet (p : LinCond K n) (s : Matrix (Fin n) (Fin n) K) : LinCond K n := { p with sigma := s }

/-- `NumConditionalArgumentsSet`, linearanalyticconditionalgaussian.cpp:88-93 and
conditionalpdf.h:140-148: both vectors are truncated or filled up with default constructed objects. -/
def numArgsSet (p : LinCond K n) (k : Nat) : LinCond K n :=
  { p with numArgs := k, args := (p.args ++ List.replicate (k - p.args.length) (⟨0, 0⟩ : DVec K)).take k,
           ratio := (p.ratio ++ List.replicate (k - p.ratio.length) (⟨0, 0, 0⟩ : DMat K)).take k }

/-- A call on the object. -/
inductive Op (K : Type) (n : Nat) where
  | setArg (i : Nat) (v : DVec K)
  | setArgs (l : List (DVec K))
  | setMatrix (i : Nat) (M : DMat K)
  | setMu (m : Fin n → K)
  | setSigma (s : Matrix (Fin n) (Fin n) K)
  | mean
  | getArg (i : Nat)
  | getMatrix (i : Nat)

/-- Effect of one call. -/
def step (p : LinCond K n) : Op K n → Outcome (LinCond K n)
  | .setArg i v => p.argSet i v
  | .setArgs l => p.argsSet l
  | .setMatrix i M => p.matrixSet i M
  | .setMu m => .ok (p.muSet m)
  | .setSigma s => .ok (p.sigmaSet s)
  | .mean => do
    let (_, p') ← p.expectedValueGet
    return p'
  | .getArg i => do
    let _ ← p.argGet i
    return p
  | .getMatrix i => do
    let _ ← p.matrixGet i
    return p

/-- Effect of a history of calls. -/
def run : List (Op K n) → LinCond K n → Outcome (LinCond K n)
  | [], p => .ok p
  | op :: ops, p => do
    let p' ← p.step op
    run ops p'

end LinCond

/-- A `LinearAnalyticSystemModelGaussianUncertainty` or
`LinearAnalyticMeasurementModelGaussianUncertainty` together with the pdf it points to (the two
classes have the same code, with the names of the measurement model in parentheses below).
`without` is `_systemWithoutInputs` (`_systemWithoutSensorParams`). -/
structure LinModel (K : Type) (n : Nat) where
  pdf : LinCond K n
  without : Bool

namespace LinModel

variable {n : Nat}

/-- The constructor, systemmodel.cpp:21-49 (measurementmodel.cpp:25-53), called by
linearanalyticsystemmodel_gaussianuncertainty.cpp:29-33
(linearanalyticmeasurementmodel_gaussianuncertainty.cpp:29-32). -/
def make (p : LinCond K n) : Outcome (LinModel K n) :=
  if p.numArgs = 1 then .ok ⟨p, true⟩
  else if p.numArgs = 2 then .ok ⟨p, false⟩
  else .abort

/-- The first lines of the queries below: the state becomes argument 0, the input argument 1 if the
pdf has two arguments. -/
def condition (m : LinModel K n) (u x : DVec K) : Outcome (LinCond K n) := do
  let p ← m.pdf.argSet 0 x
  if p.numArgs = 2 then p.argSet 1 u else .ok p

/-- `PredictionGet(u,x)`, analyticsystemmodel_gaussianuncertainty.cpp:55-61
(linearanalyticmeasurementmodel_gaussianuncertainty.cpp:47-54). -/
def predictionGet (m : LinModel K n) (u x : DVec K) : Outcome ((Fin n → K) × LinModel K n) := do
  let p ← m.condition u x
  let (r, p') ← p.expectedValueGet
  return (r, { m with pdf := p' })

/-- `df_dxGet(u,x)`, analyticsystemmodel_gaussianuncertainty.cpp:46-52
(linearanalyticmeasurementmodel_gaussianuncertainty.cpp:67-74). -/
def dfGet (m : LinModel K n) (u x : DVec K) : Outcome (DMat K × LinModel K n) := do
  let p ← m.condition u x
  let r ← p.matrixGet 0
  return (r, { m with pdf := p })

/-- `CovarianceGet(u,x)`, analyticsystemmodel_gaussianuncertainty.cpp:64-70
(linearanalyticmeasurementmodel_gaussianuncertainty.cpp:57-64). -/
def covGet (m : LinModel K n) (u x : DVec K) :
    Outcome (Matrix (Fin n) (Fin n) K × LinModel K n) := do
  let p ← m.condition u x
  return (p.covarianceGet, { m with pdf := p })

/-- `ASet` (`HSet`), linearanalyticsystemmodel_gaussianuncertainty.cpp:39-42
(linearanalyticmeasurementmodel_gaussianuncertainty.cpp:77-81). -/
def aSet (m : LinModel K n) (a : DMat K) : Outcome (LinModel K n) := do
  let p ← m.pdf.matrixSet 0 a
  return { m with pdf := p }

/-- `BSet` (`JSet`), linearanalyticsystemmodel_gaussianuncertainty.cpp:44-47
(linearanalyticmeasurementmodel_gaussianuncertainty.cpp:84-88). -/
def bSet (m : LinModel K n) (b : DMat K) : Outcome (LinModel K n) := do
  let p ← m.pdf.matrixSet 1 b
  return { m with pdf := p }

/-- `AGet` (`HGet`), linearanalyticsystemmodel_gaussianuncertainty.cpp:49-53
(linearanalyticmeasurementmodel_gaussianuncertainty.cpp:91-95). -/
def aGet (m : LinModel K n) : Outcome (DMat K) := m.pdf.matrixGet 0

/-- `BGet` (`JGet`), linearanalyticsystemmodel_gaussianuncertainty.cpp:55-59
(linearanalyticmeasurementmodel_gaussianuncertainty.cpp:98-102). -/
def bGet (m : LinModel K n) : Outcome (DMat K) := m.pdf.matrixGet 1

/-- The first lines of the overloads with input of `ProbabilityGet` and `Simulate`,
systemmodel.cpp:128-130, 153-155 (measurementmodel.cpp:126-128, 154-156). -/
def conditionBoth (m : LinModel K n) (x u : DVec K) : Outcome (LinCond K n) := do
  cassert (m.without = false)
  let p ← m.pdf.argSet 0 x
  p.argSet 1 u

/-- The first lines of the overloads without input of `ProbabilityGet` and `Simulate`,
systemmodel.cpp:141-142, 162-163 (measurementmodel.cpp:141-142, 164-165). -/
def conditionState (m : LinModel K n) (x : DVec K) : Outcome (LinCond K n) := do
  cassert (m.without = true)
  m.pdf.argSet 0 x

/-- `ProbabilityGet`, systemmodel.cpp:149-165 (measurementmodel.cpp:149-167), with `c` the result of
`conditionBoth` or `conditionState`; the density is `ConditionalGaussian::ProbabilityGet`,
conditionalgaussian.cpp:47-57. -/
noncomputable def probabilityFrom (be : Backend) (c : Outcome (LinCond ℝ n)) (y : Fin n → ℝ) :
    Outcome ℝ := do
  let p ← c
  let (mean, p') ← p.expectedValueGet
  ConditionalGaussian.probabilityGet be mean p'.covarianceGet y

/-- `Simulate`, systemmodel.cpp:124-147 (measurementmodel.cpp:120-147), with `c` the result of
`conditionBoth` or `conditionState`; `z` are the values of `rnorm(0,1)` and `old` is the value of the
new sample. The success flag of `SampleFrom` is dropped. -/
noncomputable def simulateFrom (c : Outcome (LinCond ℝ n)) (method : SampleMthd)
    (old z : Fin n → ℝ) : Outcome (Fin n → ℝ) := do
  let p ← c
  let (mean, p') ← p.expectedValueGet
  return (ConditionalGaussian.sampleOne mean p'.covarianceGet method old z).2

/-- A call on the model. -/
inductive Op (K : Type) (n : Nat) where
  | setA (a : DMat K)
  | setB (b : DMat K)
  | predict (u x : DVec K)
  | df (u x : DVec K)
  | cov (u x : DVec K)
  | pdf (op : LinCond.Op K n)

/-- Effect of one call; `pdf` is a call on the pdf, to which the caller keeps a pointer. -/
def step (m : LinModel K n) : Op K n → Outcome (LinModel K n)
  | .setA a => m.aSet a
  | .setB b => m.bSet b
  | .predict u x => do
    let (_, m') ← m.predictionGet u x
    return m'
  | .df u x => do
    let (_, m') ← m.dfGet u x
    return m'
  | .cov u x => do
    let (_, m') ← m.covGet u x
    return m'
  | .pdf op => do
    let p ← m.pdf.step op
    return { m with pdf := p }

/-- Effect of a history of calls. -/
def run : List (Op K n) → LinModel K n → Outcome (LinModel K n)
  | [], m => .ok m
  | op :: ops, m => do
    let m' ← m.step op
    run ops m'

end LinModel

end BFL
