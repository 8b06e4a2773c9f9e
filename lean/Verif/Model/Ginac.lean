import Verif.Model.Kalman
import Verif.Model.Gaussian

/-!
# Model of `pdf/nonlinearanalyticconditionalgaussian_ginac.cpp`

Paths are relative to `/repo/orocos_bfl/src`. The pdf is given by a column of symbolic expressions
in the symbols `u` of the input and `x` of the state. GiNaC itself is not part of the repository;
`Expr`, `Expr.diff`, `Expr.subs` and `Expr.evalf` are what is assumed about it: expressions built
from numbers, symbols, sums, products, reciprocals, sine, cosine and exponential, differentiated by
the textbook rules. GiNaC also simplifies expressions when they are built (`x/x` becomes `1`), which
can only make an evaluation succeed that fails here. Other functions GiNaC knows (roots, logarithms,
...) are left out, numbers are exact reals.

Symbols are numbers: two symbols are equal in GiNaC if they are copies of the same one. The sizes of
the function (`f`), the input (`p`), the state (`n`) and the noise (`d`) are fixed by the types, the
list `cond` of noisy inputs has a length known at run time only.
-/

namespace BFL

open Matrix

namespace Ginac

/-- `GiNaC::ex`, restricted as said above. -/
inductive Expr where
  | num (c : ℝ)
  | sym (s : Nat)
  | add (a b : Expr)
  | mul (a b : Expr)
  | inv (a : Expr)
  | sin (a : Expr)
  | cos (a : Expr)
  | exp (a : Expr)

namespace Expr

/-- `ex::diff(symbol)`, used at nonlinearanalyticconditionalgaussian_ginac.cpp:53, 57, 81, 103, 107. -/
noncomputable def diff (t : Nat) : Expr → Expr
  | num _ => num 0
  | sym s => num (if s = t then 1 else 0)
  | add a b => add (diff t a) (diff t b)
  | mul a b => add (mul (diff t a) b) (mul a (diff t b))
  | inv a => mul (num (-1)) (mul (diff t a) (inv (mul a a)))
  | sin a => mul (cos a) (diff t a)
  | cos a => mul (num (-1)) (mul (sin a) (diff t a))
  | exp a => mul (exp a) (diff t a)

/-- `ex::subs(s == v)`, used at 153, 157, 192, 196, 244, 248. -/
def subs (s : Nat) (v : ℝ) : Expr → Expr
  | num c => num c
  | sym t => if t = s then num v else sym t
  | add a b => add (subs s v a) (subs s v b)
  | mul a b => mul (subs s v a) (subs s v b)
  | inv a => inv (subs s v a)
  | sin a => sin (subs s v a)
  | cos a => cos (subs s v a)
  | exp a => exp (subs s v a)

/-- The reciprocal of a number: GiNaC throws an exception for zero (`pole_error`), which nothing in
the library catches. -/
noncomputable def recip (v : ℝ) : Outcome ℝ := if v = 0 then .abort else .ok v⁻¹

/-- `ex_to<numeric>(e.evalf()).to_double()`, 160, 204, 256. An expression with a symbol left in it
does not evaluate to a number, and `ex_to` does not check that: `ub`. -/
noncomputable def evalf : Expr → Outcome ℝ
  | num c => .ok c
  | sym _ => .ub
  | add a b => do
    let v ← evalf a
    let w ← evalf b
    return v + w
  | mul a b => do
    let v ← evalf a
    let w ← evalf b
    return v * w
  | inv a => do
    let v ← evalf a
    recip v
  | sin a => do
    let v ← evalf a
    return Real.sin v
  | cos a => do
    let v ← evalf a
    return Real.cos v
  | exp a => do
    let v ← evalf a
    return Real.exp v

/-- The loop `for j: substitute = substitute.subs(sym[j] == num(j+1))`, 152-153, 156-157 and the
same lines in the two other functions. -/
noncomputable def subsAll {k : Nat} (s : Fin k → Nat) (v : Fin k → ℝ) (e : Expr) : Expr :=
  (List.finRange k).foldl (fun e j => e.subs (s j) (v j)) e

end Expr

/-- Filling a vector entry by entry with values that may fail: the first failure ends the loop. -/
def collect {k : Nat} {α : Type} (g : Fin k → Outcome α) : Outcome (Fin k → α) :=
  match k with
  | 0 => .ok Fin.elim0
  | _ + 1 => do
    let a ← g 0
    let as ← collect fun i => g i.succ
    return Fin.cons a as

/-- State of the pdf, nonlinearanalyticconditionalgaussian_ginac.h:111-125, and of its base class
`AnalyticConditionalGaussianAdditiveNoise`. `cond` is empty if the noise is added to the function
value. -/
structure Pdf (f p n d : Nat) where
  numArgs : Nat
  mu : Fin d → ℝ
  sigma : Matrix (Fin d) (Fin d) ℝ
  func : Fin f → Expr
  cond : List Nat
  u : Fin p → Nat
  x : Fin n → Nat
  dcond : List (Fin f → Expr)
  dx : Fin n → Fin f → Expr

namespace Pdf

variable {f p n d : Nat}

/-- `func_sym.diff(s)`, entry by entry. -/
noncomputable def derive (func : Fin f → Expr) (s : Nat) : Fin f → Expr := fun i => (func i).diff s

/-- The first constructor, nonlinearanalyticconditionalgaussian_ginac.cpp:29-58: the noise is on the
inputs `cond`. That the function has one column is part of its type. -/
noncomputable def makeInputNoise (func : Fin f → Expr) (u : Fin p → Nat) (x : Fin n → Nat)
    (mu : Fin d → ℝ) (sigma : Matrix (Fin d) (Fin d) ℝ) (cond : List Nat) :
    Outcome (Pdf f p n d) := do
  cassert (d = cond.length)
  return { numArgs := 3, mu := mu, sigma := sigma, func := func, cond := cond, u := u, x := x,
           dcond := cond.map (derive func), dx := fun i => derive func (x i) }

/-- The second constructor, 61-82: the noise is on the function value. Nothing checks that the noise
has the size of the function. -/
noncomputable def makeOutputNoise (func : Fin f → Expr) (u : Fin p → Nat) (x : Fin n → Nat)
    (mu : Fin d → ℝ) (sigma : Matrix (Fin d) (Fin d) ℝ) : Pdf f p n d :=
  { numArgs := 2, mu := mu, sigma := sigma, func := func, cond := [], u := u, x := x,
    dcond := [], dx := fun i => derive func (x i) }

/-- The copy constructor, 84-109. A copy has two conditional arguments. -/
noncomputable def copy (g : Pdf f p n d) : Outcome (Pdf f p n d) := do
  cassert (g.cond.length ≠ 0 → d = g.cond.length)
  return { numArgs := 2, mu := g.mu, sigma := g.sigma, func := g.func, cond := g.cond, u := g.u,
           x := g.x, dcond := g.cond.map (derive g.func), dx := fun i => derive g.func (g.x i) }

/-- `AdditiveNoiseMuSet`, pdf/analyticconditionalgaussian_additivenoise.cpp:70-74, with a vector of
the right size. -/
def muSet (g : Pdf f p n d) (mu : Fin d → ℝ) : Pdf f p n d := { g with mu := mu }

/-- `AdditiveNoiseSigmaSet`, 76-80 of the same file. -/
def sigmaSet (g : Pdf f p n d) (sigma : Matrix (Fin d) (Fin d) ℝ) : Pdf f p n d :=
  { g with sigma := sigma }

/-- A call that changes the pdf, or replaces it by a copy of it. -/
inductive Op (d : Nat) where
  | copy
  | muSet (mu : Fin d → ℝ)
  | sigmaSet (sigma : Matrix (Fin d) (Fin d) ℝ)

/-- Effect of one call. -/
noncomputable def step (g : Pdf f p n d) : Op d → Outcome (Pdf f p n d)
  | .copy => g.copy
  | .muSet mu => .ok (g.muSet mu)
  | .sigmaSet sigma => .ok (g.sigmaSet sigma)

/-- Effect of a history of calls. -/
noncomputable def run : List (Op d) → Pdf f p n d → Outcome (Pdf f p n d)
  | [], g => .ok g
  | op :: ops, g => do
    let g' ← g.step op
    run ops g'

/-- The inner loop of 139-142 for one `i`: `u_num(i+1) += Mu(j+1)` for every `j` with
`u_sym[i] == cond_sym[j]`; `j` is the index of the head of the list. -/
noncomputable def shiftOne (mu : Fin d → ℝ) (s : Nat) : List Nat → Nat → ℝ → Outcome ℝ
  | [], _, v => .ok v
  | c :: cs, j, v =>
    if s = c then
      if h : j < d then shiftOne mu s cs (j + 1) (v + mu ⟨j, h⟩) else .ub
    else shiftOne mu s cs (j + 1) v

/-- The input after 138-142. -/
noncomputable def shifted (g : Pdf f p n d) (u : Fin p → ℝ) : Outcome (Fin p → ℝ) :=
  if g.cond.length ≠ 0 then collect fun i => shiftOne g.mu (g.u i) g.cond 0 (u i) else .ok u

/-- Substitution of the input and then the state, and evaluation: 149-160, 189-204, 241-256. -/
noncomputable def evalAt (g : Pdf f p n d) (u : Fin p → ℝ) (x : Fin n → ℝ) (e : Expr) : Outcome ℝ :=
  ((e.subsAll g.u u).subsAll g.x x).evalf

/-- `expected += AdditiveNoiseMuGet()`, 165-166: the sum of vectors of different sizes is `ub`. -/
noncomputable def addMu (g : Pdf f p n d) (v : Fin f → ℝ) : Outcome (Fin f → ℝ) :=
  if g.cond.length = 0 then
    if h : f = d then .ok (fun i => v i + g.mu (Fin.cast h i)) else .ub
  else .ok v

/-- `ExpectedValueGet`, 126-169, where `x` and `u` are the values of the conditional arguments 0 and
1. -/
noncomputable def expectedValue (g : Pdf f p n d) (u : Fin p → ℝ) (x : Fin n → ℝ) :
    Outcome (Fin f → ℝ) := do
  let u' ← g.shifted u
  let v ← collect fun i => g.evalAt u' x (g.func i)
  g.addMu v

/-- One column of a derivative, 186-205 and 238-257. -/
noncomputable def column (g : Pdf f p n d) (u : Fin p → ℝ) (x : Fin n → ℝ) (e : Fin f → Expr) :
    Outcome (Fin f → ℝ) :=
  collect fun j => g.evalAt u x (e j)

/-- `dfGet(i)`, 223-261. -/
noncomputable def dfGet (g : Pdf f p n d) (i : Nat) (u : Fin p → ℝ) (x : Fin n → ℝ) :
    Outcome (Matrix (Fin f) (Fin n) ℝ) := do
  cassert (i = 0)
  let cols ← collect fun k => g.column u x (g.dx k)
  return Matrix.of fun j k => cols k j

/-- The matrix `D` of 181-205. -/
noncomputable def noiseJacobian (g : Pdf f p n d) (u : Fin p → ℝ) (x : Fin n → ℝ) :
    Outcome (List (Fin f → ℝ)) :=
  mapOutcome (g.column u x) g.dcond

/-- The product `D * Sigma * D.transpose()`, 208, and its conversion, 211-213; factors that do not fit
are `ub`. -/
noncomputable def sandwich (be : Backend) (g : Pdf f p n d) (D : List (Fin f → ℝ)) :
    Outcome (Matrix (Fin f) (Fin f) ℝ) :=
  if h : d = D.length then
    let D' : Matrix (Fin f) (Fin d) ℝ := Matrix.of fun i k => D[Fin.cast h k] i
    .ok (be.toSym (D' * g.sigma * D'ᵀ))
  else .ub

/-- `CovarianceGet`, 172-220. The returned matrix has the size of the noise if the noise is on the
function value, the size of the function otherwise; this size is the first component. -/
noncomputable def covariance (be : Backend) (g : Pdf f p n d) (u : Fin p → ℝ) (x : Fin n → ℝ) :
    Outcome ((k : Nat) × Matrix (Fin k) (Fin k) ℝ) :=
  if g.cond.length ≠ 0 then do
    let D ← g.noiseJacobian u x
    let S ← g.sandwich be D
    return ⟨f, S⟩
  else .ok ⟨d, g.sigma⟩

/-- `DimensionGet()`: the base class is made with the dimension of the noise,
pdf/analyticconditionalgaussian_additivenoise.cpp:34-39. -/
def dimension (_ : Pdf f p n d) : Nat := d

/-- A covariance matrix used with vectors of size `f`: any other size is `ub`. -/
def sized (f : Nat) (c : (k : Nat) × Matrix (Fin k) (Fin k) ℝ) : Outcome (Matrix (Fin f) (Fin f) ℝ) :=
  if h : c.1 = f then .ok (h ▸ c.2) else .ub

/-- `ConditionalGaussian::ProbabilityGet`, pdf/conditionalgaussian.cpp:47-57, with the virtual calls
resolved to this class: unlike in `ConditionalGaussian.probabilityGet` the dimension in the
normalisation need not be the size of the mean. -/
noncomputable def probabilityGet (be : Backend) (g : Pdf f p n d) (u : Fin p → ℝ) (x : Fin n → ℝ)
    (input : Fin f → ℝ) : Outcome ℝ := do
  let mean ← g.expectedValue u x
  let c ← g.covariance be u x
  let cov ← sized f c
  let diff := input - mean
  let i ← be.symInverse cov
  let temp ← mkProb (diff ⬝ᵥ (i *ᵥ diff))
  let det ← be.determinant cov
  Gaussian.densityOf temp (Gaussian.normaliser g.dimension det)

/-- The product `_Low_triangle * _samples`, pdf/conditionalgaussian.cpp:85, of an `f × f` matrix with
the vector of `DimensionGet()` normal numbers `z`, and the sum with the mean. -/
noncomputable def combine (low : Matrix (Fin f) (Fin f) ℝ) (z : Fin d → ℝ) (mean : Fin f → ℝ) :
    Outcome (Fin f → ℝ) :=
  if h : f = d then .ok (low *ᵥ (fun i => z (Fin.cast h i)) + mean) else .ub

/-- `ConditionalGaussian::SampleFrom` for one sample, pdf/conditionalgaussian.cpp:65-112: `z` are the
`DimensionGet()` values returned by `rnorm(0,1)`, `old` is the value of the sample before. -/
noncomputable def sampleFrom (be : Backend) (g : Pdf f p n d) (method : SampleMthd) (u : Fin p → ℝ)
    (x : Fin n → ℝ) (old : Fin f → ℝ) (z : Fin d → ℝ) : Outcome (Bool × (Fin f → ℝ)) := do
  let mean ← g.expectedValue u x
  match method with
  | .default | .cholesky => do
    let c ← g.covariance be u x
    let cov ← sized f c
    let (result, low) := cholesky Real.sqrt machEps cov
    let s ← combine low z mean
    return (result, s)
  | .boxmuller | .ripley => return (false, old)

/-- The constructors of `SystemModel` and `MeasurementModel` want a pdf with one or two conditional
arguments, model/systemmodel.cpp:21-49 and model/measurementmodel.cpp:26-53 (see
`Verif.Model.Models`), and `exit` otherwise. -/
def intoModel (g : Pdf f p n d) : Outcome (Pdf f p n d) := do
  cassert (g.numArgs = 1 ∨ g.numArgs = 2)
  return g

/-- `SystemModel::StateSizeGet`, model/systemmodel.cpp:77-81, of a model made with this pdf. -/
def stateSize (g : Pdf f p n d) : Nat := g.dimension

/-- `NonLinearAnalyticSystemModelGaussianUncertainty_Ginac(pdf)`,
model/nonlinearanalyticsystemmodel_gaussianuncertainty_ginac.cpp:29-32, and
`NonLinearAnalyticMeasurementModelGaussianUncertainty_Ginac(pdf)`: the model is made with a copy of
the pdf. -/
noncomputable def ginacModel (g : Pdf f p n d) : Outcome (Pdf f p n d) := do
  let c ← g.copy
  c.intoModel

end Pdf

end Ginac

/-- `examples/nonlinearanalyticconditionalgaussianmobile.cpp` (in `/repo/orocos_bfl`), lines 37-76
(the same in `examples/compare_filters`): state `(x, y, θ)`, input `(v, ω)`, additive noise. -/
structure Mobile where
  mu : Fin 3 → ℝ
  sigma : Matrix (Fin 3) (Fin 3) ℝ

namespace Mobile

/-- `ExpectedValueGet`, nonlinearanalyticconditionalgaussianmobile.cpp:37-45: the entries are changed
one after the other, the third last. -/
noncomputable def expectedValue (g : Mobile) (vel : Fin 2 → ℝ) (x : Fin 3 → ℝ) : Fin 3 → ℝ :=
  let s1 := Function.update x 0 (x 0 + Real.cos (x 2) * vel 0)
  let s2 := Function.update s1 1 (s1 1 + Real.sin (s1 2) * vel 0)
  let s3 := Function.update s2 2 (s2 2 + vel 1)
  s3 + g.mu

/-- `dfGet(i)`, 47-76: `exit` for an index other than 0. -/
noncomputable def dfGet (_ : Mobile) (i : Nat) (vel : Fin 2 → ℝ) (x : Fin 3 → ℝ) :
    Outcome (Matrix (Fin 3) (Fin 3) ℝ) :=
  if i = 0 then
    .ok !![1, 0, -vel 0 * Real.sin (x 2);
           0, 1, vel 0 * Real.cos (x 2);
           0, 0, 1]
  else .abort

/-- `AnalyticSystemModelGaussianUncertainty(&pdf)` as the examples make it
(examples/mobile_robot.cpp:53-54): `PredictionGet`, `df_dxGet` and `CovarianceGet` of the model
(model/analyticsystemmodel_gaussianuncertainty.cpp:46-70) call `ExpectedValueGet`, `dfGet(0)` (the branch
50-63) and `CovarianceGet`, which is the covariance of the additive noise. Simplification: the velocity is
a vector of size 2; without velocity the model is undefined (`AnalyticModel`). -/
noncomputable def model (g : Mobile) : AnalyticModel ℝ 3 3 (Fin 2 → ℝ) :=
  .withInput (fun vel x => g.expectedValue vel x)
    (fun vel x => !![1, 0, -vel 0 * Real.sin (x 2);
                     0, 1, vel 0 * Real.cos (x 2);
                     0, 0, 1])
    (fun _ _ => g.sigma)

end Mobile

end BFL
