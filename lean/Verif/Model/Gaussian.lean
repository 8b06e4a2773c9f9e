import Verif.Model.MatrixWrapper
import Verif.Model.Cholesky
import Verif.Model.Prob
import Mathlib.Analysis.SpecialFunctions.Sqrt
import Mathlib.Analysis.SpecialFunctions.Trigonometric.Basic

/-!
# Model of `pdf/gaussian.cpp` and `pdf/conditionalgaussian.cpp`

Paths are relative to `/repo/orocos_bfl/src`. Doubles are real numbers with exact arithmetic. The
dimension `n` is fixed by the type: objects made by `Gaussian()` and given their dimension by the
first setter behave like objects made by `Gaussian(n)`, and setters that receive a wrong size fail
the asserts of gaussian.cpp:198, 210. `none` for the mean or the covariance means that no value was
ever assigned (gaussian.cpp:46-58); reading it is `ub`. The work buffers `_diff`, `_tempColumn`,
`_samples`, `_sampleValue` and `_Low_triangle` are always written before they are read and are
not part of the state.
-/

namespace BFL

open Matrix

/-- `std::numeric_limits<double>::epsilon()`. -/
noncomputable def machEps : ℝ := 1 / 2 ^ 52

/-- State of a `Gaussian`, gaussian.h:30-36. `sqrtPow = none` stands for the NaN that `sqrt`
returns for a negative argument. -/
structure Gaussian (n : Nat) where
  mu : Option (Fin n → ℝ)
  sigma : Option (Matrix (Fin n) (Fin n) ℝ)
  changed : Bool
  inv : Matrix (Fin n) (Fin n) ℝ
  sqrtPow : Option ℝ

namespace Gaussian

variable {n : Nat}

/-- `Gaussian(int dimension)`, gaussian.cpp:46-58. The entries of the inverse are not assigned
either; they are not read while `_Sigma_changed` is set. -/
def blank (n : Nat) : Gaussian n :=
  { mu := none, sigma := none, changed := true, inv := 0, sqrtPow := none }

/-- `Gaussian(m, s)`, gaussian.cpp:30-44. -/
def make (m : Fin n → ℝ) (s : Matrix (Fin n) (Fin n) ℝ) : Gaussian n :=
  { mu := some m, sigma := some s, changed := true, inv := 0, sqrtPow := none }

/-- `ExpectedValueSet`, gaussian.cpp:190-199. -/
def expectedValueSet (g : Gaussian n) (m : Fin n → ℝ) : Gaussian n := { g with mu := some m }

/-- `CovarianceSet`, gaussian.cpp:201-211. -/
def covarianceSet (g : Gaussian n) (s : Matrix (Fin n) (Fin n) ℝ) : Gaussian n :=
  { g with sigma := some s, changed := true }

/-- `ExpectedValueGet`, gaussian.cpp:178-182. -/
def expectedValueGet (g : Gaussian n) : Outcome (Fin n → ℝ) := readMember g.mu

/-- `CovarianceGet`, gaussian.cpp:184-188. -/
def covarianceGet (g : Gaussian n) : Outcome (Matrix (Fin n) (Fin n) ℝ) := readMember g.sigma

/-- `1 / sqrt(pow(M_PI*2, dim) * det)`, gaussian.cpp:81. The determinant is not zero here because
the inverse was computed before. -/
noncomputable def normaliser (n : Nat) (det : ℝ) : Option ℝ :=
  if det < 0 then none else some (1 / Real.sqrt ((Real.pi * 2) ^ n * det))

/-- The cached values, gaussian.cpp:78-82. -/
noncomputable def refresh (be : Backend) (g : Gaussian n) : Outcome (Gaussian n) := do
  let s ← readMember g.sigma
  let i ← be.symInverse s
  let d ← be.determinant s
  return { g with changed := false, inv := i, sqrtPow := normaliser n d }

/-- gaussian.cpp:78-82 with its condition. -/
noncomputable def prepare (be : Backend) (g : Gaussian n) : Outcome (Gaussian n) :=
  if g.changed then g.refresh be else .ok g

/-- `Probability result = exp(-0.5 * temp) * _sqrt_pow`, gaussian.cpp:90: a NaN fails the assert of
the `Probability` constructor. -/
noncomputable def densityOf (temp : ℝ) : Option ℝ → Outcome ℝ
  | none => .abort
  | some c => mkProb (Real.exp (-(1 / 2) * temp) * c)

/-- `ProbabilityGet`, gaussian.cpp:75-92. -/
noncomputable def probabilityGet (be : Backend) (g : Gaussian n) (input : Fin n → ℝ) :
    Outcome (ℝ × Gaussian n) := do
  let g1 ← g.prepare be
  let m ← readMember g1.mu
  let diff := input - m
  let column := g1.inv *ᵥ diff
  let temp ← mkProb (diff ⬝ᵥ column)
  let result ← densityOf temp g1.sqrtPow
  return (result, g1)

/-- `SampleFrom` for one sample, gaussian.cpp:127-175: `z` are the values returned by
`rnorm(0,1)`. Returns the flag and the new value of the sample, whose value before the call is
`old`. -/
noncomputable def sampleOne (g : Gaussian n) (method : SampleMthd) (old z : Fin n → ℝ) :
    Outcome (Bool × (Fin n → ℝ)) :=
  match method with
  | .default | .cholesky => do
    let s ← readMember g.sigma
    let m ← readMember g.mu
    let (result, low) := cholesky Real.sqrt machEps s
    return (result, low *ᵥ z + m)
  | .boxmuller | .ripley => .ok (false, old)

/-- `SampleFrom` for a list, gaussian.cpp:97-124: the factorisation is computed once, and the
samples are drawn whether or not it succeeded; `zs` holds the values of `rnorm(0,1)` for each of
the `zs.length` samples, `old` the list after it was resized. -/
noncomputable def sampleList (g : Gaussian n) (method : SampleMthd) (old zs : List (Fin n → ℝ)) :
    Outcome (Bool × List (Fin n → ℝ)) :=
  match method with
  | .default | .cholesky => do
    let s ← readMember g.sigma
    let m ← readMember g.mu
    let (result, low) := cholesky Real.sqrt machEps s
    return (result, zs.map fun z => low *ᵥ z + m)
  | .boxmuller | .ripley => .ok (false, old)

/-- A call on a `Gaussian`. `copy` replaces the object by a copy of it (the compiler generated copy
constructor, also used by `Clone`, gaussian.cpp:70-73, copies all members); `query` is
`ProbabilityGet`, whose effect on the mutable members is kept; `sample` leaves all members that
are modelled unchanged. -/
inductive Op (n : Nat) where
  | setMean (m : Fin n → ℝ)
  | setCov (s : Matrix (Fin n) (Fin n) ℝ)
  | copy
  | query (x : Fin n → ℝ)
  | sample (method : SampleMthd) (old z : Fin n → ℝ)

/-- Effect of one call. -/
noncomputable def step (be : Backend) (g : Gaussian n) : Op n → Outcome (Gaussian n)
  | .setMean m => .ok (g.expectedValueSet m)
  | .setCov s => .ok (g.covarianceSet s)
  | .copy => .ok g
  | .query x => do
    let (_, g') ← g.probabilityGet be x
    return g'
  | .sample method old z => do
    let _ ← g.sampleOne method old z
    return g

/-- Effect of a history of calls. -/
noncomputable def run (be : Backend) : List (Op n) → Gaussian n → Outcome (Gaussian n)
  | [], g => .ok g
  | op :: ops, g => do
    let g' ← g.step be op
    run be ops g'

end Gaussian

namespace ConditionalGaussian

variable {n : Nat}

/-- `ConditionalGaussian::ProbabilityGet`, conditionalgaussian.cpp:47-57, with `mean` and `cov` the
results of the virtual calls `ExpectedValueGet()` and `CovarianceGet()`. Nothing is cached. -/
noncomputable def probabilityGet (be : Backend) (mean : Fin n → ℝ) (cov : Matrix (Fin n) (Fin n) ℝ)
    (input : Fin n → ℝ) : Outcome ℝ := do
  let diff := input - mean
  let i ← be.symInverse cov
  let temp ← mkProb (diff ⬝ᵥ (i *ᵥ diff))
  let d ← be.determinant cov
  Gaussian.densityOf temp (Gaussian.normaliser n d)

/-- `ConditionalGaussian::SampleFrom` for one sample, conditionalgaussian.cpp:65-112. -/
noncomputable def sampleOne (mean : Fin n → ℝ) (cov : Matrix (Fin n) (Fin n) ℝ)
    (method : SampleMthd) (old z : Fin n → ℝ) : Bool × (Fin n → ℝ) :=
  match method with
  | .default | .cholesky =>
    let (result, low) := cholesky Real.sqrt machEps cov
    (result, low *ᵥ z + mean)
  | .boxmuller | .ripley => (false, old)

/-- `ConditionalGaussian::SampleFrom` for a list, conditionalgaussian.cpp:59-63, which is
`Pdf::SampleFrom`, pdf/pdf.h:178-191: stops at the first sample that reports failure. `old` is the
resized list; `zs` the values of `rnorm(0,1)`. -/
noncomputable def sampleList (mean : Fin n → ℝ) (cov : Matrix (Fin n) (Fin n) ℝ)
    (method : SampleMthd) : List (Fin n → ℝ) → List (Fin n → ℝ) → Bool × List (Fin n → ℝ)
  | o :: old, z :: zs =>
    match sampleOne mean cov method o z with
    | (true, x) =>
      let (r, xs) := sampleList mean cov method old zs
      (r, x :: xs)
    | (false, x) => (false, x :: old)
  | old, _ => (true, old)

end ConditionalGaussian

end BFL
