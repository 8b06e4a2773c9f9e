import Verif.Model.Prob

/-!
# Model of `BFL::Uniform` (`/repo/orocos_bfl/src/pdf/uniform.h`, `pdf/uniform.cpp`)

Column vectors are lists here, because the sizes of centre, width, argument and scratch vector need
not agree. Element access out of range is undefined behaviour.
-/

namespace BFL

variable {K : Type} [Field K] [LinearOrder K]

/-- Data members of `Uniform`. `dim` is the dimension stored in `Pdf`, `scratch` the number of rows of
`_samples`. An entry of `_Lower` or `_Higher` is `none` while it has no value. `height` is `ok` for
a finite `_Height`, `abort` for an infinity or NaN (which the constructor of `Probability` rejects,
bfl_constants.h:41-48), and `ub` while `_Height` has no value. -/
structure Uniform (K : Type) where
  dim : Nat
  lower : List (Option K)
  higher : List (Option K)
  height : Outcome K
  scratch : Nat
  deriving DecidableEq

namespace Uniform

/-- `_Height = 1; for i: _Height = _Height / width(i);`, uniform.cpp:37-41 and 134-138. -/
def heightOf (width : List K) : Outcome K :=
  if (0 : K) ∈ width then .abort else .ok (width.foldl (· / ·) 1)

/-- `center - width/2.0` and `center + width/2.0`, uniform.cpp:35-36 and 132-133. -/
def lowerOf (center width : List K) : List K := List.zipWith (fun c w => c - w / 2) center width

@[inherit_doc lowerOf]
def higherOf (center width : List K) : List K := List.zipWith (fun c w => c + w / 2) center width

/-- Constructor from centre and width, uniform.cpp:29-42. -/
def make (center width : List K) : Outcome (Uniform K) := do
  cassert (center.length = width.length)
  return { dim := center.length, lower := (lowerOf center width).map some,
           higher := (higherOf center width).map some, height := heightOf width,
           scratch := center.length }

/-- Constructor from a dimension (by default 0), uniform.cpp:44-50: nothing else is given a value. -/
def makeDim (dimension : Nat) : Uniform K :=
  { dim := dimension, lower := List.replicate dimension none,
    higher := List.replicate dimension none, height := .ub, scratch := dimension }

/-- `UniformSet`, uniform.cpp:128-141. The scratch vector keeps its size. -/
def uniformSet (f : Uniform K) (center width : List K) : Outcome (Uniform K) := do
  cassert (center.length = width.length)
  let d := if f.dim = 0 then center.length else f.dim
  cassert (d = center.length)
  return { f with dim := d, lower := (lowerOf center width).map some,
                  higher := (higherOf center width).map some, height := heightOf width }

/-- The loop uniform.cpp:70-73: is the point inside, as far as its own coordinates go? -/
def insideLoop : List K → List (Option K) → List (Option K) → Outcome Bool
  | [], _, _ => .ok true
  | x :: xs, h :: hs, l :: ls => do
    let hv ← readMember h
    if x > hv then return false else do
      let lv ← readMember l
      if x < lv then return false else insideLoop xs hs ls
  | _ :: _, _, _ => .ub

/-- `ProbabilityGet`, uniform.cpp:67-75. -/
def probabilityGet (f : Uniform K) (input : List K) : Outcome K := do
  let inside ← insideLoop input f.higher f.lower
  if inside then do
    let h ← f.height
    mkProb h
  else mkProb 0

/-- `runif(min, max)`, wrappers/rng/rng.cpp:46-51, for the uniform number `u` between 0 and 1. -/
def runif (u lo hi : K) : K := lo + u * (hi - lo)

/-- The loop uniform.cpp:89 and 107 over the `k` remaining coordinates: `_samples(j) = runif(...)`.
`us` are the random numbers; running out of them cannot happen in the code and is `abort` here. -/
def drawLoop : Nat → List (Option K) → List (Option K) → List K → Outcome (List K)
  | 0, _, _, _ => .ok []
  | k + 1, l :: ls, h :: hs, u :: us => do
    let lv ← readMember l
    let hv ← readMember h
    let rest ← drawLoop k ls hs us
    return runif u lv hv :: rest
  | _ + 1, _ :: _, _ :: _, [] => .abort
  | _ + 1, _, _, _ => .ub

/-- `SampleFrom(Sample&, ...)`, uniform.cpp:100-114. Writing past the end of the scratch vector is
undefined behaviour. Returns the success flag and, on success, the value given to the sample: the
whole scratch vector, which has been overwritten completely (both constructors give it as many rows
as the dimension, and only a dimension of zero is ever changed). -/
def sampleOne (f : Uniform K) (method : SampleMthd) (us : List K) : Outcome (Option (List K)) :=
  match method with
  | .default => do
    let v ← drawLoop f.dim f.lower f.higher us
    if f.scratch < f.dim then .ub else return some v
  | _ => .ok none

/-- `SampleFrom(vector<Sample>&, ...)`, uniform.cpp:77-98; `uss` holds the random numbers of every
sample. -/
def sampleList (f : Uniform K) (method : SampleMthd) (uss : List (List K)) :
    Outcome (Option (List (List K))) :=
  match method with
  | .default => do
    let vs ← mapOutcome (fun us => do
      let v ← drawLoop f.dim f.lower f.higher us
      if f.scratch < f.dim then .ub else return v) uss
    return some vs
  | _ => .ok none

/-- `CenterGet`, uniform.cpp:116-120. -/
def centerGet (f : Uniform K) : Outcome (List K) := do
  let h ← mapOutcome readMember f.higher
  let l ← mapOutcome readMember f.lower
  return List.zipWith (fun a b => (a + b) / 2) h l

/-- `WidthGet`, uniform.cpp:122-126. -/
def widthGet (f : Uniform K) : Outcome (List K) := do
  let h ← mapOutcome readMember f.higher
  let l ← mapOutcome readMember f.lower
  return List.zipWith (· - ·) h l

/-- A sequence of `UniformSet` calls. -/
def setAll (f : Uniform K) : List (List K × List K) → Outcome (Uniform K)
  | [] => .ok f
  | e :: rest => do
    let f' ← f.uniformSet e.1 e.2
    f'.setAll rest

end Uniform

end BFL
