import Verif.Model.Prob

/-!
# Model of `BFL::DiscretePdf` (`/repo/orocos_bfl/src/pdf/discretepdf.cpp`)
-/

namespace BFL

/-- Data members of `DiscretePdf`: `values` is `*_Values_p`, `cum` is `_CumPDF`.
Simplification: `_num_states` is not stored; it always equals `_Values_p->size()`, because it is set
only by the constructors (lines 31-35 and 47-51) and line 119 asserts the size of a replacement. -/
structure DiscretePdf (K : Type) where
  values : List K
  cum : List K
  deriving DecidableEq, Repr

namespace DiscretePdf

variable {K : Type} [Field K] [LinearOrder K]

/-- `NumStatesGet`, pdf/discretepdf.cpp:74-77. -/
abbrev numStates (d : DiscretePdf K) : Nat := d.values.length

/-- `ProbabilitiesGet`, pdf/discretepdf.cpp:112-115. -/
abbrev probabilitiesGet (d : DiscretePdf K) : List K := d.values

/-- `CumPDFUpdate`, pdf/discretepdf.cpp:225-248. The table always has `n + 1` entries and every
entry is rewritten, so its old contents do not matter. -/
def cumUpdate (d : DiscretePdf K) : Outcome (Bool × DiscretePdf K) := do
  let total ← vget (runningSums 0 d.values) d.numStates
  cassert (1 - numericPrecision ≤ total ∧ total ≤ 1 + numericPrecision)
  return (true, { d with cum := setLast (runningSums 0 d.values) 1 })

/-- Constructor `DiscretePdf(num_states)`, pdf/discretepdf.cpp:31-45. -/
def make (n : Nat) : Outcome (DiscretePdf K) := do
  let vs ← mapOutcome (fun _ => divProb 1 (n : K)) (List.range n)
  let r ← cumUpdate { values := vs, cum := List.replicate (n + 1) 0 }
  return r.2

/-- Copy constructor, pdf/discretepdf.cpp:47-57 (also `Clone`, lines 69-72): copies the values and
recomputes the cumulative table. -/
def copy (d : DiscretePdf K) : Outcome (DiscretePdf K) := do
  let r ← cumUpdate { values := d.values, cum := List.replicate (d.numStates + 1) 0 }
  return r.2

/-- `ProbabilityGet`, pdf/discretepdf.cpp:80-84. -/
def probabilityGet (d : DiscretePdf K) (state : Int) : Outcome K := do
  cassert (0 ≤ state ∧ state < d.numStates)
  vget d.values state.toNat

/-- `ProbabilitySet`, pdf/discretepdf.cpp:86-110. The second argument is converted to
`Probability` by the caller, hence the leading `mkProb`. -/
def probabilitySet (d : DiscretePdf K) (state : Int) (a : K) :
    Outcome (Bool × DiscretePdf K) := do
  let a ← mkProb a
  cassert (0 ≤ state ∧ state < d.numStates)
  cassert (a ≤ 1)
  let old ← d.probabilityGet state
  let vs ←
    if old ≠ 1 then
      mapOutcome (fun v => mkProb (v * ((1 - a) / (1 - old)))) d.values
    else
      mapOutcome (fun _ => divProb (1 - a) ((d.numStates : K) - 1)) d.values
  let vs ← vset vs state.toNat a
  cumUpdate { d with values := vs }

/-- `NormalizeProbs`, pdf/discretepdf.cpp:207-223. -/
def normalizeProbs (d : DiscretePdf K) : Outcome (Bool × DiscretePdf K) :=
  if 0 < d.values.sum then do
    let vs ← mapOutcome (fun v => divProb v d.values.sum) d.values
    return (true, { d with values := vs })
  else
    return (false, d)

/-- `ProbabilitiesSet`, pdf/discretepdf.cpp:117-124. The argument has type `vector<Probability>`,
so its elements have passed the `Probability` constructor. -/
def probabilitiesSet (d : DiscretePdf K) (v : List K) : Outcome (Bool × DiscretePdf K) := do
  let v ← mapOutcome mkProb v
  cassert (v.length = d.numStates)
  let (okN, d) ← normalizeProbs { d with values := v }
  if okN then cumUpdate d else return (false, d)

/-- Single-sample `SampleFrom`, pdf/discretepdf.cpp:181-205. `u` is the value returned by
`runif()`. `none` is the return value `false`; `some s` is `true` with sample value `s`. The value
is `int a = index - 1` with unsigned `index`, which is `-1` when `index = 0`. -/
def sampleOne (d : DiscretePdf K) (method : SampleMthd) (u : K) : Outcome (Option Int) :=
  match method with
  | .default => do
    let (index, _) ← sweep d.numStates u 0 d.cum
    return some ((index : Int) - 1)
  | _ => return none

/-- List version of `SampleFrom`, pdf/discretepdf.cpp:127-177. `us` are the results of the
`num_samples = us.length` calls of `runif()`. The DEFAULT branch is `Pdf<int>::SampleFrom`,
pdf/pdf.h:178-191, one single draw per element. In the RIPLEY branch with `num_samples = 0`,
lines 147-148 access element `-1` of an empty vector. -/
def sampleList (root : Nat → K → K) (d : DiscretePdf K) (method : SampleMthd) (us : List K) :
    Outcome (Option (List Int)) :=
  match method with
  | .default => do
    let is ← mapOutcome (fun u => sweep d.numStates u 0 d.cum) us
    return some (is.map fun (p : Nat × List K) => (p.1 : Int) - 1)
  | .ripley =>
    if us = [] then .ub
    else do
      let is ← sweepAll d.numStates (orderedUniforms root 0 us) 0 d.cum
      return some (is.map fun (i : Nat) => (i : Int) - 1)
  | _ => return none

/-- Loop of `MostProbableStateGet`, pdf/discretepdf.cpp:254-261. -/
def mostProbableLoop : List K → Int → Int → K → Int
  | [], _, best, _ => best
  | v :: vs, state, best, pbest =>
    if v ≥ pbest then mostProbableLoop vs (state + 1) state v
    else mostProbableLoop vs (state + 1) best pbest

/-- `MostProbableStateGet`, pdf/discretepdf.cpp:250-263. -/
def mostProbableStateGet (d : DiscretePdf K) : Int := mostProbableLoop d.values 0 (-1) 0

/-- A public operation that changes a `DiscretePdf` or replaces it by its copy. -/
inductive Op (K : Type) where
  | probabilitySet (state : Int) (a : K)
  | probabilitiesSet (v : List K)
  | copy

/-- Run one operation; the Boolean is the C++ return value (`true` for a copy). -/
def step (d : DiscretePdf K) : Op K → Outcome (Bool × DiscretePdf K)
  | .probabilitySet s a => d.probabilitySet s a
  | .probabilitiesSet v => d.probabilitiesSet v
  | .copy => do
    let c ← d.copy
    return (true, c)

/-- Run operations in order; the final Boolean says whether all of them returned `true`. -/
def run (d : DiscretePdf K) : List (Op K) → Outcome (Bool × DiscretePdf K)
  | [] => return (true, d)
  | o :: os => do
    let (b, d') ← d.step o
    let (bs, d'') ← d'.run os
    return (b && bs, d'')

end DiscretePdf

end BFL
