import Verif.Model.HistogramFilter

/-!
# The histogram filter with rounded arithmetic

The functions of `Model/DiscretePdf.lean` and `Model/HistogramFilter.lean` once more, with every
addition, multiplication, division and decimal constant followed by a rounding `fl`. Assumed of the
compiler: every operation is rounded to double on its own, in the order written (no contraction to
fused multiply-add, no extended precision).
-/

namespace BFL

variable {Z K : Type} [Field K] [LinearOrder K]

namespace Rounded

/-- A loop `sum += x` that starts at 0 (pdf/discretepdf.cpp:209-212, filter/histogramfilter.cpp:50-64). -/
def sum (fl : K → K) (l : List K) : K := l.foldl (fun s x => fl (s + x)) 0

/-- The running sums written into the cumulative table, pdf/discretepdf.cpp:228-240. -/
def runningSums (fl : K → K) (s : K) : List K → List K
  | [] => [s]
  | x :: xs => s :: runningSums fl (fl (s + x)) xs

/-- `(Probability)(x / y)`. -/
def divProb (fl : K → K) (x y : K) : Outcome K := if y = 0 then .abort else mkProb (fl (x / y))

/-- `CumPDFUpdate`, pdf/discretepdf.cpp:225-248. `NUMERIC_PRECISION` is the double nearest to 1e-9. -/
def cumUpdate (fl : K → K) (d : DiscretePdf K) : Outcome (Bool × DiscretePdf K) := do
  let total ← vget (runningSums fl 0 d.values) d.numStates
  cassert (fl (1 - fl numericPrecision) ≤ total ∧ total ≤ fl (1 + fl numericPrecision))
  return (true, { d with cum := setLast (runningSums fl 0 d.values) 1 })

/-- Constructor `DiscretePdf(num_states)`, pdf/discretepdf.cpp:31-45. The conversion of the number
of states to double is exact. -/
def make (fl : K → K) (n : Nat) : Outcome (DiscretePdf K) := do
  let vs ← mapOutcome (fun _ => divProb fl 1 (n : K)) (List.range n)
  let r ← cumUpdate fl { values := vs, cum := List.replicate (n + 1) 0 }
  return r.2

/-- Copy constructor, pdf/discretepdf.cpp:47-57. -/
def copy (fl : K → K) (d : DiscretePdf K) : Outcome (DiscretePdf K) := do
  let r ← cumUpdate fl { values := d.values, cum := List.replicate (d.numStates + 1) 0 }
  return r.2

/-- `NormalizeProbs`, pdf/discretepdf.cpp:207-223. -/
def normalizeProbs (fl : K → K) (d : DiscretePdf K) : Outcome (Bool × DiscretePdf K) :=
  if 0 < sum fl d.values then do
    let vs ← mapOutcome (fun v => divProb fl v (sum fl d.values)) d.values
    return (true, { d with values := vs })
  else
    return (false, d)

/-- `ProbabilitiesSet`, pdf/discretepdf.cpp:117-124. -/
def probabilitiesSet (fl : K → K) (d : DiscretePdf K) (v : List K) :
    Outcome (Bool × DiscretePdf K) := do
  let v ← mapOutcome mkProb v
  cassert (v.length = d.numStates)
  let (okN, d) ← normalizeProbs fl { d with values := v }
  if okN then cumUpdate fl d else return (false, d)

/-- `HistogramFilter` constructor, filter/histogramfilter.cpp:24-32. -/
def makeFilter (fl : K → K) (prior : DiscretePdf K) : Outcome (HistogramFilter K) := do
  let post ← copy fl prior
  return { post := post, newProb := prior.probabilitiesGet, timestep := 0 }

/-- The inner loops of `SysUpdate`, filter/histogramfilter.cpp:50-64. -/
def predictCell (fl : K → K) (sys : Model Int Int K) (u : Option Int) (old : List K) (n : Nat)
    (dst : Nat) : Outcome K := do
  let ts ← mapOutcome (fun src : Nat => do
    let p ← HistogramFilter.sysProb sys u dst src
    let o ← vget old src
    return fl (p * o)) (List.range n)
  return sum fl ts

/-- `SysUpdate`, filter/histogramfilter.cpp:40-68. -/
def sysUpdate (fl : K → K) (f : HistogramFilter K) (sys : Model Int Int K) (u : Option Int) :
    Outcome (HistogramFilter K) := do
  let old := f.post.probabilitiesGet
  let _ ← sys.withoutInputs
  let new ← HistogramFilter.predictLoop (predictCell fl sys u old f.post.numStates)
    f.post.numStates 0 f.newProb
  let (_, post) ← probabilitiesSet fl f.post new
  return { f with post := post, newProb := new }

/-- `MeasUpdate`, filter/histogramfilter.cpp:70-83. -/
def measUpdate (fl : K → K) (f : HistogramFilter K) (meas : Model Int Z K) (z : Z)
    (s : Option Int) : Outcome (HistogramFilter K) := do
  let old ← mapOutcome (fun state : Nat => do
    let o ← vget f.post.probabilitiesGet state
    let p ← HistogramFilter.measProb meas z s state
    mkProb (fl (o * p))) (List.range f.post.numStates)
  let (_, post) ← probabilitiesSet fl f.post old
  return { f with post := post }

/-- First half of `UpdateInternal`, filter/histogramfilter.cpp:92. -/
def sysPart (fl : K → K) (f : HistogramFilter K) :
    Option (Model Int Int K × Option Int) → Outcome (HistogramFilter K)
  | none => .ok f
  | some (m, u) => sysUpdate fl f m u

/-- Second half of `UpdateInternal`, filter/histogramfilter.cpp:93. -/
def measPart (fl : K → K) (f : HistogramFilter K) :
    Option (Model Int Z K × Z × Option Int) → Outcome (HistogramFilter K)
  | none => .ok f
  | some (m, z, s) => measUpdate fl f m z s

/-- `UpdateInternal`, filter/histogramfilter.cpp:85-95. -/
def update (fl : K → K) (f : HistogramFilter K) (c : HistogramFilter.Call Z K) :
    Outcome (Bool × HistogramFilter K) := do
  let f ← sysPart fl f c.sys
  let f ← measPart fl f c.meas
  return (true, f)

/-- A sequence of `Update` calls; the Boolean says whether all returned `true`. -/
def run (fl : K → K) (f : HistogramFilter K) :
    List (HistogramFilter.Call Z K) → Outcome (Bool × HistogramFilter K)
  | [] => .ok (true, f)
  | c :: cs => do
    let (b, f') ← update fl f c
    let (bs, f'') ← run fl f' cs
    return (b && bs, f'')

end Rounded

end BFL
