import Verif.Model.Prob
import Mathlib.Algebra.Order.Floor.Defs
import Mathlib.Algebra.Order.Floor.Ring
import Mathlib.Data.Matrix.Basic

/-!
# Model of `BFL::MCPdf<T>` (`/repo/orocos_bfl/src/pdf/mcpdf.h`, `pdf/mcpdf.cpp`) and
`WeightedSample<T>` (`sample/weightedsample.h`)
-/

namespace BFL

/-- `WeightedSample<T>`, sample/weightedsample.h. `weight = none` is an uninitialised `Weight`
member: the constructor at lines 93-94 does not set it. Copying an uninitialised weight is not
counted as undefined behaviour here; computing with it is. -/
structure WSample (K T : Type) where
  value : T
  weight : Option K
  deriving DecidableEq, Repr

namespace WSample

variable {K T : Type} [Field K] [LinearOrder K]

/-- `WeightGet`, sample/weightedsample.h:104-107, used in a computation. -/
def weightGet (s : WSample K T) : Outcome K :=
  match s.weight with
  | some w => .ok w
  | none => .ub

/-- `WeightSet`, sample/weightedsample.h:109-114: asserts a non-negative weight. -/
def weightSet (s : WSample K T) (w : K) : Outcome (WSample K T) := do
  cassert (0 ≤ w)
  return { s with weight := some w }

/-- `operator=(const Sample<T>&)`, sample/weightedsample.h:136-144: weight becomes 1. -/
def ofSample (t : T) : WSample K T := { value := t, weight := some 1 }

end WSample

/-- Data members of `MCPdf<T>`: `_listOfSamples`, `_CumPDF`, `_SumWeights`. -/
structure MCPdf (K T : Type) where
  samples : List (WSample K T)
  cum : List K
  sumWeights : K
  deriving DecidableEq, Repr

namespace MCPdf

variable {K T : Type} [Field K] [LinearOrder K]

/-- Constructor, pdf/mcpdf.h:171-189. `dflt` is the value of a default-constructed sample. -/
def make (n : Nat) (dflt : T) : MCPdf K T :=
  { samples := List.replicate n { value := dflt, weight := none }
    cum := List.replicate (n + 1) 0
    sumWeights := 0 }

/-- Copy constructor, pdf/mcpdf.h:203-218 (also `Clone`, 221-225): memberwise. -/
def copy (p : MCPdf K T) : MCPdf K T :=
  { samples := p.samples, cum := p.cum, sumWeights := p.sumWeights }

/-- `NumSamplesGet`, pdf/mcpdf.h:330-333. -/
abbrev numSamples (p : MCPdf K T) : Nat := p.samples.length

/-- `SampleGet`, pdf/mcpdf.h:335-340. -/
def sampleGet (p : MCPdf K T) (i : Nat) : Outcome (WSample K T) := do
  cassert (i < p.numSamples)
  vget p.samples i

/-- `ListOfSamplesGet`, pdf/mcpdf.h:421-425. -/
abbrev listGet (p : MCPdf K T) : List (WSample K T) := p.samples

/-- `NumSamplesSet`, pdf/mcpdf.h:343-377: growing appends default samples and zeros; shrinking
erases from the front of both vectors. -/
def numSamplesSet (dflt : T) (p : MCPdf K T) (ns : Nat) : MCPdf K T :=
  let size := p.samples.length
  if size < ns then
    { p with
      samples := p.samples ++ List.replicate (ns - size) { value := dflt, weight := none }
      cum := p.cum ++ List.replicate (ns - size) 0 }
  else if ns < size then
    { p with
      samples := p.samples.drop (size - ns)
      cum := p.cum.drop (size - ns) }
  else p

/-- `CumPDFUpdate`, pdf/mcpdf.h:509-525. Entries beyond position `n` are not touched; a table that
is too short is overrun. All callers have just set `_SumWeights = 1`. The last entry is not forced
to 1. -/
def cumUpdate (p : MCPdf K T) : Outcome (MCPdf K T) := do
  let ws ← mapOutcome WSample.weightGet p.samples
  if p.cum.length < p.samples.length + 1 then .ub
  else return { p with
    cum := runningSums 0 (ws.map (· / p.sumWeights)) ++ p.cum.drop (p.samples.length + 1) }

/-- `SumWeightsUpdate`, pdf/mcpdf.h:465-489. -/
def sumWeightsUpdate (p : MCPdf K T) : Outcome (Bool × MCPdf K T) := do
  let ws ← mapOutcome WSample.weightGet p.samples
  if 0 < ws.sum then return (true, { p with sumWeights := ws.sum })
  else return (false, p)

/-- `NormalizeWeights`, pdf/mcpdf.h:491-506. -/
def normalizeWeights (p : MCPdf K T) : Outcome (Bool × MCPdf K T) := do
  let (b, p) ← sumWeightsUpdate p
  if b then
    let ss ← mapOutcome (fun (s : WSample K T) => do
      let w ← s.weightGet
      s.weightSet (w / p.sumWeights)) p.samples
    let p ← cumUpdate { p with samples := ss, sumWeights := 1 }
    return (true, p)
  else return (false, p)

/-- `ListOfSamplesSet(vector<WeightedSample<T>>)`, pdf/mcpdf.h:381-391. -/
def listSetW (dflt : T) (p : MCPdf K T) (los : List (WSample K T)) :
    Outcome (Bool × MCPdf K T) :=
  normalizeWeights { numSamplesSet dflt p los.length with samples := los }

/-- The loop shared by pdf/mcpdf.h:403-408 and 452-457: `*it = *lit; it->WeightSet(1.0/N)`. -/
def uniformWeights (los : List T) : Outcome (List (WSample K T)) :=
  mapOutcome (fun t => (WSample.ofSample (K := K) t).weightSet (1 / (los.length : K))) los

/-- `ListOfSamplesSet(vector<Sample<T>>)`, pdf/mcpdf.h:394-419. -/
def listSetU (dflt : T) (p : MCPdf K T) (los : List T) : Outcome (Bool × MCPdf K T) := do
  let ss ← uniformWeights los
  let p ← cumUpdate { numSamplesSet dflt p los.length with samples := ss, sumWeights := 1 }
  return (true, p)

/-- `ListOfSamplesUpdate(vector<WeightedSample<T>>)`, pdf/mcpdf.h:428-438. -/
def listUpdateW (p : MCPdf K T) (los : List (WSample K T)) : Outcome (Bool × MCPdf K T) := do
  cassert (los.length = p.samples.length)
  if los.length ≠ 0 then normalizeWeights { p with samples := los }
  else return (true, p)

/-- `ListOfSamplesUpdate(vector<Sample<T>>)`, pdf/mcpdf.h:440-462. -/
def listUpdateU (dflt : T) (p : MCPdf K T) (los : List T) : Outcome (Bool × MCPdf K T) :=
  if los.length = p.samples.length then do
    cassert (los.length ≠ 0)
    let ss ← uniformWeights los
    let p ← cumUpdate { numSamplesSet dflt p los.length with samples := ss, sumWeights := 1 }
    return (true, p)
  else return (true, p)

/-- `it--; *it`: the particle before the position reached by the search. Decrementing `begin()` is
undefined behaviour. -/
def previous (p : MCPdf K T) (index : Nat) : Outcome T :=
  match index with
  | 0 => .ub
  | i + 1 => do
    let s ← vget p.samples i
    return s.value

/-- Single `SampleFrom`, pdf/mcpdf.h:294-327. `none` is the return value `false`. -/
def sampleOne (p : MCPdf K T) (method : SampleMthd) (u : K) : Outcome (Option T) :=
  match method with
  | .default => do
    let (index, _) ← sweep p.numSamples u 0 p.cum
    let t ← p.previous index
    return some t
  | _ => return none

/-- The sampling loop of the RIPLEY branch, pdf/mcpdf.h:272-283: the particle is read directly after
each search. -/
def ripleyLoop (p : MCPdf K T) : List K → Nat → List K → Outcome (List T)
  | [], _, _ => .ok []
  | u :: us, index, rest => do
    let (i, r) ← sweep p.numSamples u index rest
    let t ← p.previous i
    let ts ← p.ripleyLoop us i r
    return t :: ts

/-- List `SampleFrom`, pdf/mcpdf.h:227-292; DEFAULT goes to `Pdf<T>::SampleFrom`, pdf/pdf.h:178-191.
RIPLEY with `numsamples = 0` accesses element `-1` at line 257. -/
def sampleList (root : Nat → K → K) (p : MCPdf K T) (method : SampleMthd) (us : List K) :
    Outcome (Option (List T)) :=
  match method with
  | .default => do
    let ts ← mapOutcome (fun u => do
      let (index, _) ← sweep p.numSamples u 0 p.cum
      p.previous index) us
    return some ts
  | .ripley =>
    if us = [] then .ub
    else do
      let ts ← p.ripleyLoop (orderedUniforms root 0 us) 0 p.cum
      return some ts
  | _ => return none

/-- `MCPdf<ColumnVector>::ExpectedValueGet`, pdf/mcpdf.cpp:76-84. `_SumWeights = 0` would give NaN
in the code and gives 0 here; it is 0 only before the first successful assignment. -/
def meanGet {n : Nat} (p : MCPdf K (Fin n → K)) : Outcome (Fin n → K) := do
  let ws ← mapOutcome WSample.weightGet p.samples
  return p.sumWeights⁻¹ • (List.zipWith (fun (s : WSample K (Fin n → K)) w => w • s.value)
    p.samples ws).sum

/-- `MCPdf<ColumnVector>::CovarianceGet`, pdf/mcpdf.cpp:87-102, before `convertToSymmetricMatrix`. -/
def covRaw {n : Nat} (p : MCPdf K (Fin n → K)) : Outcome (Matrix (Fin n) (Fin n) K) := do
  let m ← p.meanGet
  let ws ← mapOutcome WSample.weightGet p.samples
  return p.sumWeights⁻¹ • (List.zipWith (fun (s : WSample K (Fin n → K)) w =>
    Matrix.of fun i j => (s.value i - m i) * ((s.value j - m j) * w)) p.samples ws).sum

/-- `Matrix::convertToSymmetricMatrix`, wrappers/matrix/matrix_BOOST.cpp:296-312: keeps the lower
triangle and mirrors it. -/
def symmetrize {n : Nat} (a : Matrix (Fin n) (Fin n) K) : Matrix (Fin n) (Fin n) K :=
  Matrix.of fun i j => if j ≤ i then a i j else a j i

/-- `MCPdf<ColumnVector>::CovarianceGet`, pdf/mcpdf.cpp:87-102. -/
def covGet {n : Nat} (p : MCPdf K (Fin n → K)) : Outcome (Matrix (Fin n) (Fin n) K) := do
  let c ← p.covRaw
  return symmetrize c

/-- `MCPdf<unsigned>::ExpectedValueGet`, pdf/mcpdf.cpp:110-124. The conversion
`(unsigned int)(x)` truncates and is undefined unless `-1 < x < 2^32`. -/
def meanGetU [FloorRing K] (p : MCPdf K (BitVec 32)) : Outcome (BitVec 32) := do
  let ws ← mapOutcome WSample.weightGet p.samples
  let cumSum := (List.zipWith (fun (s : WSample K (BitVec 32)) w => (s.value.toNat : K) * w)
    p.samples ws).sum
  let x := cumSum / p.sumWeights + 1 / 2
  if -1 < x ∧ x < 2 ^ 32 then return BitVec.ofNat 32 ⌊x⌋.toNat else .ub

/-- `MCPdf<unsigned>::CovarianceGet`, pdf/mcpdf.cpp:129-148: `diff` and `diff * diff` are 32-bit
unsigned. -/
def covGetU [FloorRing K] (p : MCPdf K (BitVec 32)) : Outcome K := do
  let mean ← p.meanGetU
  let ws ← mapOutcome WSample.weightGet p.samples
  return (List.zipWith (fun (s : WSample K (BitVec 32)) w =>
    (((s.value - mean) * (s.value - mean)).toNat : K) * w) p.samples ws).sum / p.sumWeights

/-- Public operations that change an `MCPdf`. -/
inductive Op (K T : Type) where
  | setW (los : List (WSample K T))
  | setU (los : List T)
  | updateW (los : List (WSample K T))
  | updateU (los : List T)
  | numSamplesSet (k : Nat)
  | copy

/-- Run one operation (`void` operations return `true` here). -/
def step (dflt : T) (p : MCPdf K T) : Op K T → Outcome (Bool × MCPdf K T)
  | .setW los => p.listSetW dflt los
  | .setU los => p.listSetU dflt los
  | .updateW los => p.listUpdateW los
  | .updateU los => p.listUpdateU dflt los
  | .numSamplesSet k => return (true, p.numSamplesSet dflt k)
  | .copy => return (true, p.copy)

/-- Run a history, ignoring the return values. -/
def run (dflt : T) (p : MCPdf K T) : List (Op K T) → Outcome (MCPdf K T)
  | [] => return p
  | o :: os => do
    let (_, p') ← p.step dflt o
    p'.run dflt os

end MCPdf

end BFL
