import Verif.Model.Rounded
import Verif.Model.MCPdf

/-!
# `MCPdf` with rounded arithmetic

The functions of `Model/MCPdf.lean` that compute, once more, with every addition and division followed by a
rounding `fl`, as in `Model/Rounded.lean`. Sampling only compares numbers; its model is used unchanged.
-/

namespace BFL

variable {K T : Type} [Field K] [LinearOrder K]

namespace Rounded.MC

/-- `CumPDFUpdate`, pdf/mcpdf.h:509-525. -/
def cumUpdate (fl : K → K) (p : MCPdf K T) : Outcome (MCPdf K T) := do
  let ws ← mapOutcome WSample.weightGet p.samples
  if p.cum.length < p.samples.length + 1 then .ub
  else return { p with
    cum := Rounded.runningSums fl 0 (ws.map fun w => fl (w / p.sumWeights)) ++
      p.cum.drop (p.samples.length + 1) }

/-- `SumWeightsUpdate`, pdf/mcpdf.h:465-489. -/
def sumWeightsUpdate (fl : K → K) (p : MCPdf K T) : Outcome (Bool × MCPdf K T) := do
  let ws ← mapOutcome WSample.weightGet p.samples
  if 0 < Rounded.sum fl ws then return (true, { p with sumWeights := Rounded.sum fl ws })
  else return (false, p)

/-- `NormalizeWeights`, pdf/mcpdf.h:491-506. -/
def normalizeWeights (fl : K → K) (p : MCPdf K T) : Outcome (Bool × MCPdf K T) := do
  let (b, p) ← sumWeightsUpdate fl p
  if b then
    let ss ← mapOutcome (fun (s : WSample K T) => do
      let w ← s.weightGet
      s.weightSet (fl (w / p.sumWeights))) p.samples
    let p ← cumUpdate fl { p with samples := ss, sumWeights := 1 }
    return (true, p)
  else return (false, p)

/-- `ListOfSamplesSet(vector<WeightedSample<T>>)`, pdf/mcpdf.h:381-391. -/
def listSetW (fl : K → K) (dflt : T) (p : MCPdf K T) (los : List (WSample K T)) :
    Outcome (Bool × MCPdf K T) :=
  normalizeWeights fl { p.numSamplesSet dflt los.length with samples := los }

/-- The loop shared by pdf/mcpdf.h:403-408 and 452-457. The conversion of the number of samples to double is
exact. -/
def uniformWeights (fl : K → K) (los : List T) : Outcome (List (WSample K T)) :=
  mapOutcome (fun t => (WSample.ofSample (K := K) t).weightSet (fl (1 / (los.length : K)))) los

/-- `ListOfSamplesSet(vector<Sample<T>>)`, pdf/mcpdf.h:394-419. -/
def listSetU (fl : K → K) (dflt : T) (p : MCPdf K T) (los : List T) : Outcome (Bool × MCPdf K T) := do
  let ss ← uniformWeights fl los
  let p ← cumUpdate fl { p.numSamplesSet dflt los.length with samples := ss, sumWeights := 1 }
  return (true, p)

/-- `ListOfSamplesUpdate(vector<WeightedSample<T>>)`, pdf/mcpdf.h:428-438. -/
def listUpdateW (fl : K → K) (p : MCPdf K T) (los : List (WSample K T)) : Outcome (Bool × MCPdf K T) := do
  cassert (los.length = p.samples.length)
  if los.length ≠ 0 then normalizeWeights fl { p with samples := los }
  else return (true, p)

/-- `ListOfSamplesUpdate(vector<Sample<T>>)`, pdf/mcpdf.h:440-462. -/
def listUpdateU (fl : K → K) (dflt : T) (p : MCPdf K T) (los : List T) : Outcome (Bool × MCPdf K T) :=
  if los.length = p.samples.length then do
    cassert (los.length ≠ 0)
    let ss ← uniformWeights fl los
    let p ← cumUpdate fl { p.numSamplesSet dflt los.length with samples := ss, sumWeights := 1 }
    return (true, p)
  else return (true, p)

/-- Run one operation. -/
def step (fl : K → K) (dflt : T) (p : MCPdf K T) : MCPdf.Op K T → Outcome (Bool × MCPdf K T)
  | .setW los => listSetW fl dflt p los
  | .setU los => listSetU fl dflt p los
  | .updateW los => listUpdateW fl p los
  | .updateU los => listUpdateU fl dflt p los
  | .numSamplesSet k => return (true, p.numSamplesSet dflt k)
  | .copy => return (true, p.copy)

/-- Run a history, ignoring the return values. -/
def run (fl : K → K) (dflt : T) (p : MCPdf K T) : List (MCPdf.Op K T) → Outcome (MCPdf K T)
  | [] => return p
  | o :: os => do
    let (_, p') ← step fl dflt p o
    run fl dflt p' os

/-- The ordered uniform samples of RIPLEY, pdf/mcpdf.h:256-262; `root k x` is the double that
`pow(x, 1.0/k)` returns. -/
def orderedUniforms (fl : K → K) (root : Nat → K → K) : Nat → List K → List K
  | _, [] => []
  | i, [u] => [root (i + 1) u]
  | i, u :: v :: us =>
    match orderedUniforms fl root (i + 1) (v :: us) with
    | [] => []
    | w :: ws => fl (root (i + 1) u * w) :: w :: ws

/-- List `SampleFrom` with RIPLEY, pdf/mcpdf.h:250-285, for at least one draw. -/
def sampleRipley (fl : K → K) (root : Nat → K → K) (p : MCPdf K T) (us : List K) : Outcome (List T) :=
  if us = [] then .ub else p.ripleyLoop (orderedUniforms fl root 0 us) 0 p.cum

end Rounded.MC

end BFL
