import Verif.Model.RoundedMCPdf
import Verif.Model.ParticleFilter

/-!
# The particle filter with rounded arithmetic

The functions of `Model/ParticleFilter.lean` that compute, once more, with every addition,
multiplication and division followed by a rounding `fl`, as in `Model/Rounded.lean`. Densities and
draws are what the user's pdf objects return. Line numbers `P` refer to filter/particlefilter.cpp.
-/

namespace BFL

namespace Rounded

/-- `MCPdf<ColumnVector>::ExpectedValueGet`, pdf/mcpdf.cpp:76-84, for each component. The vector
operations work componentwise. -/
def MC.meanGet {K : Type} [Field K] [LinearOrder K] {n : Nat} (fl : K → K) (p : MCPdf K (Fin n → K)) :
    Outcome (Fin n → K) := do
  let ws ← mapOutcome WSample.weightGet p.samples
  return fun j => fl (Rounded.sum fl (List.zipWith
    (fun (s : WSample K (Fin n → K)) w => fl (s.value j * w)) p.samples ws) / p.sumWeights)

namespace PF

variable {R SV MV K : Type} [Field K] [LinearOrder K]

/-- P:241-243 and P:252-254. -/
def correction (fl : K → K) (q : Proposal R SV K) (m : SysModel R SV K) (u x y : SV)
    (args : List SV) (l : K) : Outcome K := do
  let d ← q.prob args y
  if d ≠ 0 then do
    let t ← Cloud.transition m u x y
    let r ← Rounded.divProb fl t d
    mkProb (fl (l * r))
  else return 0

/-- P:228-260. -/
def factorSys (fl : K → K) (q : Option (Proposal R SV K)) (m : SysModel R SV K) (u : SV)
    (mm : Model SV MV K) (z : MV) (s x y : SV) : Outcome K := do
  let q ← Cloud.deref q
  cassert (0 < q.numArgs)
  let noSensor ← mm.withoutInputs
  if noSensor then do
    let l ← mm.prob1 z y
    let without ← m.model.withoutInputs
    let args ← Cloud.propArgs q without u x
    correction fl q m u x y args l
  else mm.prob2 z y s

/-- `weightfactor`, P:219-261. -/
def factor (fl : K → K) (q : Option (Proposal R SV K)) (sys : Option (SysModel R SV K)) (u : SV)
    (mm : Model SV MV K) (z : MV) (s x y : SV) : Outcome K :=
  match sys with
  | none => Cloud.likelihood mm z s y
  | some m => factorSys fl q m u mm z s x y

/-- The loop P:214-265. -/
def weightLoop (fl : K → K) (f : SV → SV → Outcome K) :
    List (WSample K SV) → List (WSample K SV) → Outcome (List (WSample K SV))
  | _, [] => .ok []
  | olds, n :: ns =>
    match olds with
    | [] => .ub
    | o :: os => do
      let g ← f o.value n.value
      let w ← n.weightGet
      let n' ← n.weightSet (fl (w * g))
      let rest ← weightLoop fl f os ns
      return n' :: rest

/-- `UpdateWeightsInternal`, P:200-269. -/
def reweight (fl : K → K) (f : SV → SV → Outcome K) (c : Cloud K SV) :
    Outcome (Bool × Cloud K SV) := do
  let new ← weightLoop fl f c.old c.post.listGet
  let (b, post) ← MC.listUpdateW fl c.post new
  return (b, { c with post := post, new := new })

/-- `ProposalStepInternal`, P:144-197, without the increment of `_timestep`. -/
def propose (fl : K → K) (q : Option (Proposal R SV K)) (m : SysModel R SV K) (u : SV)
    (rs : Nat → R) (c : Cloud K SV) (prev : SV) : Outcome ((Bool × Cloud K SV) × SV) := do
  let (new, last) ← Cloud.proposeLoop q m u rs 0 c.post.listGet c.new prev
  let (b, post) ← MC.listUpdateW fl c.post new
  return ((b, { c with post := post, old := c.post.listGet, new := new }), last)

/-- P:358-373. -/
def drawUnweighted (fl : K → K) (root : Nat → K → K) (scheme : Scheme) (us : Nat → K)
    (c : Cloud K SV) : Outcome (List SV) :=
  match scheme with
  | .multinomial => MC.sampleRipley fl root c.post ((List.range c.post.numSamples).map us)
  | _ => return c.unweighted

/-- `Resample`, P:344-386. -/
def resample (fl : K → K) (dflt : SV) (root : Nat → K → K) (scheme : Scheme) (us : Nat → K)
    (c : Cloud K SV) : Outcome (Bool × Cloud K SV) := do
  let ts ← drawUnweighted fl root scheme us c
  let (b, post) ← MC.listUpdateU fl dflt c.post ts
  return (b, { c with post := post, unweighted := ts })

/-- Sum of the squared weights, P:285-289. `pow(w, 2)` is taken to be the rounded square. -/
def sumSquares (fl : K → K) (c : Cloud K SV) : Outcome K := do
  let ws ← mapOutcome WSample.weightGet c.post.listGet
  return Rounded.sum fl (ws.map fun w => fl (w ^ 2))

/-- P:285-303. -/
def resampleIfDegenerate (fl : K → K) (dflt : SV) (root : Nat → K → K) (scheme : Scheme)
    (threshold : K) (us : Nat → K) (c : Cloud K SV) : Outcome (Bool × Cloud K SV) := do
  let sumSq ← sumSquares fl c
  if sumSq ≠ 0 ∧ fl (1 / sumSq) < threshold then
    resample fl dflt root scheme us { c with new := c.post.listGet }
  else return (true, { c with new := c.post.listGet })

/-- Constructor, P:28-69. -/
def make (fl : K → K) (dflt : SV) (prior : MCPdf K SV) (proposal : Option (Proposal R SV K))
    (period : Nat) (threshold : K) (scheme : Scheme) : Outcome (ParticleFilter R SV K) := do
  let (ret, post) ← MC.listSetW fl dflt (MCPdf.make prior.numSamples dflt) prior.listGet
  cassert (ret = true)
  let dynamic ← ParticleFilter.policy period threshold
  return { cloud := { post := post, old := prior.listGet, new := prior.listGet, unweighted := [] },
           sample := dflt, timestep := 0, dynamic := dynamic, period := period,
           threshold := threshold, scheme := scheme, proposal := proposal }

/-- `ProposalStepInternal`, P:144-197. -/
def proposalStep (fl : K → K) (m : SysModel R SV K) (u : SV) (rs : Nat → R)
    (f : ParticleFilter R SV K) : Outcome (Bool × ParticleFilter R SV K) := do
  let ((b, cloud), last) ← propose fl f.proposal m u rs f.cloud f.sample
  return (b, { f with cloud := cloud, sample := last, timestep := f.timestep + 1 })

/-- `UpdateWeightsInternal`, P:200-269. -/
def weightStep (fl : K → K) (c : UpdateCall R SV MV K) (mm : Model SV MV K)
    (f : ParticleFilter R SV K) : Outcome (Bool × ParticleFilter R SV K) := do
  let (b, cloud) ← reweight fl (factor fl f.proposal c.sys c.u mm c.z c.s) f.cloud
  return (b, { f with cloud := cloud })

/-- `StaticResampleStep`, P:307-314. -/
def staticStep (fl : K → K) (dflt : SV) (root : Nat → K → K) (us : Nat → K)
    (f : ParticleFilter R SV K) : Outcome (Bool × ParticleFilter R SV K) :=
  if f.dynamic = false ∧ f.timestep % f.period = 0 ∧ f.timestep ≠ 0 then do
    let (b, cloud) ← resample fl dflt root f.scheme us f.cloud
    return (b, { f with cloud := cloud })
  else return (true, f)

/-- `DynamicResampleStep`, P:271-304. -/
def dynamicStep (fl : K → K) (dflt : SV) (root : Nat → K → K) (us : Nat → K)
    (f : ParticleFilter R SV K) : Outcome (Bool × ParticleFilter R SV K) :=
  if f.dynamic = true then do
    let (b, cloud) ← resampleIfDegenerate fl dflt root f.scheme f.threshold us f.cloud
    return (b, { f with cloud := cloud })
  else return (true, f)

/-- P:328-333. -/
def sysPart (fl : K → K) (dflt : SV) (root : Nat → K → K) (noise : Noise R K)
    (c : UpdateCall R SV MV K) (r : Bool × ParticleFilter R SV K) :
    Outcome (Bool × ParticleFilter R SV K) :=
  match c.sys with
  | none => .ok r
  | some m => do
    let r ← andStep r (staticStep fl dflt root noise.static)
    andStep r (proposalStep fl m c.u noise.prop)

/-- P:335-339. -/
def measPart (fl : K → K) (dflt : SV) (root : Nat → K → K) (noise : Noise R K)
    (c : UpdateCall R SV MV K) (r : Bool × ParticleFilter R SV K) :
    Outcome (Bool × ParticleFilter R SV K) :=
  match c.meas with
  | none => .ok r
  | some mm => do
    let r ← andStep r (weightStep fl c mm)
    andStep r (dynamicStep fl dflt root noise.dynamic)

/-- `UpdateInternal`, P:317-342. Histories are run by `ParticleFilter.run`. -/
def update (fl : K → K) (dflt : SV) (root : Nat → K → K) (noise : Noise R K)
    (c : UpdateCall R SV MV K) (f : ParticleFilter R SV K) :
    Outcome (Bool × ParticleFilter R SV K) := do
  let r ← sysPart fl dflt root noise c (true, f)
  measPart fl dflt root noise c r

/-- System half of `BootstrapFilter::UpdateInternal`, bootstrapfilter.cpp:70-73. -/
def bootSys (fl : K → K) (dflt : SV) (root : Nat → K → K) (noise : Noise R K)
    (c : UpdateCall R SV MV K) (f : ParticleFilter R SV K) :
    Outcome (Bool × ParticleFilter R SV K) :=
  match c.sys with
  | none => .ok (true, f)
  | some m => update fl dflt root noise { c with meas := none } { f with proposal := m.proposal }

/-- Measurement half, bootstrapfilter.cpp:74-75. -/
def bootMeas (fl : K → K) (dflt : SV) (root : Nat → K → K) (noise : Noise R K)
    (c : UpdateCall R SV MV K) (r : Bool × ParticleFilter R SV K) :
    Outcome (Bool × ParticleFilter R SV K) :=
  match c.meas with
  | none => .ok r
  | some _ => do
    let (b, f) ← update fl dflt root noise { c with sys := none } r.2
    return (b && r.1, f)

/-- `BootstrapFilter::UpdateInternal`, bootstrapfilter.cpp:61-78. -/
def bootUpdate (fl : K → K) (dflt : SV) (root : Nat → K → K) (noise : Noise R K)
    (c : UpdateCall R SV MV K) (f : ParticleFilter R SV K) :
    Outcome (Bool × ParticleFilter R SV K) := do
  let r ← bootSys fl dflt root noise c f
  bootMeas fl dflt root noise c r

end PF

end Rounded

end BFL
