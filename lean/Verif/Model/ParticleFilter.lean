import Verif.Model.MCPdf
import Verif.Model.Models

/-!
# Model of `BFL::ParticleFilter` and `BFL::BootstrapFilter`
(`/repo/orocos_bfl/src/filter/particlefilter.cpp`, `bootstrapfilter.cpp`)

`filter/mixtureParticleFilter.cpp` repeats the same code once per mixture component. The functions
on a `Cloud` below serve both classes; line numbers are given as `P` (particlefilter.cpp) and `X`
(mixtureParticleFilter.cpp).

Random numbers are inputs: `Noise.prop i` is whatever the `i`-th call of the proposal's
`SampleFrom` consumes, `Noise.static i` and `Noise.dynamic i` are the uniform numbers of the two
places where resampling can happen during one update.
-/

namespace BFL

/-- What the filter uses of the proposal pdf (`ConditionalPdf<SV,SV>`): number of conditional
arguments, density, and the effect of `SampleFrom` on a sample holding a given previous value.
The return flag of `SampleFrom` is not looked at (P:186), so a failed draw is a `draw` that returns
the previous value. Simplification: conditional arguments that the filter does not set are constant
and are part of the functions. -/
structure Proposal (R SV K : Type) where
  numArgs : Nat
  prob : List SV → SV → Outcome K
  draw : R → List SV → SV → Outcome SV

/-- A system model together with the random draw of its pdf. -/
structure SysModel (R SV K : Type) where
  model : Model SV SV K
  draw : R → List SV → SV → Outcome SV

/-- `SystemPdfGet` used as a proposal (bootstrapfilter.cpp:71). -/
def SysModel.proposal {R SV K : Type} (m : SysModel R SV K) : Option (Proposal R SV K) :=
  m.model.pdf.map fun p => { numArgs := p.numArgs, prob := p.prob, draw := m.draw }

/-- Arguments of `Update`; a missing model is a NULL pointer (filter/filter.cpp:54-123). -/
structure UpdateCall (R SV MV K : Type) where
  sys : Option (SysModel R SV K)
  u : SV
  meas : Option (Model SV MV K)
  z : MV
  s : SV

/-- Random numbers of one update. -/
structure Noise (R K : Type) where
  prop : Nat → R
  static : Nat → K
  dynamic : Nat → K

/-- `_resampleScheme` (particlefilter.h:40-112). -/
inductive Scheme where
  | multinomial
  | systematic
  | stratified
  | residual
  | other
  deriving DecidableEq, Repr

/-- The expression `result = result && step`. -/
def andStep {S : Type} (r : Bool × S) (step : S → Outcome (Bool × S)) : Outcome (Bool × S) :=
  if r.1 then step r.2 else .ok r

/-- Particles of one filter (or one mixture component): the posterior `*_post`, `_old_samples`,
`_new_samples` and `_new_samples_unweighted`. -/
structure Cloud (K SV : Type) where
  post : MCPdf K SV
  old : List (WSample K SV)
  new : List (WSample K SV)
  unweighted : List SV
  deriving DecidableEq, Repr

namespace Cloud

variable {R SV MV K : Type} [Field K] [LinearOrder K]

/-- Conditional arguments given to the proposal, P:157-162 and P:228-234 (X:205-210, X:309-315).
`ConditionalArgumentSet` asserts the index (conditionalpdf.h:176). `_proposal_depends_on_meas` has
no effect, since `STATE_AND_MEAS_VAR_DIFFERENT` is defined (P:26, X:26). -/
def propArgs (q : Proposal R SV K) (without : Bool) (u x : SV) : Outcome (List SV) := do
  cassert (0 < q.numArgs)
  if without then return [x]
  else do
    cassert (1 < q.numArgs)
    return [x, u]

/-- Dereference of `_proposal`. -/
def deref (q : Option (Proposal R SV K)) : Outcome (Proposal R SV K) :=
  match q with
  | some q => .ok q
  | none => .ub

/-- One draw from the proposal, P:157-186 (X:205-234). -/
def drawOne (q : Option (Proposal R SV K)) (m : SysModel R SV K) (u : SV) (r : R) (x prev : SV) :
    Outcome SV := do
  let q ← deref q
  let without ← m.model.withoutInputs
  let args ← propArgs q without u x
  q.draw r args prev

/-- The loop P:155-190 (X:203-238). `news` is what is left of `_new_samples`; running past its end
is undefined. `prev` is the value held by `_sample`. -/
def proposeLoop (q : Option (Proposal R SV K)) (m : SysModel R SV K) (u : SV) (rs : Nat → R) :
    Nat → List (WSample K SV) → List (WSample K SV) → SV →
      Outcome (List (WSample K SV) × SV)
  | _, [], news, prev => .ok (news, prev)
  | i, o :: os, news, prev => do
    let x ← drawOne q m u (rs i) o.value prev
    match news with
    | [] => .ub
    | n :: ns => do
      let w ← o.weightGet
      let n' ← WSample.weightSet { n with value := x } w
      let (rest, last) ← proposeLoop q m u rs (i + 1) os ns x
      return (n' :: rest, last)

/-- `ProposalStepInternal`, P:144-197 (`ProposalStepInternalOne`, X:191-245), without the increment
of `_timestep`. -/
def propose (q : Option (Proposal R SV K)) (m : SysModel R SV K) (u : SV) (rs : Nat → R)
    (c : Cloud K SV) (prev : SV) : Outcome ((Bool × Cloud K SV) × SV) := do
  let (new, last) ← proposeLoop q m u rs 0 c.post.listGet c.new prev
  let (b, post) ← c.post.listUpdateW new
  return ((b, { c with post := post, old := c.post.listGet, new := new }), last)

/-- Likelihood of the measurement, P:221-224 and P:229-231, 259 (X:300-305, X:310-312, 340). -/
def likelihood (mm : Model SV MV K) (z : MV) (s x : SV) : Outcome K := do
  let without ← mm.withoutInputs
  if without then mm.prob1 z x else mm.prob2 z x s

/-- Density of the system model, P:242 and P:253 (X:323, X:334). -/
def transition (m : SysModel R SV K) (u x y : SV) : Outcome K := do
  let without ← m.model.withoutInputs
  if without then m.model.prob1 y x else m.model.prob2 y x u

/-- P:241-243 and P:252-254 (X:322-324, X:333-335). -/
def correction (q : Proposal R SV K) (m : SysModel R SV K) (u x y : SV) (args : List SV) (l : K) :
    Outcome K := do
  let d ← q.prob args y
  if d ≠ 0 then do
    let t ← transition m u x y
    let r ← divProb t d
    mkProb (l * r)
  else return 0

/-- P:228-260 (X:309-341): a system model is given. With sensor parameters the system density and
the proposal density are not used. -/
def factorSys (q : Option (Proposal R SV K)) (m : SysModel R SV K) (u : SV) (mm : Model SV MV K)
    (z : MV) (s x y : SV) : Outcome K := do
  let q ← deref q
  cassert (0 < q.numArgs)
  let noSensor ← mm.withoutInputs
  if noSensor then do
    let l ← mm.prob1 z y
    let without ← m.model.withoutInputs
    let args ← propArgs q without u x
    correction q m u x y args l
  else mm.prob2 z y s

/-- `weightfactor` of one particle with new value `y` and old value `x`, P:219-261
(X:298-342). -/
def factor (q : Option (Proposal R SV K)) (sys : Option (SysModel R SV K)) (u : SV)
    (mm : Model SV MV K) (z : MV) (s x y : SV) : Outcome K :=
  match sys with
  | none => likelihood mm z s y
  | some m => factorSys q m u mm z s x y

/-- The loop P:214-265 (X:293-349); `olds` is what is left of `_old_samples`, read through an
iterator that is not compared with its end. Also returns the sum of the new weights, which only the
mixture filter computes (X:346). -/
def weightLoop (f : SV → SV → Outcome K) :
    List (WSample K SV) → List (WSample K SV) → Outcome (List (WSample K SV) × K)
  | _, [] => .ok ([], 0)
  | olds, n :: ns =>
    match olds with
    | [] => .ub
    | o :: os => do
      let g ← f o.value n.value
      let w ← n.weightGet
      let n' ← n.weightSet (w * g)
      let (rest, sum) ← weightLoop f os ns
      return (n' :: rest, w * g + sum)

/-- `UpdateWeightsInternal`, P:200-269 (`UpdateWeightsInternalOne`, X:274-353). The third component
is `_sumWeights[component]`; its additions are made in the other order in the code. -/
def reweight (f : SV → SV → Outcome K) (c : Cloud K SV) :
    Outcome ((Bool × Cloud K SV) × K) := do
  let (new, sum) ← weightLoop f c.old c.post.listGet
  let (b, post) ← c.post.listUpdateW new
  return ((b, { c with post := post, new := new }), sum)

/-- `SampleFrom(_new_samples_unweighted, NumSamples, RIPLEY)` for the multinomial scheme; the other
schemes draw nothing. P:358-373 (X:470-485). -/
def drawUnweighted (root : Nat → K → K) (scheme : Scheme) (us : Nat → K) (c : Cloud K SV) :
    Outcome (List SV) :=
  match scheme with
  | .multinomial => do
    let ts ← c.post.sampleList root .ripley ((List.range c.post.numSamples).map us)
    match ts with
    | some ts => return ts
    | none => return c.unweighted
  | _ => return c.unweighted

/-- `Resample`, P:344-386 (`ResampleOne`, X:456-498). `dflt` is a default-constructed value. -/
def resample (dflt : SV) (root : Nat → K → K) (scheme : Scheme) (us : Nat → K) (c : Cloud K SV) :
    Outcome (Bool × Cloud K SV) := do
  let ts ← drawUnweighted root scheme us c
  let (b, post) ← c.post.listUpdateU dflt ts
  return (b, { c with post := post, unweighted := ts })

/-- Sum of the squared weights, P:285-289 (X:381-385). -/
def sumSquares (c : Cloud K SV) : Outcome K := do
  let ws ← mapOutcome WSample.weightGet c.post.listGet
  return (ws.map fun w => w ^ 2).sum

/-- The test `1.0 / sum_sq < threshold`, P:290 (X:386). For a zero sum the quotient is infinite and
the comparison is false. -/
def tooFew (threshold sumSq : K) : Bool := decide (sumSq ≠ 0 ∧ 1 / sumSq < threshold)

/-- The dynamic branch of `DynamicResampleStep`, P:285-303 (X:381-399). -/
def resampleIfDegenerate (dflt : SV) (root : Nat → K → K) (scheme : Scheme) (threshold : K)
    (us : Nat → K) (c : Cloud K SV) : Outcome (Bool × Cloud K SV) := do
  let sumSq ← c.sumSquares
  if tooFew threshold sumSq then
    resample dflt root scheme us { c with new := c.post.listGet }
  else return (true, { c with new := c.post.listGet })

end Cloud

/-- Data members of `ParticleFilter`. Simplification: the resample period is a natural number (a
negative `int` period would behave like its absolute value in the `%` test). -/
structure ParticleFilter (R SV K : Type) where
  cloud : Cloud K SV
  sample : SV
  timestep : Nat
  dynamic : Bool
  period : Nat
  threshold : K
  scheme : Scheme
  proposal : Option (Proposal R SV K)

namespace ParticleFilter

variable {R SV MV K : Type} [Field K] [LinearOrder K]

/-- The choice of the resampling policy, P:58-68: exactly one of period and threshold is nonzero. -/
def policy (period : Nat) (threshold : K) : Outcome Bool := do
  cassert (¬ (period = 0 ∧ threshold = 0))
  cassert (¬ (period ≠ 0 ∧ threshold ≠ 0))
  return decide (period = 0)

/-- Constructor, P:28-69. `BootstrapFilter` passes NULL as proposal (bootstrapfilter.cpp:26-37). -/
def make (dflt : SV) (prior : MCPdf K SV) (proposal : Option (Proposal R SV K)) (period : Nat)
    (threshold : K) (scheme : Scheme) : Outcome (ParticleFilter R SV K) := do
  let (ret, post) ← (MCPdf.make prior.numSamples dflt).listSetW dflt prior.listGet
  cassert (ret = true)
  let dynamic ← policy period threshold
  return { cloud := { post := post, old := prior.listGet, new := prior.listGet, unweighted := [] },
           sample := dflt, timestep := 0, dynamic := dynamic, period := period,
           threshold := threshold, scheme := scheme, proposal := proposal }

/-- `PostGet`, P:389-393. -/
abbrev postGet (f : ParticleFilter R SV K) : MCPdf K SV := f.cloud.post

/-- `ProposalStepInternal`, P:144-197. -/
def proposalStep (m : SysModel R SV K) (u : SV) (rs : Nat → R) (f : ParticleFilter R SV K) :
    Outcome (Bool × ParticleFilter R SV K) := do
  let ((b, cloud), last) ← Cloud.propose f.proposal m u rs f.cloud f.sample
  return (b, { f with cloud := cloud, sample := last, timestep := f.timestep + 1 })

/-- `UpdateWeightsInternal`, P:200-269. -/
def weightStep (c : UpdateCall R SV MV K) (mm : Model SV MV K) (f : ParticleFilter R SV K) :
    Outcome (Bool × ParticleFilter R SV K) := do
  let ((b, cloud), _) ← f.cloud.reweight (Cloud.factor f.proposal c.sys c.u mm c.z c.s)
  return (b, { f with cloud := cloud })

/-- `StaticResampleStep`, P:307-314. -/
def staticStep (dflt : SV) (root : Nat → K → K) (us : Nat → K) (f : ParticleFilter R SV K) :
    Outcome (Bool × ParticleFilter R SV K) :=
  if f.dynamic = false ∧ f.timestep % f.period = 0 ∧ f.timestep ≠ 0 then do
    let (b, cloud) ← f.cloud.resample dflt root f.scheme us
    return (b, { f with cloud := cloud })
  else return (true, f)

/-- `DynamicResampleStep`, P:271-304. -/
def dynamicStep (dflt : SV) (root : Nat → K → K) (us : Nat → K) (f : ParticleFilter R SV K) :
    Outcome (Bool × ParticleFilter R SV K) :=
  if f.dynamic = true then do
    let (b, cloud) ← f.cloud.resampleIfDegenerate dflt root f.scheme f.threshold us
    return (b, { f with cloud := cloud })
  else return (true, f)

/-- P:328-333. -/
def sysPart (dflt : SV) (root : Nat → K → K) (noise : Noise R K) (c : UpdateCall R SV MV K)
    (r : Bool × ParticleFilter R SV K) : Outcome (Bool × ParticleFilter R SV K) :=
  match c.sys with
  | none => .ok r
  | some m => do
    let r ← andStep r (staticStep dflt root noise.static)
    andStep r (proposalStep m c.u noise.prop)

/-- P:335-339. -/
def measPart (dflt : SV) (root : Nat → K → K) (noise : Noise R K) (c : UpdateCall R SV MV K)
    (r : Bool × ParticleFilter R SV K) : Outcome (Bool × ParticleFilter R SV K) :=
  match c.meas with
  | none => .ok r
  | some mm => do
    let r ← andStep r (weightStep c mm)
    andStep r (dynamicStep dflt root noise.dynamic)

/-- `UpdateInternal`, P:317-342. -/
def update (dflt : SV) (root : Nat → K → K) (noise : Noise R K) (c : UpdateCall R SV MV K)
    (f : ParticleFilter R SV K) : Outcome (Bool × ParticleFilter R SV K) := do
  let r ← sysPart dflt root noise c (true, f)
  measPart dflt root noise c r

/-- System half of `BootstrapFilter::UpdateInternal`, bootstrapfilter.cpp:70-73. -/
def bootSys (dflt : SV) (root : Nat → K → K) (noise : Noise R K) (c : UpdateCall R SV MV K)
    (f : ParticleFilter R SV K) : Outcome (Bool × ParticleFilter R SV K) :=
  match c.sys with
  | none => .ok (true, f)
  | some m => update dflt root noise { c with meas := none } { f with proposal := m.proposal }

/-- Measurement half of `BootstrapFilter::UpdateInternal`, bootstrapfilter.cpp:74-75: carried out
whatever the system half returned. -/
def bootMeas (dflt : SV) (root : Nat → K → K) (noise : Noise R K) (c : UpdateCall R SV MV K)
    (r : Bool × ParticleFilter R SV K) : Outcome (Bool × ParticleFilter R SV K) :=
  match c.meas with
  | none => .ok r
  | some _ => do
    let (b, f) ← update dflt root noise { c with sys := none } r.2
    return (b && r.1, f)

/-- `BootstrapFilter::UpdateInternal`, bootstrapfilter.cpp:61-78. -/
def bootUpdate (dflt : SV) (root : Nat → K → K) (noise : Noise R K) (c : UpdateCall R SV MV K)
    (f : ParticleFilter R SV K) : Outcome (Bool × ParticleFilter R SV K) := do
  let r ← bootSys dflt root noise c f
  bootMeas dflt root noise c r

/-- A sequence of updates; the conjunction of the results is returned. `step` is `update` or
`bootUpdate`. -/
def run (step : Noise R K → UpdateCall R SV MV K → ParticleFilter R SV K →
      Outcome (Bool × ParticleFilter R SV K)) :
    List (Noise R K × UpdateCall R SV MV K) → ParticleFilter R SV K →
      Outcome (Bool × ParticleFilter R SV K)
  | [], f => .ok (true, f)
  | (noise, c) :: rest, f => do
    let (b, f1) ← step noise c f
    let (b', f2) ← run step rest f1
    return (b && b', f2)

end ParticleFilter

/-- `EKParticleFilter::Resample`, filter/EKparticlefilter.cpp:75-114: loop over the ordered uniform
numbers; the whole weighted particle is copied together with its covariance. -/
def ekLoop {K SV C : Type} [Field K] [LinearOrder K] (p : MCPdf K SV) (covs : List C) :
    List K → Nat → List K → Outcome (List (WSample K SV × C))
  | [], _, _ => .ok []
  | u :: us, index, rest => do
    let (i, r) ← sweep p.numSamples u index rest
    match i with
    | 0 => .ub
    | j + 1 => do
      let s ← vget p.samples j
      let c ← vget covs j
      let ts ← ekLoop p covs us (j + 1) r
      return (s, c) :: ts

/-- `EKParticleFilter::Resample`, filter/EKparticlefilter.cpp:75-114. The vectors `_result_samples`
and `_tmpCov` have the length fixed at construction, which is the number of samples. -/
def ekResample {K SV C : Type} [Field K] [LinearOrder K] (root : Nat → K → K) (us : Nat → K)
    (p : MCPdf K SV) (covs : List C) : Outcome (Bool × MCPdf K SV × List C) :=
  if p.numSamples = 0 then .ub
  else do
    let l ← ekLoop p covs (orderedUniforms root 0 ((List.range p.numSamples).map us)) 0 p.cum
    let (b, post) ← p.listUpdateW (l.map Prod.fst)
    return (b, post, l.map Prod.snd)

end BFL
