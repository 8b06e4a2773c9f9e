import Verif.Model.ParticleFilter
import Verif.Model.Mixture

/-!
# Model of `BFL::MixtureParticleFilter` and `BFL::MixtureBootstrapFilter`
(`/repo/orocos_bfl/src/filter/mixtureParticleFilter.cpp`, `mixtureBootstrapFilter.cpp`)

Line numbers refer to mixtureParticleFilter.cpp. The per-component functions have the same code as
`ParticleFilter` and are the functions of `Cloud` (`Verif/Model/ParticleFilter.lean`, lines `X`).
-/

namespace BFL

/-- Data members. The components of `mix` hold, for component `i`, the pdf `ComponentGet(i)` of
`*_post` together with `_old_samplesVec[i]`, `_new_samplesVec[i]` and
`_new_samples_unweightedVec[i]`; these vectors have one entry per component (lines 42-44) and no
update changes the number of components. `_newMixtureWeights` and `_sumWeights` are overwritten
before they are read and are not stored. `Reset` is in `Verif.Model.FilterReset`. Not
modelled: the second constructor (which
casts the mixture to an `MCPdf`, line 103, and dereferences NULL). -/
structure MixtureParticleFilter (R SV K : Type) where
  mix : Mixture K (Cloud K SV)
  sample : SV
  timestep : Nat
  dynamic : Bool
  period : Nat
  threshold : K
  scheme : Scheme
  proposal : Option (Proposal R SV K)

namespace MixtureParticleFilter

variable {R SV MV K : Type} [Field K] [LinearOrder K]

/-- A component with fresh buffers, lines 55-59. -/
def freshCloud (p : MCPdf K SV) : Cloud K SV :=
  { post := p, old := p.listGet, new := p.listGet, unweighted := [] }

/-- Constructor, lines 28-75: the posterior is a clone of the prior. -/
def make (dflt : SV) (prior : Mixture K (MCPdf K SV)) (proposal : Option (Proposal R SV K))
    (period : Nat) (threshold : K) (scheme : Scheme) :
    Outcome (MixtureParticleFilter R SV K) := do
  let post ← prior.copy
  let dynamic ← ParticleFilter.policy period threshold
  return { mix := { dim := post.dim, comps := post.comps.map freshCloud, weights := post.weights,
                    cum := post.cum },
           sample := dflt, timestep := 0, dynamic := dynamic, period := period,
           threshold := threshold, scheme := scheme, proposal := proposal }

/-- `ProposalStepInternal`, lines 176-189, as a loop over the remaining components: stops at the
first component whose step reports failure; every step increments `_timestep` (line 240). -/
def proposeLoop (q : Option (Proposal R SV K)) (m : SysModel R SV K) (u : SV)
    (noise : Nat → Noise R K) : Nat → List (Cloud K SV) → SV → Nat →
      Outcome (Bool × List (Cloud K SV) × SV × Nat)
  | _, [], prev, t => .ok (true, [], prev, t)
  | i, c :: cs, prev, t => do
    let ((b, c'), last) ← Cloud.propose q m u (noise i).prop c prev
    if b then do
      let (b', cs', last', t') ← proposeLoop q m u noise (i + 1) cs last (t + 1)
      return (b', c' :: cs', last', t')
    else return (false, c' :: cs, last, t + 1)

/-- `ProposalStepInternal`, lines 176-189. -/
def proposalStep (m : SysModel R SV K) (u : SV) (noise : Nat → Noise R K)
    (f : MixtureParticleFilter R SV K) : Outcome (Bool × MixtureParticleFilter R SV K) := do
  let (b, cs, last, t) ← proposeLoop f.proposal m u noise 0 f.mix.comps f.sample f.timestep
  return (b, { f with mix := { f.mix with comps := cs }, sample := last, timestep := t })

/-- First loop of `UpdateWeightsInternal`, lines 256-259: the results of the components are
ignored. Returns the clouds and `_sumWeights`. -/
def reweightLoop (f : SV → SV → Outcome K) : List (Cloud K SV) →
    Outcome (List (Cloud K SV) × List K)
  | [] => .ok ([], [])
  | c :: cs => do
    let ((_, c'), s) ← c.reweight f
    let (cs', ss) ← reweightLoop f cs
    return (c' :: cs', s :: ss)

/-- Second loop of `UpdateWeightsInternal`, lines 260-267. -/
def newWeights (mix : Mixture K (Cloud K SV)) (sums : List K) : Outcome (List K) :=
  mapOutcome (fun i : Nat => do
    let w ← mix.weightGet i
    let s ← vget sums i
    mkProb (w * s)) (List.range mix.numComponents)

/-- `UpdateWeightsInternal`, lines 247-272. -/
def weightStep (c : UpdateCall R SV MV K) (mm : Model SV MV K)
    (f : MixtureParticleFilter R SV K) : Outcome (Bool × MixtureParticleFilter R SV K) := do
  let (cs, sums) ← reweightLoop (Cloud.factor f.proposal c.sys c.u mm c.z c.s) f.mix.comps
  let ws ← newWeights { f.mix with comps := cs } sums
  let (b, mix) ← Mixture.weightsSet { f.mix with comps := cs } ws
  return (b, { f with mix := mix })

/-- A loop `result = result && step(i)` over the components, lines 360-363 and 449-452. -/
def eachComponent (step : Nat → Cloud K SV → Outcome (Bool × Cloud K SV)) :
    Nat → List (Cloud K SV) → Outcome (Bool × List (Cloud K SV))
  | _, [] => .ok (true, [])
  | i, c :: cs => do
    let (b, c') ← step i c
    if b then do
      let (b', cs') ← eachComponent step (i + 1) cs
      return (b', c' :: cs')
    else return (false, c' :: cs)

/-- `StaticResampleStep`, lines 403-410, with `Resample`, 444-454. -/
def staticStep (dflt : SV) (root : Nat → K → K) (noise : Nat → Noise R K)
    (f : MixtureParticleFilter R SV K) : Outcome (Bool × MixtureParticleFilter R SV K) :=
  if f.dynamic = false ∧ f.timestep % f.period = 0 ∧ f.timestep ≠ 0 then do
    let (b, cs) ← eachComponent
      (fun i c => c.resample dflt root f.scheme (noise i).static) 0 f.mix.comps
    return (b, { f with mix := { f.mix with comps := cs } })
  else return (true, f)

/-- `DynamicResampleStep`, lines 355-365, with `DynamicResampleStepOne`, 367-400. -/
def dynamicStep (dflt : SV) (root : Nat → K → K) (noise : Nat → Noise R K)
    (f : MixtureParticleFilter R SV K) : Outcome (Bool × MixtureParticleFilter R SV K) :=
  if f.dynamic = true then do
    let (b, cs) ← eachComponent
      (fun i c => c.resampleIfDegenerate dflt root f.scheme f.threshold (noise i).dynamic)
      0 f.mix.comps
    return (b, { f with mix := { f.mix with comps := cs } })
  else return (true, f)

/-- Lines 424-429. -/
def sysPart (dflt : SV) (root : Nat → K → K) (noise : Nat → Noise R K)
    (c : UpdateCall R SV MV K) (r : Bool × MixtureParticleFilter R SV K) :
    Outcome (Bool × MixtureParticleFilter R SV K) :=
  match c.sys with
  | none => .ok r
  | some m => do
    let r ← andStep r (staticStep dflt root noise)
    andStep r (proposalStep m c.u noise)

/-- Lines 431-435. -/
def measPart (dflt : SV) (root : Nat → K → K) (noise : Nat → Noise R K)
    (c : UpdateCall R SV MV K) (r : Bool × MixtureParticleFilter R SV K) :
    Outcome (Bool × MixtureParticleFilter R SV K) :=
  match c.meas with
  | none => .ok r
  | some mm => do
    let r ← andStep r (weightStep c mm)
    andStep r (dynamicStep dflt root noise)

/-- `UpdateInternal`, lines 413-442. `MaintainMixture` (lines 516-521) does nothing and returns
`true`. -/
def update (dflt : SV) (root : Nat → K → K) (noise : Nat → Noise R K) (c : UpdateCall R SV MV K)
    (f : MixtureParticleFilter R SV K) : Outcome (Bool × MixtureParticleFilter R SV K) := do
  let r ← sysPart dflt root noise c (true, f)
  measPart dflt root noise c r

/-- System half of `MixtureBootstrapFilter::UpdateInternal`, mixtureBootstrapFilter.cpp:74-77. -/
def bootSys (dflt : SV) (root : Nat → K → K) (noise : Nat → Noise R K) (c : UpdateCall R SV MV K)
    (f : MixtureParticleFilter R SV K) : Outcome (Bool × MixtureParticleFilter R SV K) :=
  match c.sys with
  | none => .ok (true, f)
  | some m => update dflt root noise { c with meas := none } { f with proposal := m.proposal }

/-- Measurement half, mixtureBootstrapFilter.cpp:78-79. -/
def bootMeas (dflt : SV) (root : Nat → K → K) (noise : Nat → Noise R K) (c : UpdateCall R SV MV K)
    (r : Bool × MixtureParticleFilter R SV K) : Outcome (Bool × MixtureParticleFilter R SV K) :=
  match c.meas with
  | none => .ok r
  | some _ => do
    let (b, f) ← update dflt root noise { c with sys := none } r.2
    return (b && r.1, f)

/-- `MixtureBootstrapFilter::UpdateInternal`, mixtureBootstrapFilter.cpp:65-82. -/
def bootUpdate (dflt : SV) (root : Nat → K → K) (noise : Nat → Noise R K)
    (c : UpdateCall R SV MV K) (f : MixtureParticleFilter R SV K) :
    Outcome (Bool × MixtureParticleFilter R SV K) := do
  let r ← bootSys dflt root noise c f
  bootMeas dflt root noise c r

/-- A sequence of updates; the conjunction of the results is returned. `step` is `update` or
`bootUpdate`. -/
def run (step : (Nat → Noise R K) → UpdateCall R SV MV K → MixtureParticleFilter R SV K →
      Outcome (Bool × MixtureParticleFilter R SV K)) :
    List ((Nat → Noise R K) × UpdateCall R SV MV K) → MixtureParticleFilter R SV K →
      Outcome (Bool × MixtureParticleFilter R SV K)
  | [], f => .ok (true, f)
  | (noise, c) :: rest, f => do
    let (b, f1) ← step noise c f
    let (b', f2) ← run step rest f1
    return (b && b', f2)

end MixtureParticleFilter

end BFL
