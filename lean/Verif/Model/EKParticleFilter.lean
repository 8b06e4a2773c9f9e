import Verif.Model.FilterReset
import Verif.Model.Gaussian

/-!
# Model of the EKF proposal density and of the particle filter that uses it

`pdf/filterproposaldensity.cpp`, `pdf/EKF_proposaldensity.cpp` and `filter/EKparticlefilter.cpp`,
under `/repo/orocos_bfl/src`. The state dimension `n` and the measurement dimension `m` are fixed by
types.
-/

namespace BFL

open Matrix

/-- A conditional argument of the proposal density. In the code all are column vectors;
simplification: they carry the role in which they were set, and using one in another role counts as
a size mismatch. -/
inductive CondArg (K : Type) (n m : Nat) (U : Type) where
  | state (x : Fin n → K)
  | input (u : U)
  | meas (z : Fin m → K)

namespace CondArg

variable {K U : Type} {n m : Nat}

/-- The argument used as a state; `none` is a default-constructed vector. -/
def asState : Option (CondArg K n m U) → Outcome (Fin n → K)
  | some (.state x) => .ok x
  | _ => .ub

/-- The argument used as a measurement. -/
def asMeas : Option (CondArg K n m U) → Outcome (Fin m → K)
  | some (.meas z) => .ok z
  | _ => .ub

/-- The argument used as an input or a sensor parameter. A default-constructed vector is passed on as
such. -/
def asInput : Option (CondArg K n m U) → Outcome (Option U)
  | some (.input u) => .ok (some u)
  | none => .ok none
  | _ => .ub

end CondArg

/-- Number of conditional arguments of the pdf of a model. -/
def AnalyticModel.numArgs {K U : Type} {n m : Nat} : AnalyticModel K n m U → Nat
  | .noInput _ _ _ => 1
  | .withInput _ _ _ => 2

/-- `SystemWithoutInputs` and `SystemWithoutSensorParams`. -/
def AnalyticModel.withoutInputs {K U : Type} {n m : Nat} : AnalyticModel K n m U → Bool
  | .noInput _ _ _ => true
  | .withInput _ _ _ => false

/-- Members of `EKFProposalDensity` (filterproposaldensity.h:80-87) and of its base classes.
`scratch` is the number of rows of `ConditionalGaussian::_samples` (conditionalgaussian.h:68).
`tmpPrior` is `_TmpPrior`, the filter is `*_filter`. -/
structure EKProposal (K : Type) (n m : Nat) (U : Type) where
  dim : Nat
  scratch : Nat
  numArgs : Nat
  args : List (Option (CondArg K n m U))
  sys : Option (AnalyticModel K n n U)
  meas : Option (AnalyticModel K n m U)
  sampleCov : Option (Matrix (Fin n) (Fin n) K)
  tmpPrior : Addr
  filter : FilterObj (KF K n)

/-- Pdf objects pointed to. -/
abbrev GaussHeap (K : Type) (n : Nat) := Heap (PdfCell (MeanCov K n))

namespace EKProposal

variable {K : Type} [Field K] [LinearOrder K] {n m : Nat} {U : Type}

/-- `NumConditionalArgumentsSet`, conditionalpdf.h:140-148. -/
def numArgsSet (p : EKProposal K n m U) (k : Nat) : EKProposal K n m U :=
  if k ≠ p.numArgs then
    { p with numArgs := k, args := p.args.take k ++ List.replicate (k - p.args.length) none }
  else p

/-- The number of arguments after both models are known, filterproposaldensity.cpp:40-42, 74-76,
85-87. -/
def countArgs (p : EKProposal K n m U) : EKProposal K n m U :=
  match p.sys, p.meas with
  | some s, some mm => p.numArgsSet (s.numArgs + mm.numArgs)
  | _, _ => p

/-- Constructor, filterproposaldensity.cpp:28-56 and EKF_proposaldensity.cpp:25-30. The base class is
constructed with dimension 0 (conditionalgaussian.h:49), so `_samples` has no rows. The prior of the
filter is created with dimension `n` or without a dimension; its mean and covariance are written
before they are read, and are 0 here. -/
def make (h : GaussHeap K n) (sys : Option (AnalyticModel K n n U))
    (meas : Option (AnalyticModel K n m U)) : GaussHeap K n × EKProposal K n m U :=
  let (h1, a) := h.alloc ⟨(0, 0), true⟩
  let (h2, b) := h1.alloc ⟨(0, 0), true⟩
  (h2, countArgs
    { dim := if sys.isSome then n else 0, scratch := 0, numArgs := 0, args := [], sys := sys,
      meas := meas, sampleCov := none, tmpPrior := a,
      filter := { prior := a, post := b, own := KF.make 0 0 } })

/-- `SystemModelSet`, filterproposaldensity.cpp:63-78; `none` is NULL. `Pdf::DimensionSet`
(pdf/pdf.h:171-176) sets the dimension only: `_samples` is not resized. -/
def systemModelSet (p : EKProposal K n m U) (sys : Option (AnalyticModel K n n U)) :
    Outcome (EKProposal K n m U) := do
  cassert (sys.isSome = true)
  cassert (p.dim = 0 ∨ p.dim = n)
  let cov := if p.dim = 0 then none else p.sampleCov
  return countArgs { p with sampleCov := cov, dim := n, sys := sys }

/-- `MeasurementModelSet`, filterproposaldensity.cpp:81-89. -/
def measurementModelSet (p : EKProposal K n m U) (meas : Option (AnalyticModel K n m U)) :
    Outcome (EKProposal K n m U) := do
  cassert (meas.isSome = true)
  return countArgs { p with meas := meas }

/-- `SampleCovSet`, filterproposaldensity.cpp:91-96. -/
def sampleCovSet (p : EKProposal K n m U) (cov : Matrix (Fin n) (Fin n) K) :
    Outcome (EKProposal K n m U) := do
  cassert (n = p.dim)
  return { p with sampleCov := some cov }

/-- `ConditionalArgumentSet`, conditionalpdf.h:172-179. -/
def argSet (p : EKProposal K n m U) (i : Nat) (v : Option (CondArg K n m U)) :
    Outcome (EKProposal K n m U) := do
  cassert (i < p.numArgs)
  let args ← vset p.args i v
  return { p with args := args }

/-- `ConditionalArgumentGet`, conditionalpdf.h:164-170. -/
def argGet (p : EKProposal K n m U) (i : Nat) : Outcome (Option (CondArg K n m U)) := do
  cassert (i < p.numArgs)
  vget p.args i

/-- The conditional arguments as `EKParticleFilter` sets them for one particle,
EKparticlefilter.cpp:135-155 (`_proposal_depends_on_meas` is true): state, input, measurement, sensor
parameter, where the input and the sensor parameter are left out for models without. -/
def setArgs (sys : AnalyticModel K n n U) (meas : AnalyticModel K n m U) (x : Fin n → K)
    (u : Option U) (z : Fin m → K) (s : Option U) (p : EKProposal K n m U) :
    Outcome (EKProposal K n m U) := do
  let p ← p.argSet 0 (some (.state x))
  if sys.withoutInputs then do
    let p ← p.argSet 1 (some (.meas z))
    if meas.withoutInputs then .ok p else p.argSet 2 (s.map .input)
  else do
    let p ← p.argSet 1 (u.map .input)
    let p ← p.argSet 2 (some (.meas z))
    if meas.withoutInputs then .ok p else p.argSet 3 (s.map .input)

/-- Measurement and sensor parameter at argument `i` and `i + 1`. -/
def measArgs (p : EKProposal K n m U) (mm : AnalyticModel K n m U) (i : Nat) :
    Outcome (AnalyticModel K n m U × (Fin m → K) × Option U) := do
  let v ← p.argGet i
  let z ← CondArg.asMeas v
  if mm.withoutInputs then return (mm, z, none)
  else do
    let w ← p.argGet (i + 1)
    let s ← CondArg.asInput w
    return (mm, z, s)

/-- Input of the system model at argument 1. -/
def sysArgs (p : EKProposal K n m U) (s : AnalyticModel K n n U) :
    Outcome (AnalyticModel K n n U × Option U) :=
  if s.withoutInputs then .ok (s, none)
  else do
    let v ← p.argGet 1
    let u ← CondArg.asInput v
    return (s, u)

/-- The call of `Update` in `FilterStep`, filterproposaldensity.cpp:119-145. Without both models line
122 dereferences NULL. -/
def callOf (p : EKProposal K n m U) : Outcome (KF.Call K n m U) :=
  match p.sys, p.meas with
  | none, none => .ub
  | none, some mm => do
    let c ← p.measArgs mm 1
    return ⟨none, some c⟩
  | some s, none => do
    let c ← p.sysArgs s
    return ⟨some c, none⟩
  | some s, some mm => do
    let c ← p.sysArgs s
    let d ← p.measArgs mm (if s.withoutInputs then 1 else 2)
    return ⟨some c, some d⟩

/-- `FilterStep`, filterproposaldensity.cpp:112-146: the mean and the covariance of `*_TmpPrior` are
set, `Reset` makes `*_TmpPrior` the posterior of the filter, and the filter is updated. -/
def filterStep (be : Backend) (h : GaussHeap K n) (p : EKProposal K n m U) :
    Outcome (GaussHeap K n × EKProposal K n m U) := do
  let v ← p.argGet 0
  let x ← CondArg.asState v
  let s ← readMember p.sampleCov
  let cell ← h.read p.tmpPrior
  let h ← h.write p.tmpPrior { cell with val := (x, s) }
  let c ← p.callOf
  let (_, h, o) ← (kalmanClass be .extended).update h (p.filter.reset p.tmpPrior) c
  return (h, { p with filter := o })

/-- `ExpectedValueGet`, filterproposaldensity.cpp:98-103. -/
def expectedValueGet (be : Backend) (h : GaussHeap K n) (p : EKProposal K n m U) :
    Outcome ((Fin n → K) × GaussHeap K n × EKProposal K n m U) := do
  let (h, p) ← p.filterStep be h
  let g ← FilterClass.postGet h p.filter
  return (g.1, h, p)

/-- `CovarianceGet`, filterproposaldensity.cpp:105-110. -/
def covarianceGet (be : Backend) (h : GaussHeap K n) (p : EKProposal K n m U) :
    Outcome (Matrix (Fin n) (Fin n) K × GaussHeap K n × EKProposal K n m U) := do
  let (h, p) ← p.filterStep be h
  let g ← FilterClass.postGet h p.filter
  return (g.2, h, p)

/-- `ConditionalGaussian::SampleFrom`, conditionalgaussian.cpp:65-112, with method DEFAULT. The loop of
line 82 writes `_samples(1)` to `_samples(dim)`; writing outside the vector is undefined. `z` are the
values of `rnorm(0,1)`. -/
def sampleFrom (be : Backend) (sqrt : K → K) (eps : K) (h : GaussHeap K n) (p : EKProposal K n m U)
    (z : Fin n → K) : Outcome ((Bool × (Fin n → K)) × GaussHeap K n × EKProposal K n m U) := do
  let (mu, h, p) ← p.expectedValueGet be h
  let (cov, h, p) ← p.covarianceGet be h
  let r := cholesky sqrt eps cov
  if p.dim ≤ p.scratch then return ((r.1, r.2 *ᵥ z + mu), h, p)
  else .ub

/-- `ConditionalGaussian::ProbabilityGet`, conditionalgaussian.cpp:47-57: the filter step is done three
times. -/
noncomputable def probabilityGet (be : Backend) (h : GaussHeap ℝ n) (p : EKProposal ℝ n m U)
    (input : Fin n → ℝ) : Outcome (ℝ × GaussHeap ℝ n × EKProposal ℝ n m U) := do
  let (mu, h, p) ← p.expectedValueGet be h
  let diff := input - mu
  let (c1, h, p) ← p.covarianceGet be h
  let i ← be.symInverse c1
  let temp ← mkProb (diff ⬝ᵥ (i *ᵥ diff))
  let (c2, h, p) ← p.covarianceGet be h
  let d ← be.determinant c2
  let r ← Gaussian.densityOf temp (Gaussian.normaliser n d)
  return (r, h, p)

/-- Destructors, EKF_proposaldensity.cpp:32-35 and filterproposaldensity.cpp:58: the filter is
deleted, `_TmpPrior` is not. -/
def destroy (h : GaussHeap K n) (p : EKProposal K n m U) : Outcome (GaussHeap K n) :=
  p.filter.destroy h

/-- A call on the proposal density. -/
inductive Op (K : Type) (n m : Nat) (U : Type) where
  | setSys (s : Option (AnalyticModel K n n U))
  | setMeas (mm : Option (AnalyticModel K n m U))
  | setCov (c : Matrix (Fin n) (Fin n) K)
  | setNumArgs (k : Nat)
  | setArg (i : Nat) (v : CondArg K n m U)
  | mean
  | cov

/-- Effect of one call; the answers of queries are not kept. -/
def step (be : Backend) (h : GaussHeap K n) (p : EKProposal K n m U) :
    Op K n m U → Outcome (GaussHeap K n × EKProposal K n m U)
  | .setSys s => do let p ← p.systemModelSet s; return (h, p)
  | .setMeas mm => do let p ← p.measurementModelSet mm; return (h, p)
  | .setCov c => do let p ← p.sampleCovSet c; return (h, p)
  | .setNumArgs k => .ok (h, p.numArgsSet k)
  | .setArg i v => do let p ← p.argSet i (some v); return (h, p)
  | .mean => do let (_, h, p) ← p.expectedValueGet be h; return (h, p)
  | .cov => do let (_, h, p) ← p.covarianceGet be h; return (h, p)

/-- Effect of a history of calls. -/
def run (be : Backend) : List (Op K n m U) → GaussHeap K n × EKProposal K n m U →
    Outcome (GaussHeap K n × EKProposal K n m U)
  | [], r => .ok r
  | op :: ops, r => do
    let r ← r.2.step be r.1 op
    run be ops r

end EKProposal

/-- Members of `EKParticleFilter` (EKparticlefilter.h:38-57) and of its base class. `cloud` holds the
members of `ParticleFilter`; `cloud.old` is `ParticleFilter::_old_samples`, `ownOld` is
`EKParticleFilter::_old_samples`, another member with the same name. `_result_samples` and `_tmpCov`
are written before they are read. -/
structure EKFilter (n m : Nat) (U : Type) where
  cloud : Cloud ℝ (Fin n → ℝ)
  ownOld : List (WSample ℝ (Fin n → ℝ))
  covs : List (Matrix (Fin n) (Fin n) ℝ)
  timestep : Nat
  dynamic : Bool
  period : Nat
  threshold : ℝ
  proposal : EKProposal ℝ n m U

/-- Arguments of an `Update` call of an EK particle filter. -/
structure EKCall (n m : Nat) (U : Type) where
  sys : Option (AnalyticModel ℝ n n U)
  u : Option U
  meas : Option (AnalyticModel ℝ n m U)
  z : Fin m → ℝ
  s : Option U

/-- Random numbers of one update of an EK particle filter. -/
structure EKNoise (n : Nat) where
  prop : Nat → Fin n → ℝ
  static : Nat → ℝ
  dynamic : Nat → ℝ

/-- Density of the pdf of an analytic model, `ConditionalGaussian::ProbabilityGet` with the mean and
the covariance of the model; reached from `SystemModel::ProbabilityGet` and
`MeasurementModel::ProbabilityGet` (model/systemmodel.cpp, model/measurementmodel.cpp). -/
noncomputable def AnalyticModel.density {n m : Nat} {U : Type} (be : Backend)
    (mo : AnalyticModel ℝ n m U) (u : Option U) (x : Fin n → ℝ) (y : Fin m → ℝ) : Outcome ℝ := do
  let mean ← mo.predictionGet u x
  let cov ← mo.covGet u x
  ConditionalGaussian.probabilityGet be mean cov y

namespace EKFilter

variable {n m : Nat} {U : Type}

/-- Constructor, EKparticlefilter.cpp:26-48. -/
noncomputable def make (h : GaussHeap ℝ n) (prior : MCPdf ℝ (Fin n → ℝ)) (period : Nat)
    (threshold : ℝ) : Outcome (GaussHeap ℝ n × EKFilter n m U) := do
  let base ← ParticleFilter.make (R := Unit) 0 prior none period threshold .multinomial
  let cov ← prior.covGet
  let (h, p) := EKProposal.make h none none
  return (h, { cloud := base.cloud,
               ownOld := List.replicate prior.numSamples ⟨0, none⟩,
               covs := List.replicate prior.numSamples cov, timestep := 0, dynamic := base.dynamic,
               period := period, threshold := threshold, proposal := p })

/-- `Resample`, EKparticlefilter.cpp:75-114. -/
noncomputable def resample (root : Nat → ℝ → ℝ) (us : Nat → ℝ) (f : EKFilter n m U) :
    Outcome (EKFilter n m U) := do
  let (_, post, covs) ← ekResample root us f.cloud.post f.covs
  return { f with cloud := { f.cloud with post := post }, ownOld := f.cloud.post.listGet,
                  covs := covs }

/-- `StaticResampleStep`, particlefilter.cpp:307-314, with the virtual `Resample`. -/
noncomputable def staticStep (root : Nat → ℝ → ℝ) (us : Nat → ℝ) (f : EKFilter n m U) :
    Outcome (EKFilter n m U) :=
  if f.dynamic = false ∧ f.timestep % f.period = 0 ∧ f.timestep ≠ 0 then f.resample root us
  else .ok f

/-- `DynamicResampleStep`, particlefilter.cpp:271-304, with the virtual `Resample`. -/
noncomputable def dynamicStep (root : Nat → ℝ → ℝ) (us : Nat → ℝ) (f : EKFilter n m U) :
    Outcome (EKFilter n m U) :=
  if f.dynamic = true then do
    let sumSq ← f.cloud.sumSquares
    let f := { f with cloud := { f.cloud with new := f.cloud.post.listGet } }
    if Cloud.tooFew f.threshold sumSq then f.resample root us else .ok f
  else .ok f

/-- The loop EKparticlefilter.cpp:128-167 over `EKParticleFilter::_old_samples`; `news` and `covs` are
what is left of `_new_samples` and `_sampleCov`. -/
noncomputable def proposeLoop (be : Backend) (c : EKCall n m U) (sys : AnalyticModel ℝ n n U)
    (meas : AnalyticModel ℝ n m U) (rs : Nat → Fin n → ℝ) :
    Nat → List (WSample ℝ (Fin n → ℝ)) → List (WSample ℝ (Fin n → ℝ)) →
    List (Matrix (Fin n) (Fin n) ℝ) → GaussHeap ℝ n → EKProposal ℝ n m U →
    Outcome ((List (WSample ℝ (Fin n → ℝ)) × List (Matrix (Fin n) (Fin n) ℝ)) ×
      GaussHeap ℝ n × EKProposal ℝ n m U)
  | _, [], news, covs, h, p => .ok ((news, covs), h, p)
  | i, o :: os, news, covs, h, p =>
    match news, covs with
    | nw :: news, cov :: covs => do
      let p ← p.sampleCovSet cov
      let p ← p.setArgs sys meas o.value c.u c.z c.s
      let ((_, y), h, p) ← p.sampleFrom be Real.sqrt machEps h (rs i)
      let w ← o.weightGet
      let n' ← WSample.weightSet { nw with value := y } w
      let (cov', h, p) ← p.covarianceGet be h
      let ((news, covs), h, p) ← proposeLoop be c sys meas rs (i + 1) os news covs h p
      return ((n' :: news, cov' :: covs), h, p)
    | _, _ => .ub

/-- `ProposalStepInternal`, EKparticlefilter.cpp:116-173. -/
noncomputable def proposalStep (be : Backend) (c : EKCall n m U) (sys : AnalyticModel ℝ n n U)
    (meas : AnalyticModel ℝ n m U) (rs : Nat → Fin n → ℝ) (h : GaussHeap ℝ n) (f : EKFilter n m U) :
    Outcome (Bool × GaussHeap ℝ n × EKFilter n m U) := do
  let ((news, covs), h, p) ←
    proposeLoop be c sys meas rs 0 f.cloud.post.listGet f.cloud.new f.covs h f.proposal
  let (b, post) ← f.cloud.post.listUpdateW news
  return (b, h, { f with cloud := { f.cloud with post := post, new := news },
                         ownOld := f.cloud.post.listGet, covs := covs, proposal := p,
                         timestep := f.timestep + 1 })

/-- The input as conditional argument, set for systems with inputs only, particlefilter.cpp:232-234. -/
def inputSet (sys : AnalyticModel ℝ n n U) (u : Option U) (p : EKProposal ℝ n m U) :
    Outcome (EKProposal ℝ n m U) :=
  if sys.withoutInputs then .ok p else p.argSet 1 (u.map .input)

/-- `weightfactor` of one particle with new value `y` and old value `x`, particlefilter.cpp:228-260. The
measurement stays as set by the proposal step, since `STATE_AND_MEAS_VAR_DIFFERENT` is defined
(particlefilter.cpp:26). -/
noncomputable def factor (be : Backend) (c : EKCall n m U) (sys : AnalyticModel ℝ n n U)
    (meas : AnalyticModel ℝ n m U) (x y : Fin n → ℝ) (h : GaussHeap ℝ n) (p : EKProposal ℝ n m U) :
    Outcome (ℝ × GaussHeap ℝ n × EKProposal ℝ n m U) := do
  let p ← p.argSet 0 (some (.state x))
  if meas.withoutInputs then do
    let l ← meas.density be none y c.z
    let p ← inputSet sys c.u p
    let (d, h, p) ← p.probabilityGet be h y
    if d ≠ 0 then do
      let t ← sys.density be c.u x y
      let (d, h, p) ← p.probabilityGet be h y
      let r ← divProb t d
      let g ← mkProb (l * r)
      return (g, h, p)
    else return (0, h, p)
  else do
    let l ← meas.density be c.s y c.z
    return (l, h, p)

/-- The loop particlefilter.cpp:214-265 over the list of the posterior; `olds` is what is left of
`ParticleFilter::_old_samples`. -/
noncomputable def weightLoop (be : Backend) (c : EKCall n m U) (sys : AnalyticModel ℝ n n U)
    (meas : AnalyticModel ℝ n m U) :
    List (WSample ℝ (Fin n → ℝ)) → List (WSample ℝ (Fin n → ℝ)) → GaussHeap ℝ n →
    EKProposal ℝ n m U →
    Outcome (List (WSample ℝ (Fin n → ℝ)) × GaussHeap ℝ n × EKProposal ℝ n m U)
  | _, [], h, p => .ok ([], h, p)
  | olds, nw :: ns, h, p =>
    match olds with
    | [] => .ub
    | o :: os => do
      let (g, h, p) ← factor be c sys meas o.value nw.value h p
      let w ← nw.weightGet
      let n' ← nw.weightSet (w * g)
      let (rest, h, p) ← weightLoop be c sys meas os ns h p
      return (n' :: rest, h, p)

/-- `UpdateWeightsInternal`, particlefilter.cpp:200-269, not overridden: it reads
`ParticleFilter::_old_samples`. -/
noncomputable def weightStep (be : Backend) (c : EKCall n m U) (sys : AnalyticModel ℝ n n U)
    (meas : AnalyticModel ℝ n m U) (h : GaussHeap ℝ n) (f : EKFilter n m U) :
    Outcome (Bool × GaussHeap ℝ n × EKFilter n m U) := do
  let (news, h, p) ← weightLoop be c sys meas f.cloud.old f.cloud.post.listGet h f.proposal
  let (b, post) ← f.cloud.post.listUpdateW news
  return (b, h, { f with cloud := { f.cloud with post := post, new := news }, proposal := p })

/-- A model pointer that is dereferenced. -/
def deref {α : Type} : Option α → Outcome α
  | some a => .ok a
  | none => .ub

/-- `UpdateInternal`, EKparticlefilter.cpp:56-73. -/
noncomputable def update (be : Backend) (root : Nat → ℝ → ℝ) (noise : EKNoise n) (c : EKCall n m U)
    (h : GaussHeap ℝ n) (f : EKFilter n m U) : Outcome (Bool × GaussHeap ℝ n × EKFilter n m U) := do
  let p ← f.proposal.systemModelSet c.sys
  let p ← p.measurementModelSet c.meas
  let f ← staticStep root noise.static { f with proposal := p }
  let sys ← deref c.sys
  let meas ← deref c.meas
  let (b1, h, f) ← f.proposalStep be c sys meas noise.prop h
  let (b2, h, f) ← f.weightStep be c sys meas h
  let f ← f.dynamicStep root noise.dynamic
  return (b1 && b2, h, f)

/-- A sequence of updates; the conjunction of the results is returned. -/
noncomputable def run (be : Backend) (root : Nat → ℝ → ℝ) :
    List (EKNoise n × EKCall n m U) → GaussHeap ℝ n → EKFilter n m U →
      Outcome (Bool × GaussHeap ℝ n × EKFilter n m U)
  | [], h, f => .ok (true, h, f)
  | (noise, c) :: rest, h, f => do
    let (b, h, f) ← update be root noise c h f
    let (b', h, f) ← run be root rest h f
    return (b && b', h, f)

end EKFilter

end BFL
