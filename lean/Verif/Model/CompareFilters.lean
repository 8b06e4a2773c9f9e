import Verif.Model.EKParticleFilter
import Verif.Model.ExamplePdfs
import Verif.Model.LinearParticle

/-!
# Model of the example programs for the nonlinear Kalman filter and for the comparison of filters

`/repo/orocos_bfl/examples/compare_filters/test_compare_filters.cpp` (line numbers without a file name) and
`/repo/orocos_bfl/examples/nonlinear_kalman/test_nonlinear_kalman.cpp`.
-/

namespace BFL

namespace CompareFilters

open ExamplePdfs Matrix

/-- `filter_name`, lines 78-82. -/
inductive Choice where
  | kalman
  | ieKalman
  | bootstrap
  | ekParticle
  | asir
  deriving DecidableEq, Repr

/-- The arguments of the command line without the name of the program, lines 93-120; `none` means that the
program prints the possible arguments and ends. -/
def parse : List String → Option Choice
  | ["kalman_filter"] => some .kalman
  | ["IE_kalman_filter"] => some .ieKalman
  | ["bootstrap_filter"] => some .bootstrap
  | ["EK_particle_filter"] => some .ekParticle
  | ["ASIR_filter"] => some .asir
  | _ => none

/-- The constants of `mobile_robot_wall_cts.h` that the programs use for their models and priors. -/
structure Settings where
  rico : ℝ
  sysMu : Fin 3 → ℝ
  sysX : ℝ
  sysY : ℝ
  sysTheta : ℝ
  measMu : Fin 1 → ℝ
  measVar : ℝ
  priorMu : Fin 3 → ℝ
  priorX : ℝ
  priorY : ℝ
  priorTheta : ℝ
  iterations : Nat
  threshold : ℝ

/-- What is written to the files in one step, lines 269-291. -/
structure Record where
  time : Nat
  meas : Fin 1 → ℝ
  state : Fin 3 → ℝ
  mean : Fin 3 → ℝ
  cov : Matrix (Fin 3) (Fin 3) ℝ

/-- The values of `rnorm(0,1)` that the robot uses in one step: for the reading written to the file, for the move
and for the reading after it. -/
structure Draws where
  recorded : Fin 1 → ℝ
  move : Fin 3 → ℝ
  reading : Fin 1 → ℝ

/-- What the loop uses of `Filter`: `PostGet` with `ExpectedValueGet` and `CovarianceGet`,
`Update(sysmodel, u)` and `Update(sysmodel, u, measmodel, z)`. The random numbers of the filter itself belong to
the step with the given number. -/
structure Method (F : Type) where
  report : F → Outcome ((Fin 3 → ℝ) × Matrix (Fin 3) (Fin 3) ℝ)
  predict : Nat → F → Outcome F
  correct : Nat → (Fin 1 → ℝ) → F → Outcome F

/-- Lines 302-306; `use` is `USE_MEASUREMENTS`. -/
def Method.step {F : Type} (M : Method F) (use : Bool) (k : Nat) (z : Fin 1 → ℝ) (f : F) : Outcome F :=
  if use then M.correct k z f else M.predict k f

/-- The estimation loop, lines 267-307. -/
noncomputable def loop {F : Type} (M : Method F) (use : Bool) (u : Fin 2 → ℝ) :
    Nat → List Draws → Robot → F → Outcome (List Record × F)
  | _, [], _, f => .ok ([], f)
  | k, d :: ds, robot, f => do
    let w ← robot.measure d.recorded
    let r ← M.report f
    let z ← (robot.move u d.move).measure d.reading
    let f' ← M.step use k z f
    let rest ← loop M use u (k + 1) ds (robot.move u d.move) f'
    return (⟨k, w, robot.state, r.1, r.2⟩ :: rest.1, rest.2)

/-- What a run of the program leaves: the files, and the last report with the number of steps printed before it. -/
structure Result where
  records : List Record
  printed : Nat
  mean : Fin 3 → ℝ
  cov : Matrix (Fin 3) (Fin 3) ℝ

/-- How a run ends. -/
inductive Ending where
  | usage
  | notRecognised
  | done (r : Result)

/-- Lines 262-316, after the filter is made. -/
noncomputable def estimate {F : Type} (M : Method F) (use : Bool) (u : Fin 2 → ℝ) (ds : List Draws) (robot : Robot)
    (f : F) : Outcome Ending := do
  let (records, g) ← loop M use u 0 ds robot f
  let r ← M.report g
  return .done ⟨records, ds.length + 1, r.1, r.2⟩

namespace Settings

variable (c : Settings)

/-- `sys_noise_Cov`, lines 150-160. -/
def q : Matrix (Fin 3) (Fin 3) ℝ := !![c.sysX, 0, 0; 0, c.sysY, 0; 0, 0, c.sysTheta]

/-- `sys_pdf`, line 163. -/
def mobile : Mobile := ⟨c.sysMu, c.q⟩

/-- `H`, lines 171-175. -/
noncomputable def h : Matrix (Fin 1) (Fin 3) ℝ :=
  let wallCt := 2 / Real.sqrt (c.rico ^ 2 + 1)
  !![wallCt * c.rico, 0 - wallCt, 0]

/-- `MeasNoise_Cov`, lines 180-182. -/
def r : Matrix (Fin 1) (Fin 1) ℝ := !![c.measVar]

/-- `meas_model`, lines 184-186, as a Kalman filter sees it: the answers of a linear model (C44). -/
noncomputable def measModel : AnalyticModel ℝ 3 1 (Fin 2 → ℝ) :=
  .noInput (fun x => c.h *ᵥ x + c.measMu) (fun _ => c.h) (fun _ => c.r)

/-- `prior_sigma`, lines 194, 198-201. -/
def priorSigma : Matrix (Fin 3) (Fin 3) ℝ := !![c.priorX, 0, 0; 0, c.priorY, 0; 0, 0, c.priorTheta]

/-- The Kalman filters, lines 235-242. -/
noncomputable def kalman (be : Backend) (kind : KF.Kind ℝ 3) (u : Fin 2 → ℝ) : Method (KF ℝ 3) where
  report f := .ok (f.mu, f.sigma)
  predict _ f := Prod.snd <$> f.update (m := 1) be kind (some (c.mobile.model, some u)) none
  correct _ z f := Prod.snd <$> f.update be kind (some (c.mobile.model, some u)) (some (c.measModel, z, none))

/-- `prior_discr`, lines 204-207; `zs` are the values of `rnorm(0,1)` for each sample. -/
noncomputable def priorDiscrete (zs : List (Fin 3 → ℝ)) : Outcome (MCPdf ℝ (Fin 3 → ℝ)) := do
  let (_, xs) ← (Gaussian.make c.priorMu c.priorSigma).sampleList .cholesky (List.replicate zs.length 0) zs
  let (_, p) ← (MCPdf.make zs.length 0).listSetU 0 xs
  return p

/-- `sys_model` as a particle filter sees it: the density and the samples of the mean and covariance of `sys_pdf`
(pdf/conditionalgaussian.cpp:47-112). Simplification: the input has the size of the state; its third entry is not
used. -/
noncomputable def sysParticle (be : Backend) : SysModel (Fin 3 → ℝ) (Fin 3 → ℝ) ℝ where
  model := ⟨some
    { numArgs := 2
      prob := fun cs y => match cs with
        | [x, u] => ConditionalGaussian.probabilityGet be (c.mobile.expectedValue ![u 0, u 1] x) c.q y
        | _ => .ub
      draw := fun cs => match cs with
        | [x, u] => .ok (ConditionalGaussian.sampleOne (c.mobile.expectedValue ![u 0, u 1] x) c.q .default 0 0).2
        | _ => .ub }, some false⟩
  draw z cs old := match cs with
    | [x, u] => .ok (ConditionalGaussian.sampleOne (c.mobile.expectedValue ![u 0, u 1] x) c.q .default old z).2
    | _ => .ub

/-- `meas_model` as a particle filter sees it. -/
noncomputable def measParticle (be : Backend) : Outcome (Model (Fin 3 → ℝ) (Fin 1 → ℝ) ℝ) := do
  let p ← LinCond.make [⟨1, 3, c.h⟩] c.measMu c.r
  let m ← LinModel.make p
  return m.toModel be 3

/-- The mean and covariance of particles, `MCPdf::ExpectedValueGet` and `CovarianceGet`. -/
noncomputable def particleReport (p : MCPdf ℝ (Fin 3 → ℝ)) :
    Outcome ((Fin 3 → ℝ) × Matrix (Fin 3) (Fin 3) ℝ) := do
  let m ← p.meanGet
  let s ← p.covGet
  return (m, s)

/-- The bootstrap filter, lines 243-246; `noise k` are its random numbers in step `k`. -/
noncomputable def bootstrap (be : Backend) (root : Nat → ℝ → ℝ) (noise : Nat → Noise (Fin 3 → ℝ) ℝ)
    (mm : Model (Fin 3 → ℝ) (Fin 1 → ℝ) ℝ) (u : Fin 2 → ℝ) :
    Method (ParticleFilter (Fin 3 → ℝ) (Fin 3 → ℝ) ℝ) where
  report f := particleReport f.postGet
  predict k f := Prod.snd <$> ParticleFilter.bootUpdate (MV := Fin 1 → ℝ) 0 root (noise k)
    ⟨some (c.sysParticle be), ![u 0, u 1, 0], none, 0, 0⟩ f
  correct k z f := Prod.snd <$> ParticleFilter.bootUpdate 0 root (noise k)
    ⟨some (c.sysParticle be), ![u 0, u 1, 0], some mm, z, 0⟩ f

/-- The EK particle filter, lines 247-250, together with the objects its proposal density points to. -/
noncomputable def ekParticle (be : Backend) (root : Nat → ℝ → ℝ) (noise : Nat → EKNoise 3) (u : Fin 2 → ℝ) :
    Method (GaussHeap ℝ 3 × EKFilter 3 1 (Fin 2 → ℝ)) where
  report f := particleReport f.2.cloud.post
  predict k f := Prod.snd <$> f.2.update be root (noise k) ⟨some c.mobile.model, some u, none, 0, none⟩ f.1
  correct k z f :=
    Prod.snd <$> f.2.update be root (noise k) ⟨some c.mobile.model, some u, some c.measModel, z, none⟩ f.1

/-- The random numbers used by the filters themselves. -/
structure FilterDraws where
  prior : List (Fin 3 → ℝ)
  boot : Nat → Noise (Fin 3 → ℝ) ℝ
  ek : Nat → EKNoise 3

/-- The program, lines 84-342. The samples of the prior are drawn also for the Kalman filters. With the choice ASIR
the `switch` of lines 234-258 takes the default branch, since its case is commented out. -/
noncomputable def program (be : Backend) (root : Nat → ℝ → ℝ) (use : Bool) (robot : Robot) (u : Fin 2 → ℝ)
    (own : FilterDraws) (ds : List Draws) (args : List String) : Outcome Ending :=
  match parse args with
  | none => .ok .usage
  | some choice => do
    let mm ← c.measParticle be
    let prior ← c.priorDiscrete own.prior
    match choice with
    | .kalman => estimate (c.kalman be .extended u) use u ds robot (KF.make c.priorMu c.priorSigma)
    | .ieKalman =>
      estimate (c.kalman be (.iterated c.iterations none) u) use u ds robot (KF.make c.priorMu c.priorSigma)
    | .bootstrap => do
      let f ← ParticleFilter.make 0 prior none 0 c.threshold .multinomial
      estimate (c.bootstrap be root own.boot mm u) use u ds robot f
    | .ekParticle => do
      let f ← EKFilter.make Heap.empty prior 0 c.threshold
      estimate (c.ekParticle be root own.ek u) use u ds robot f
    | .asir => .ok .notRecognised

/-- The program for the nonlinear Kalman filter, test_nonlinear_kalman.cpp:72-200: the same models and prior, always
with measurements, and no files. The posterior and the number of steps printed before it. -/
noncomputable def nonlinearKalman (be : Backend) (u : Fin 2 → ℝ) :
    List ((Fin 3 → ℝ) × (Fin 1 → ℝ)) → Nat → Robot → KF ℝ 3 → Outcome (KF ℝ 3 × Nat)
  | [], k, _, f => .ok (f, k + 1)
  | d :: ds, k, robot, f => do
    let z ← (robot.move u d.1).measure d.2
    let (_, f') ← f.update be .extended (some (c.mobile.model, some u)) (some (c.measModel, z, none))
    nonlinearKalman be u ds (k + 1) (robot.move u d.1) f'

end Settings

end CompareFilters

end BFL
