import Verif.Model.LinearConditional
import Verif.Model.Ginac
import Mathlib.LinearAlgebra.Matrix.Notation

/-!
# Model of the densities and of the simulated robot of the examples

Under `/repo/orocos_bfl/examples`: `nonlinear_particle/nonlinearMeasurementPdf.cpp`,
`nonlinear_particle/nonlinearSystemPdf.cpp`, `discrete_filter/conditionalUniformMeasPdf1d.cpp` and
`mobile_robot.cpp`. They are the documented way to write an own density. The constants of
`mobile_robot_wall_cts.h` are parameters.
-/

namespace BFL

open Matrix

/-- `v(i+1)` of a vector that carries its size; an index outside is undefined. -/
def DVec.elem {K : Type} (v : DVec K) (i : Nat) : Outcome K :=
  if h : i < v.1 then .ok (v.2 ⟨i, h⟩) else .ub

/-- `a - b` for a vector `a` of size `n`; different sizes are undefined. -/
def DVec.subFrom {K : Type} [Sub K] {n : Nat} (a : Fin n → K) (b : DVec K) : Outcome (Fin n → K) :=
  if h : b.1 = n then .ok (fun i => a i - b.2 (Fin.cast h.symm i)) else .ub

namespace ExamplePdfs

/-- `NonlinearMeasurementPdf::ProbabilityGet`, nonlinearMeasurementPdf.cpp:38-47, for the conditional
argument `state`. Returns the probability and the noise with its changed mutable members. -/
noncomputable def measurementProb (be : Backend) (noise : Gaussian 1) (state z : DVec ℝ) :
    Outcome (ℝ × Gaussian 1) := do
  let y ← state.elem 1
  let d ← DVec.subFrom ![2 * y] z
  noise.probabilityGet be d

/-- `ConditionalUniformMeasPdf1d::ProbabilityGet`, conditionalUniformMeasPdf1d.cpp:38-51: the state is an
`int`. Simplification: `2 * state` does not overflow. -/
noncomputable def discreteMeasurementProb (be : Backend) (noise : Gaussian 1) (state : Int) (z : DVec ℝ) :
    Outcome (ℝ × Gaussian 1) := do
  let d ← DVec.subFrom ![2 * (state : ℝ)] z
  noise.probabilityGet be d

/-- `NonlinearSystemPdf::SampleFrom`, nonlinearSystemPdf.cpp:39-57. `z` are the values of `rnorm(0,1)`. The
local `noise` is a vector of size 0 before the call that samples it: for the methods for which
`Gaussian::SampleFrom` leaves it alone (gaussian.cpp:169-173) the sum on line 54 adds vectors of different
sizes. The flag of that call is ignored. Simplification: state and velocity have sizes 3 and 2. -/
noncomputable def systemSample (noise : Gaussian 3) (method : SampleMthd) (state : Fin 3 → ℝ)
    (vel : Fin 2 → ℝ) (z : Fin 3 → ℝ) : Outcome (Bool × (Fin 3 → ℝ)) :=
  let s1 := Function.update state 0 (state 0 + Real.cos (state 2) * vel 0)
  let s2 := Function.update s1 1 (s1 1 + Real.sin (s1 2) * vel 0)
  let s3 := Function.update s2 2 (s2 2 + vel 1)
  match method with
  | .default | .cholesky => do
    let (_, e) ← noise.sampleOne method 0 z
    return (true, s3 + e)
  | .boxmuller | .ripley => .ub

/-- The matrix `H` of the robot, mobile_robot.cpp:64-69 (the same in the test programs), for the slope
`rico` of the wall. -/
noncomputable def wallMatrix (rico : ℝ) : Matrix (Fin 1) (Fin 3) ℝ :=
  let wallCt := 2 / Real.sqrt (rico ^ 2 + 1)
  !![wallCt * rico, 0 - wallCt, 0]

/-- A `MobileRobot`, mobile_robot.h:49-66: its models and its state. -/
structure Robot where
  rico : ℝ
  sys : Mobile
  measMu : Fin 1 → ℝ
  measSigma : Matrix (Fin 1) (Fin 1) ℝ
  state : Fin 3 → ℝ

namespace Robot

/-- `Move`, mobile_robot.cpp:87-91: `SystemModel::Simulate` (model/systemmodel.cpp) with the default
method samples the density of the system model. -/
noncomputable def move (r : Robot) (u : Fin 2 → ℝ) (z : Fin 3 → ℝ) : Robot :=
  { r with
    state := (ConditionalGaussian.sampleOne (r.sys.expectedValue u r.state) r.sys.sigma .default 0 z).2 }

/-- `Measure`, mobile_robot.cpp:94-98: `MeasurementModel::Simulate` with the linear density made on lines
72-73. -/
noncomputable def measure (r : Robot) (z : Fin 1 → ℝ) : Outcome (Fin 1 → ℝ) :=
  LinModel.simulateFrom
    (do
      let p ← LinCond.make [⟨1, 3, wallMatrix r.rico⟩] r.measMu r.measSigma
      p.argSet 0 ⟨3, r.state⟩)
    .default 0 z

end Robot

end ExamplePdfs

end BFL
