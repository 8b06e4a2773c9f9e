import Verif.Model.LinearConditional
import Verif.Model.ParticleFilter

/-!
# Linear models given to a particle filter

`LinearAnalyticSystemModelGaussianUncertainty` and `LinearAnalyticMeasurementModelGaussianUncertainty` are
`SystemModel`s and `MeasurementModel`s, so that the same object can be given to a Kalman filter and to a particle
filter. The particle filters use them through the base classes
(`/repo/orocos_bfl/src/model/systemmodel.cpp`, `measurementmodel.cpp`).
-/

namespace BFL

variable {n k : Nat}

namespace LinCond

/-- `ConditionalArgumentSet(i, v)` for the arguments one after the other, as the particle filters and the base classes
of the models do (filter/particlefilter.cpp:176-185, 201-206, model/systemmodel.cpp:153-155, 162-163,
model/measurementmodel.cpp:154-156, 164-165). -/
def setEach (p : LinCond ℝ k) (i : Nat) : List (DVec ℝ) → Outcome (LinCond ℝ k)
  | [] => .ok p
  | v :: vs => do
    let p' ← p.argSet i v
    p'.setEach (i + 1) vs

/-- The pdf as seen through `ConditionalPdf`: density pdf/conditionalgaussian.cpp:47-57, sample
pdf/conditionalgaussian.cpp:70-106. `z` are the normal random numbers of a draw. -/
noncomputable def toCondPdf (be : Backend) (a : Nat) (p : LinCond ℝ k) (z : Fin k → ℝ) :
    CondPdf (Fin a → ℝ) (Fin k → ℝ) ℝ where
  numArgs := p.numArgs
  prob cs y := LinModel.probabilityFrom be (p.setEach 0 (cs.map fun x => ⟨a, x⟩)) y
  draw cs := LinModel.simulateFrom (p.setEach 0 (cs.map fun x => ⟨a, x⟩)) .default 0 z

end LinCond

namespace LinModel

/-- A linear measurement model as `MeasurementModel` (model/measurementmodel.cpp:26-53). Simplification: state and
sensor parameter have the same size. -/
noncomputable def toModel (be : Backend) (a : Nat) (m : LinModel ℝ k) : Model (Fin a → ℝ) (Fin k → ℝ) ℝ :=
  ⟨some (m.pdf.toCondPdf be a 0), some m.without⟩

/-- A linear system model as `SystemModel` (model/systemmodel.cpp:21-49), drawn from with
`SampleFrom(sample, DEFAULT, NULL)` (filter/particlefilter.cpp:186); the random input of a draw is a vector of values of
`rnorm(0,1)`. Simplification: state and input have the same size. -/
noncomputable def toSysModel (be : Backend) (m : LinModel ℝ n) : SysModel (Fin n → ℝ) (Fin n → ℝ) ℝ :=
  ⟨m.toModel be n, fun r cs prev =>
    LinModel.simulateFrom (m.pdf.setEach 0 (cs.map fun x => ⟨n, x⟩)) .default prev r⟩

end LinModel

end BFL
