import Verif.Model.Kalman
import Verif.Model.ExamplePdfs

/-!
# Model of the example program for the Kalman filter

`/repo/orocos_bfl/examples/linear_kalman/test_linear_kalman.cpp`.
-/

namespace BFL

namespace LinearProgram

open ExamplePdfs Matrix

/-- The constants of the program and of `mobile_robot_wall_cts.h`. `heading` is the angle on lines 90 and 92. -/
structure Constants where
  heading : ℝ
  rico : ℝ
  sysMu : Fin 2 → ℝ
  sysX : ℝ
  sysY : ℝ
  measMu : Fin 1 → ℝ
  measVar : ℝ
  priorMu : Fin 2 → ℝ
  priorX : ℝ
  priorY : ℝ

namespace Constants

variable (c : Constants)

/-- `A`, lines 84-88. -/
def a : Matrix (Fin 2) (Fin 2) ℝ := !![1, 0; 0, 1]

/-- `B`, lines 89-93. -/
noncomputable def b : Matrix (Fin 2) (Fin 2) ℝ := !![Real.cos c.heading, 0; Real.sin c.heading, 0]

/-- `sysNoise_Cov`, lines 105-110. -/
def q : Matrix (Fin 2) (Fin 2) ℝ := !![c.sysX, 0; 0, c.sysY]

/-- `H`, lines 124-128. -/
noncomputable def h : Matrix (Fin 1) (Fin 2) ℝ :=
  let wallCt := 2 / Real.sqrt (c.rico ^ 2 + 1)
  !![wallCt * c.rico, 0 - wallCt]

/-- `measNoise_Cov`, lines 134-135. -/
def r : Matrix (Fin 1) (Fin 1) ℝ := !![c.measVar]

/-- `prior`, lines 147-155. -/
def prior : KF ℝ 2 := KF.make c.priorMu !![c.priorX, 0; 0, c.priorY]

/-- `sys_model`, lines 96-116, as the filter sees it: the answers of a linear model with an input (C44). -/
noncomputable def sysModel : AnalyticModel ℝ 2 2 (Fin 2 → ℝ) :=
  .withInput (fun u x => a *ᵥ x + c.b *ᵥ u + c.sysMu) (fun _ _ => a) (fun _ _ => c.q)

/-- `meas_model`, lines 131-140, as the filter sees it. -/
noncomputable def measModel : AnalyticModel ℝ 2 1 (Fin 2 → ℝ) :=
  .noInput (fun x => c.h *ᵥ x + c.measMu) (fun _ => c.h) (fun _ => c.r)

/-- The estimation loop, lines 183-193; the list holds the values of `rnorm(0,1)` used by the robot's move and
measurement in each step. -/
noncomputable def estimate (be : Backend) (input : Fin 2 → ℝ) :
    List ((Fin 3 → ℝ) × (Fin 1 → ℝ)) → Robot → KF ℝ 2 → Outcome (KF ℝ 2)
  | [], _, f => .ok f
  | d :: ds, robot, f => do
    let z ← (robot.move input d.1).measure d.2
    let f' ← f.update be .extended (some (c.sysModel, some input)) (some (c.measModel, z, none))
    estimate be input ds (robot.move input d.1) f'.2

/-- The program, lines 72-206: the posterior and the number of time steps that it prints (line 198). -/
noncomputable def program (be : Backend) (robot : Robot) (input : Fin 2 → ℝ)
    (ds : List ((Fin 3 → ℝ) × (Fin 1 → ℝ))) : Outcome (KF ℝ 2 × Nat) := do
  let f ← c.estimate be input ds robot c.prior
  return (f, ds.length + 1)

end Constants

end LinearProgram

end BFL
