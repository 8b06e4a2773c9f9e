import Verif.Model.HistogramFilter
import Verif.Model.ExamplePdfs

/-!
# Model of the example program for the histogram filter

`/repo/orocos_bfl/examples/discrete_filter/test_discrete_filter.cpp`. The constants of the program
(`num_states`, `prob_diag`, the noise) and those of `mobile_robot_wall_cts.h` are parameters.
-/

namespace BFL

namespace DiscreteProgram

open ExamplePdfs

section Table

variable {K : Type} [Field K] [LinearOrder K]

/-- The calls of `ProbabilitySet`, lines 74-82. For one state `prob_nondiag` (line 73) is a division by zero,
but it is not used then. -/
def tableCalls (n : Nat) (diag : K) : List (K × Int × List Int) :=
  (List.range n).flatMap fun (old : Nat) => (List.range n).map fun (new : Nat) =>
    (if old = new then diag else (1 - diag) / ((n : K) - 1), (new : Int), [(old : Int)])

/-- `sys_pdf`, lines 68-82. -/
def sysPdf (n : Nat) (diag : K) : Outcome (DiscreteConditionalPdf K) :=
  (DiscreteConditionalPdf.make n [n]).writes (tableCalls n diag)

end Table

/-- `meas_pdf`, lines 94-100: `ConditionalUniformMeasPdf1d`, one conditional argument. Its `SampleFrom` is that
of `Pdf`, which ends the program (pdf/pdf.h:193-201). Simplification: the cached members of the noise
are not kept from call to call; they do not change the density (C41, C84). -/
noncomputable def measPdf (be : Backend) (mu var : ℝ) : CondPdf Int (Fin 1 → ℝ) ℝ where
  numArgs := 1
  prob cs z := match cs with
    | [state] => do
      let r ← discreteMeasurementProb be (Gaussian.make ![mu] !![var]) state ⟨1, z⟩
      return r.1
    | _ => .ub
  draw _ := .abort

/-- The estimation loop, lines 133-148; the list holds the values of `rnorm(0,1)` used by the robot's move and
measurement in each step. The measurement is negated on line 141. -/
noncomputable def estimate (sys : Model Int Int ℝ) (meas : Model Int (Fin 1 → ℝ) ℝ) (input : Fin 2 → ℝ) :
    List ((Fin 3 → ℝ) × (Fin 1 → ℝ)) → Robot → HistogramFilter ℝ → Outcome (HistogramFilter ℝ)
  | [], _, f => .ok f
  | d :: ds, robot, f => do
    let z ← (robot.move input d.1).measure d.2
    let f' ← f.update ⟨some (sys, none), some (meas, -z, none)⟩
    estimate sys meas input ds (robot.move input d.1) f'.2

/-- The program, lines 55-165: the posterior and the number of time steps that it prints (line 153). -/
noncomputable def program (be : Backend) (n : Nat) (diag mu var : ℝ) (robot : Robot) (input : Fin 2 → ℝ)
    (ds : List ((Fin 3 → ℝ) × (Fin 1 → ℝ))) : Outcome (DiscretePdf ℝ × Nat) := do
  let table ← sysPdf n diag
  let sys ← Model.make (some (table.toCondPdf 0))
  let meas ← Model.make (some (measPdf be mu var))
  let prior ← DiscretePdf.make n
  let f ← HistogramFilter.make prior
  let f' ← estimate sys meas input ds robot f
  return (f'.post, ds.length + 1)

end DiscreteProgram

end BFL
