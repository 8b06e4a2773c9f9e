import Verif.Spec.DiscreteProgram
import Verif.Spec.ExamplePdfs
import Verif.Spec.ExactFilter
import Verif.Spec.NormalLaw
import Verif.Model.CompareFilters

/-!
# What the example program for the bootstrap filter should report

A robot in a plane drives in the direction it faces, with normal noise; its sensor reads a multiple of its distance
to a wall, with normal noise. The exact answer is the conditional distribution of its place and direction given the
readings.
-/

namespace BFL.Spec

open Matrix ExamplePdfs CompareFilters MeasureTheory ProbabilityTheory
open scoped ENNReal

/-- `κ` is how the robot moves. -/
def MovesBy (c : Settings) (u : Fin 2 → ℝ) (κ : Kernel (Fin 3 → ℝ) (Fin 3 → ℝ)) : Prop :=
  ∀ x, κ x = normalLaw (driven u x + c.sysMu) !![c.sysX, 0, 0; 0, c.sysY, 0; 0, 0, c.sysTheta]

/-- The density of the reading `z` at each place. -/
noncomputable def wallSensor (c : Settings) (z : Fin 1 → ℝ) (x : Fin 3 → ℝ) : ℝ :=
  normalDensity ![2 / Real.sqrt (c.rico ^ 2 + 1) * (c.rico * x 0 - x 1) + c.measMu 0] !![c.measVar] z

/-- `z t` is the reading of the simulated robot after its move `t`. -/
def Senses (r : Robot) (u : Fin 2 → ℝ) (ds : List ((Fin 3 → ℝ) × (Fin 1 → ℝ))) (z : Nat → Fin 1 → ℝ) : Prop :=
  ∀ t d, ds[t]? = some d → (robotAfter r u (ds.take (t + 1))).measure d.2 = .ok (z t)

/-- The prior of the program. -/
noncomputable def priorLaw (c : Settings) : Measure (Fin 3 → ℝ) :=
  normalLaw c.priorMu !![c.priorX, 0, 0; 0, c.priorY, 0; 0, 0, c.priorTheta]

/-- The mean and covariance in a report are within `ε` of those of the distribution `π`. -/
def WithinOf (ε : ℝ) (π : Measure (Fin 3 → ℝ)) (m : Fin 3 → ℝ) (S : Matrix (Fin 3) (Fin 3) ℝ) : Prop :=
  (∀ i, |m i - ∫ y, y i ∂π| < ε) ∧
    ∀ i j, |S i j - ((∫ y, y i * y j ∂π) - (∫ y, y i ∂π) * ∫ y, y j ∂π)| < ε

/-- The distribution after `T` moves, without readings. -/
noncomputable def movedLaw (κ : Kernel (Fin 3 → ℝ) (Fin 3 → ℝ)) (μ : Measure (Fin 3 → ℝ)) : Nat → Measure (Fin 3 → ℝ)
  | 0 => μ
  | T + 1 => (movedLaw κ μ T).bind κ

end BFL.Spec
