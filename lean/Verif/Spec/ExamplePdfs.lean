import Verif.Spec.GaussianDensity
import Mathlib.MeasureTheory.Constructions.Pi
import Mathlib.Probability.Distributions.Gaussian.Real

/-!
# Specification for C84

What the densities and the robot of the examples are meant to be, in terms of geometry and probability.
-/

namespace BFL.Spec

open MeasureTheory ProbabilityTheory

/-- `d` is the distance of the point `(x, y)` from the wall `y = a x + b`. -/
def WallDistance (a b x y d : ℝ) : Prop :=
  IsLeast (Set.range fun t : ℝ => Real.sqrt ((x - t) ^ 2 + (y - (a * t + b)) ^ 2)) d

/-- Where the robot is after driving `vel 0` straight on and turning by `vel 1`. -/
noncomputable def driven (vel : Fin 2 → ℝ) (x : Fin 3 → ℝ) : Fin 3 → ℝ :=
  ![x 0 + vel 0 * Real.cos (x 2), x 1 + vel 0 * Real.sin (x 2), x 2 + vel 1]

/-- A function of `n` independent standard normal numbers has the density `p`. -/
def HasDensity {n : Nat} (f : (Fin n → ℝ) → (Fin n → ℝ)) (p : (Fin n → ℝ) → ℝ) : Prop :=
  (Measure.pi fun _ : Fin n => gaussianReal 0 1).map f = volume.withDensity fun x => ENNReal.ofReal (p x)

end BFL.Spec
