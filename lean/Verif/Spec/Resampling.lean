import Mathlib.MeasureTheory.Measure.Lebesgue.Basic

/-!
# Uniform random numbers and convergence in probability

Nothing in this file mentions the model of the C++ code.
-/

namespace BFL.Spec

open MeasureTheory Filter
open scoped Topology

variable {Ω : Type} [MeasurableSpace Ω]

/-- Law of a random number that is uniform on `[0, 1)`. -/
noncomputable def uniform : Measure ℝ := (volume : Measure ℝ).restrict (Set.Ico 0 1)

/-- The probability that `A N` fails tends to 0. -/
def Likely (P : Measure Ω) (A : Nat → Ω → Prop) : Prop :=
  Tendsto (fun N => P {ω | ¬ A N ω}) atTop (𝓝 0)

end BFL.Spec
