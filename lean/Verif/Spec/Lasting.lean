import Verif.Spec.ExactFilter
import Mathlib.Analysis.SpecialFunctions.Sqrt

/-! # Particle filters that run for ever -/

namespace BFL.Spec

open MeasureTheory ProbabilityTheory
open scoped ENNReal

variable {X : Type} [MeasurableSpace X]

/-- Up to the factor `σ` the process moves alike from all states: the probability of getting into a set is between `σ v`
and `v` of the set, whatever the present state. -/
def MovesAlike (κ : Kernel X X) (σ : ℝ) : Prop :=
  ∃ v : Measure X, IsFiniteMeasure v ∧ ∀ x, ENNReal.ofReal σ • v ≤ κ x ∧ κ x ≤ v

/-- Error constant for histories of any length. `r` bounds the weight factors of an update, divided by the smallest
likelihood of its measurement. `s` bounds the number of particles divided by the effective number, `σ` is the factor of
the moves. -/
noncomputable def lastingConstant (r s σ : ℝ) : ℝ := 2 / σ * (1 + (2 * r * (1 + √s) + 1) / σ)

end BFL.Spec
