import Verif.Spec.ExactFilter

/-! # The probability of a whole sequence of measurements -/

namespace BFL.Spec

open MeasureTheory ProbabilityTheory
open scoped ENNReal

/-- Probability (density) of the first `T` measurements together. -/
noncomputable def probabilityOf {X : Type} [MeasurableSpace X] (κ : Nat → Kernel X X) (ℓ : Nat → X → ℝ≥0∞)
    (μ : Measure X) (T : Nat) : ℝ≥0∞ :=
  ∏ t ∈ Finset.range T, evidenceOf (κ t) (ℓ t) (exactFilter κ ℓ μ t)

end BFL.Spec
