import Verif.Spec.ExactFilter

/-! # Models that are nearly right -/

namespace BFL.Spec

open MeasureTheory ProbabilityTheory
open scoped ENNReal

variable {X : Type} [MeasurableSpace X]

/-- The moves `κ'` with the likelihood `ℓ'` agree with the moves `κ` and the likelihood `ℓ` up to the factor `1 + δ`: for
every state and every set, the probability (density) of moving into the set and measuring what was measured is between
once and `1 + δ` times the other one, apart from a common factor. -/
def NearlyRight (κ κ' : Kernel X X) (ℓ ℓ' : X → ℝ≥0∞) (δ : ℝ) : Prop :=
  ∃ a : ℝ, 0 < a ∧ ∀ x, ENNReal.ofReal a • (κ x).withDensity ℓ ≤ (κ' x).withDensity ℓ' ∧
    (κ' x).withDensity ℓ' ≤ ENNReal.ofReal (a * (1 + δ)) • (κ x).withDensity ℓ

end BFL.Spec
