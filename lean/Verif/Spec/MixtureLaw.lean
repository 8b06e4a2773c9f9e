import Verif.Spec.ExactFilter

/-!
# Mixtures of distributions, and how probable each of them is given the measurements

Nothing in this file mentions the model of the C++ code.
-/

namespace BFL.Spec

open MeasureTheory ProbabilityTheory
open scoped ENNReal

variable {X : Type} [MeasurableSpace X] {J : Nat}

/-- The state has distribution `μ k` with probability `w k`. -/
noncomputable def mixtureLaw (w : Fin J → ℝ) (μ : Fin J → Measure X) : Measure X :=
  ∑ k, ENNReal.ofReal (w k) • μ k

/-- Probability (density) of the first `T` measurements, if the initial state had the distribution
`μ`. -/
noncomputable def evidenceUpTo (κ : Nat → Kernel X X) (ℓ : Nat → X → ℝ≥0∞) (μ : Measure X)
    (T : Nat) : ℝ :=
  ∏ t ∈ Finset.range T, (evidenceOf (κ t) (ℓ t) (exactFilter κ ℓ μ t)).toReal

/-- Probability, given the first `T` measurements, that the initial state came from distribution
`k` (Bayes' rule). -/
noncomputable def sourceProbability (κ : Nat → Kernel X X) (ℓ : Nat → X → ℝ≥0∞) (w : Fin J → ℝ)
    (μ : Fin J → Measure X) (T : Nat) (k : Fin J) : ℝ :=
  w k * evidenceUpTo κ ℓ (μ k) T / ∑ j, w j * evidenceUpTo κ ℓ (μ j) T

end BFL.Spec
