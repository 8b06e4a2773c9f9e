import Mathlib.Analysis.SpecialFunctions.Sqrt
import Mathlib.MeasureTheory.Measure.WithDensity
import Mathlib.Probability.Independence.Basic

/-!
# Specification for C87: repeated readings of a sensor

Nothing in this file mentions the model of the C++ code. Readings are points of a measurable space with a reference
measure `ν` (the counting measure for finitely many readings, the Lebesgue measure for real readings).
-/

namespace BFL.Spec

open MeasureTheory ProbabilityTheory

variable {Z Ω : Type} [MeasurableSpace Z] [MeasurableSpace Ω]

/-- `l` is a probability density with respect to `ν`. -/
structure IsDensity (ν : Measure Z) (l : Z → ℝ) : Prop where
  measurable : Measurable l
  nonneg : ∀ z, 0 ≤ l z
  total : ∫⁻ z, ENNReal.ofReal (l z) ∂ν = 1

/-- How much two densities overlap: 1 for equal ones, 0 for densities that exclude each other. -/
noncomputable def overlap (ν : Measure Z) (a b : Z → ℝ) : ENNReal := ∫⁻ z, ENNReal.ofReal (Real.sqrt (a z * b z)) ∂ν

/-- `ζ 0, ζ 1, ...` are independent readings of a sensor with the density `l`. -/
structure Readings (μ : Measure Ω) (ν : Measure Z) (l : Z → ℝ) (ζ : Nat → Ω → Z) : Prop where
  measurable : ∀ t, Measurable (ζ t)
  independent : iIndepFun ζ μ
  law : ∀ t, μ.map (ζ t) = ν.withDensity fun z => ENNReal.ofReal (l z)

end BFL.Spec
