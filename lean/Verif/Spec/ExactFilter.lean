import Mathlib.Probability.Kernel.Composition.MeasureComp
import Mathlib.Probability.Independence.Basic

/-!
# The exact Bayes filter on a general state space, and independent random draws

Nothing in this file mentions the model of the C++ code.
-/

namespace BFL.Spec

open MeasureTheory ProbabilityTheory
open scoped ENNReal

variable {X R Ω : Type} [MeasurableSpace X] [MeasurableSpace R] [MeasurableSpace Ω]

/-- Probability (density) of a measurement with likelihood `ℓ` after a move with the transition
kernel `κ`, if the state before had the distribution `μ`. -/
noncomputable def evidenceOf (κ : Kernel X X) (ℓ : X → ℝ≥0∞) (μ : Measure X) : ℝ≥0∞ :=
  ∫⁻ y, ℓ y ∂(μ.bind κ)

/-- Distribution of the state after the move and given the measurement (Bayes' rule). -/
noncomputable def bayesStep (κ : Kernel X X) (ℓ : X → ℝ≥0∞) (μ : Measure X) : Measure X :=
  (evidenceOf κ ℓ μ)⁻¹ • (μ.bind κ).withDensity ℓ

/-- Distribution of the state given the first `t` measurements. -/
noncomputable def exactFilter (κ : Nat → Kernel X X) (ℓ : Nat → X → ℝ≥0∞) (μ : Measure X) :
    Nat → Measure X
  | 0 => μ
  | t + 1 => bayesStep (κ t) (ℓ t) (exactFilter κ ℓ μ t)

/-- Every measurement has positive finite probability (density) given the ones before. -/
def Possible (κ : Nat → Kernel X X) (ℓ : Nat → X → ℝ≥0∞) (μ : Measure X) (T : Nat) : Prop :=
  ∀ t < T, evidenceOf (κ t) (ℓ t) (exactFilter κ ℓ μ t) ≠ 0 ∧
    evidenceOf (κ t) (ℓ t) (exactFilter κ ℓ μ t) ≠ ∞

/-- Random initial values `x i` with law `μ` and random inputs `r t i` with law `ν t`, all
independent. -/
structure IndependentDraws (P : Measure Ω) (x : Nat → Ω → X) (r : Nat → Nat → Ω → R)
    (μ : Measure X) (ν : Nat → Measure R) : Prop where
  measurable_x : ∀ i, Measurable (x i)
  measurable_r : ∀ t i, Measurable (r t i)
  law_x : ∀ i, P.map (x i) = μ
  law_r : ∀ t i, P.map (r t i) = ν t
  indep : iIndep (Sum.elim (fun i => MeasurableSpace.comap (x i) inferInstance)
    fun k : Nat × Nat => MeasurableSpace.comap (r k.1 k.2) inferInstance) P

end BFL.Spec
