import Verif.Spec.ExactFilter
import Verif.Lemmas.NormalLaw
import Mathlib.Probability.Kernel.Composition.Prod

/-!
# The exact filter keeps finite second moments
-/

set_option linter.unusedSectionVars false

namespace BFL.Props

open Matrix MeasureTheory ProbabilityTheory Spec
open scoped ENNReal

variable {n : Nat}

/-- One plus the square of the length. -/
noncomputable def oneSq (y : Fin n → ℝ) : ℝ≥0∞ := ENNReal.ofReal (1 + ∑ i, y i ^ 2)

theorem measurable_oneSq : Measurable (oneSq (n := n)) := by
  unfold oneSq
  fun_prop

theorem oneSq_add (a b : Fin n → ℝ) : oneSq (a + b) ≤ 2 * oneSq a * oneSq b := by
  have ha : 0 ≤ ∑ i, a i ^ 2 := Finset.sum_nonneg fun _ _ => sq_nonneg _
  have hb : 0 ≤ ∑ i, b i ^ 2 := Finset.sum_nonneg fun _ _ => sq_nonneg _
  unfold oneSq
  rw [show (2 : ℝ≥0∞) = ENNReal.ofReal 2 by simp, ← ENNReal.ofReal_mul (by norm_num),
    ← ENNReal.ofReal_mul (by positivity)]
  refine ENNReal.ofReal_le_ofReal ?_
  have h : ∑ i, (a + b) i ^ 2 ≤ ∑ i, (2 * a i ^ 2 + 2 * b i ^ 2) :=
    Finset.sum_le_sum fun i _ => by
      rw [Pi.add_apply]
      nlinarith [sq_nonneg (a i - b i)]
  rw [Finset.sum_add_distrib, ← Finset.mul_sum, ← Finset.mul_sum] at h
  nlinarith [mul_nonneg ha hb]

/-- A distribution with finite second moments. -/
def Moderate (π : Measure (Fin n → ℝ)) : Prop := ∫⁻ y, oneSq y ∂π ≠ ∞

theorem Moderate.integrable {π : Measure (Fin n → ℝ)} (h : Moderate π) :
    (∀ i, Integrable (fun y : Fin n → ℝ => y i) π) ∧ ∀ i j, Integrable (fun y : Fin n → ℝ => y i * y j) π := by
  have key : ∀ φ : (Fin n → ℝ) → ℝ, Measurable φ → (∀ y, |φ y| ≤ 1 + ∑ i, y i ^ 2) → Integrable φ π := by
    intro φ hm hb
    refine ⟨hm.aestronglyMeasurable, lt_of_le_of_lt (lintegral_mono fun y => ?_) (lt_top_iff_ne_top.2 h)⟩
    rw [Real.enorm_eq_ofReal_abs]
    exact ENNReal.ofReal_le_ofReal (hb y)
  have hle : ∀ (y : Fin n → ℝ) i, y i ^ 2 ≤ ∑ i, y i ^ 2 := fun y i =>
    Finset.single_le_sum (f := fun i => y i ^ 2) (fun _ _ => sq_nonneg _) (Finset.mem_univ i)
  refine ⟨fun i => key _ (measurable_pi_apply i) fun y => ?_, fun i j =>
    key _ ((measurable_pi_apply i).mul (measurable_pi_apply j)) fun y => ?_⟩
  · have := hle y i
    nlinarith [sq_abs (y i), sq_nonneg (|y i| - 1), abs_nonneg (y i)]
  · have h1 := hle y i
    have h2 := hle y j
    rw [abs_mul]
    nlinarith [sq_abs (y i), sq_abs (y j), sq_nonneg (|y i| - |y j|)]

theorem normalLaw_moderate {m : Fin n → ℝ} {S : Matrix (Fin n) (Fin n) ℝ} (hS : PD S)
    (hp : IsProbabilityMeasure (normalLaw m S)) : Moderate (normalLaw m S) := by
  have h : Integrable (fun y : Fin n → ℝ => 1 + ∑ i, y i ^ 2) (normalLaw m S) := by
    refine (integrable_const 1).add (integrable_finsetSum _ fun i _ => ?_)
    simpa only [sq] using ((normalLaw_moments (m := m) hS).2 i i).1
  have := h.2
  unfold HasFiniteIntegral at this
  refine ne_of_lt (lt_of_le_of_lt (lintegral_mono fun y => ?_) this)
  rw [Real.enorm_eq_ofReal_abs]
  exact ENNReal.ofReal_le_ofReal (le_abs_self _)

theorem evidence_possible {π : Measure (Fin n → ℝ)} [IsProbabilityMeasure π] {κ : Kernel (Fin n → ℝ) (Fin n → ℝ)}
    [IsMarkovKernel κ] {ℓ : (Fin n → ℝ) → ℝ≥0∞} (hℓ : Measurable ℓ) (hpos : ∀ y, ℓ y ≠ 0) {B : ℝ≥0∞} (hB : B ≠ ∞)
    (hle : ∀ y, ℓ y ≤ B) : evidenceOf κ ℓ π ≠ 0 ∧ evidenceOf κ ℓ π ≠ ∞ := by
  constructor
  · unfold evidenceOf
    intro h
    rw [lintegral_eq_zero_iff hℓ] at h
    have h' : ∀ᵐ _ ∂(π.bind κ), False := h.mono fun y hy => hpos y hy
    rw [ae_iff] at h'
    simp at h'
  · refine ne_of_lt (lt_of_le_of_lt (lintegral_mono hle) ?_)
    rw [lintegral_const, measure_univ, mul_one]
    exact lt_top_iff_ne_top.2 hB

theorem bayesStep_probability {π : Measure (Fin n → ℝ)} {κ : Kernel (Fin n → ℝ) (Fin n → ℝ)}
    {ℓ : (Fin n → ℝ) → ℝ≥0∞} (h : evidenceOf κ ℓ π ≠ 0 ∧ evidenceOf κ ℓ π ≠ ∞) :
    IsProbabilityMeasure (bayesStep κ ℓ π) := by
  refine ⟨?_⟩
  rw [bayesStep, Measure.smul_apply, withDensity_apply _ MeasurableSet.univ, setLIntegral_univ, smul_eq_mul]
  exact ENNReal.inv_mul_cancel h.1 h.2

theorem bayesStep_moderate {π : Measure (Fin n → ℝ)} (hπ : Moderate π) {κ : Kernel (Fin n → ℝ) (Fin n → ℝ)}
    {C : ℝ≥0∞} (hC : C ≠ ∞) (hκ : ∀ x, ∫⁻ y, oneSq y ∂(κ x) ≤ C * oneSq x)
    {ℓ : (Fin n → ℝ) → ℝ≥0∞} (hℓ : Measurable ℓ) {B : ℝ≥0∞} (hB : B ≠ ∞)
    (hle : ∀ y, ℓ y ≤ B) (h : evidenceOf κ ℓ π ≠ 0) : Moderate (bayesStep κ ℓ π) := by
  unfold Moderate
  rw [bayesStep, lintegral_smul_measure, lintegral_withDensity_eq_lintegral_mul _ hℓ measurable_oneSq, smul_eq_mul]
  refine ENNReal.mul_ne_top (ENNReal.inv_ne_top.2 h) (ne_of_lt ?_)
  calc ∫⁻ y, (ℓ * (oneSq : (Fin n → ℝ) → ℝ≥0∞)) y ∂(π.bind κ) ≤ ∫⁻ y, B * oneSq y ∂(π.bind κ) :=
        lintegral_mono fun y => mul_le_mul_left (hle y) _
    _ = B * ∫⁻ x, ∫⁻ y, oneSq y ∂(κ x) ∂π := by
        rw [lintegral_const_mul _ measurable_oneSq, Measure.lintegral_bind κ.aemeasurable measurable_oneSq.aemeasurable]
    _ ≤ B * ∫⁻ x, C * oneSq x ∂π := mul_le_mul_right (lintegral_mono hκ) _
    _ = B * (C * ∫⁻ x, oneSq x ∂π) := by rw [lintegral_const_mul _ measurable_oneSq]
    _ < ∞ := lt_top_iff_ne_top.2 (ENNReal.mul_ne_top hB (ENNReal.mul_ne_top hC hπ))

/-- If no move lets the state grow too fast and every likelihood is positive and bounded, then every reading is
possible and the exact posterior has finite second moments. -/
theorem exactFilter_moderate {κ : Nat → Kernel (Fin n → ℝ) (Fin n → ℝ)} {ℓ : Nat → (Fin n → ℝ) → ℝ≥0∞}
    [∀ t, IsMarkovKernel (κ t)] {C B : ℝ≥0∞} (hC : C ≠ ∞) (hB : B ≠ ∞) (hκ : ∀ t x, ∫⁻ y, oneSq y ∂(κ t x) ≤ C * oneSq x)
    (hℓ : ∀ t, Measurable (ℓ t)) (hpos : ∀ t y, ℓ t y ≠ 0) (hle : ∀ t y, ℓ t y ≤ B) {μ : Measure (Fin n → ℝ)}
    [IsProbabilityMeasure μ] (hμ : Moderate μ) (T : Nat) :
    IsProbabilityMeasure (exactFilter κ ℓ μ T) ∧ Moderate (exactFilter κ ℓ μ T) ∧ Possible κ ℓ μ T := by
  induction T with
  | zero => exact ⟨by assumption, hμ, fun t ht => absurd ht (Nat.not_lt_zero t)⟩
  | succ T ih =>
    obtain ⟨h1, h2, h3⟩ := ih
    have he := evidence_possible (π := exactFilter κ ℓ μ T) (κ := κ T) (hℓ T) (hpos T) hB (hle T)
    refine ⟨bayesStep_probability he, bayesStep_moderate h2 hC (hκ T) (hℓ T) hB (hle T) he.1, fun t ht => ?_⟩
    rcases Nat.lt_succ_iff_lt_or_eq.1 ht with ht | rfl
    · exact h3 t ht
    · exact he

/-- A move to `g x` with additional noise. -/
theorem additive_growth {κ : Kernel (Fin n → ℝ) (Fin n → ℝ)} {ν : Measure (Fin n → ℝ)} {g : (Fin n → ℝ) → Fin n → ℝ}
    {w : (Fin n → ℝ) → Fin n → ℝ} (hw : Measurable w)
    (hκ : ∀ x, κ x = ν.map fun r => w r + g x) {C : ℝ≥0∞} (hg : ∀ x, oneSq (g x) ≤ C * oneSq x)
    (x : Fin n → ℝ) : ∫⁻ y, oneSq y ∂(κ x) ≤ (2 * (∫⁻ r, oneSq (w r) ∂ν) * C) * oneSq x := by
  rw [hκ, lintegral_map measurable_oneSq (by fun_prop)]
  calc ∫⁻ r, oneSq (w r + g x) ∂ν ≤ ∫⁻ r, 2 * oneSq (g x) * oneSq (w r) ∂ν :=
        lintegral_mono fun r => (oneSq_add _ _).trans (le_of_eq (by ring))
    _ = 2 * oneSq (g x) * ∫⁻ r, oneSq (w r) ∂ν := lintegral_const_mul _ (measurable_oneSq.comp hw)
    _ ≤ 2 * (C * oneSq x) * ∫⁻ r, oneSq (w r) ∂ν := by
        gcongr
        exact hg x
    _ = _ := by ring

end BFL.Props
