import Verif.Spec.Identification
import Mathlib.Probability.Independence.Integration
import Mathlib.MeasureTheory.Integral.Lebesgue.Markov
import Mathlib.Topology.Algebra.InfiniteSum.ENNReal
import Mathlib.Analysis.SpecificLimits.Basic
import Mathlib.MeasureTheory.Constructions.BorelSpace.Real
import Mathlib.MeasureTheory.Function.SpecialFunctions.Basic

/-! Likelihood ratios of independent readings; helper lemmas for C87. -/

set_option linter.unusedSectionVars false

namespace BFL

open MeasureTheory ProbabilityTheory Spec

variable {Z Ω : Type} [MeasurableSpace Z] [MeasurableSpace Ω] {μ : Measure Ω} {ν : Measure Z} {a b : Z → ℝ}
  {ζ : Nat → Ω → Z}

theorem sqrt_le_mean {x y : ℝ} (hx : 0 ≤ x) (hy : 0 ≤ y) : Real.sqrt (x * y) ≤ (x + y) / 2 := by
  rw [Real.sqrt_le_left (by positivity)]
  nlinarith [sq_nonneg (x - y)]

theorem eq_of_sqrt_eq_mean {x y : ℝ} (hx : 0 ≤ x) (hy : 0 ≤ y) (h : Real.sqrt (x * y) = (x + y) / 2) : x = y := by
  have h1 := Real.sq_sqrt (mul_nonneg hx hy)
  rw [h] at h1
  have : (x - y) ^ 2 = 0 := by nlinarith
  exact sub_eq_zero.1 (pow_eq_zero_iff (two_ne_zero) |>.1 this)

theorem overlap_lt_one (ha : IsDensity ν a) (hb : IsDensity ν b) (hab : ¬ a =ᵐ[ν] b) : overlap ν a b < 1 := by
  have hmean : ∫⁻ z, ENNReal.ofReal ((a z + b z) / 2) ∂ν = 1 := by
    have : ∀ z, ENNReal.ofReal ((a z + b z) / 2) = 2⁻¹ * (ENNReal.ofReal (a z) + ENNReal.ofReal (b z)) := by
      intro z
      rw [← ENNReal.ofReal_add (ha.nonneg z) (hb.nonneg z), div_eq_inv_mul, ENNReal.ofReal_mul (by norm_num),
        ENNReal.ofReal_inv_of_pos (by norm_num)]
      norm_num
    simp only [this]
    rw [lintegral_const_mul (f := fun z => ENNReal.ofReal (a z) + ENNReal.ofReal (b z)) _
      (ha.measurable.ennreal_ofReal.add hb.measurable.ennreal_ofReal),
      lintegral_add_left (ha.measurable.ennreal_ofReal), ha.total, hb.total]
    rw [one_add_one_eq_two, ENNReal.inv_mul_cancel (by norm_num) (by norm_num)]
  have hle : ∀ z, ENNReal.ofReal (Real.sqrt (a z * b z)) ≤ ENNReal.ofReal ((a z + b z) / 2) := fun z =>
    ENNReal.ofReal_le_ofReal (sqrt_le_mean (ha.nonneg z) (hb.nonneg z))
  have h1 : overlap ν a b ≤ 1 := by
    rw [← hmean]
    exact lintegral_mono hle
  refine lt_of_le_of_ne h1 fun heq => hab ?_
  have hm : Measurable fun z => ENNReal.ofReal ((a z + b z) / 2) :=
    ((ha.measurable.add hb.measurable).div_const 2).ennreal_ofReal
  have := ae_eq_of_ae_le_of_lintegral_le (μ := ν) (Filter.Eventually.of_forall hle)
    (by rw [show ∫⁻ z, ENNReal.ofReal (Real.sqrt (a z * b z)) ∂ν = 1 from heq]; exact ENNReal.one_ne_top)
    hm.aemeasurable (by rw [hmean, show ∫⁻ z, ENNReal.ofReal (Real.sqrt (a z * b z)) ∂ν = 1 from heq])
  filter_upwards [this] with z hz
  have hz' := (ENNReal.ofReal_eq_ofReal_iff (Real.sqrt_nonneg _)
    (by have := ha.nonneg z; have := hb.nonneg z; positivity)).1 hz
  exact eq_of_sqrt_eq_mean (ha.nonneg z) (hb.nonneg z) hz'

/-- Square root of the likelihood ratio of one reading. -/
noncomputable def rootRatio (a b : Z → ℝ) (z : Z) : ENNReal := ENNReal.ofReal (Real.sqrt (a z / b z))

theorem rootRatio_measurable (ha : IsDensity ν a) (hb : IsDensity ν b) : Measurable (rootRatio a b) :=
  ((ha.measurable.div hb.measurable).sqrt).ennreal_ofReal

theorem lintegral_rootRatio (ha : IsDensity ν a) (hb : IsDensity ν b) (hζ : Readings μ ν b ζ) (t : Nat) :
    ∫⁻ ω, rootRatio a b (ζ t ω) ∂μ = overlap ν a b := by
  rw [← lintegral_map (rootRatio_measurable ha hb) (hζ.measurable t), hζ.law t,
    lintegral_withDensity_eq_lintegral_mul _ hb.measurable.ennreal_ofReal (rootRatio_measurable ha hb)]
  refine lintegral_congr fun z => ?_
  show ENNReal.ofReal (b z) * ENNReal.ofReal (Real.sqrt (a z / b z)) = _
  rw [← ENNReal.ofReal_mul (hb.nonneg z)]
  congr 1
  rcases (hb.nonneg z).eq_or_lt with h | h
  · rw [← h]; simp
  · rw [Real.sqrt_div (ha.nonneg z), Real.sqrt_mul (ha.nonneg z), ← mul_div_assoc, div_eq_iff (Real.sqrt_pos.2 h).ne']
    rw [mul_assoc, Real.mul_self_sqrt h.le, mul_comm]

theorem lintegral_ratio (ha : IsDensity ν a) (hb : IsDensity ν b) (hζ : Readings μ ν b ζ) (T : Nat) :
    ∫⁻ ω, ∏ t ∈ Finset.range T, rootRatio a b (ζ t ω) ∂μ = overlap ν a b ^ T := by
  have h := lintegral_prod_eq_prod_lintegral_of_indepFun (μ := μ) (Finset.range T)
    (fun t ω => rootRatio a b (ζ t ω))
    (hζ.independent.comp (fun _ => rootRatio a b) fun _ => rootRatio_measurable ha hb)
    (fun t => (rootRatio_measurable ha hb).comp (hζ.measurable t))
  rw [h]
  simp only [lintegral_rootRatio ha hb hζ, Finset.prod_const, Finset.card_range]

theorem prod_measurable (ha : IsDensity ν a) (hb : IsDensity ν b) (hζ : Readings μ ν b ζ) (T : Nat) :
    Measurable fun ω => ∏ t ∈ Finset.range T, rootRatio a b (ζ t ω) :=
  Finset.measurable_prod _ fun t _ => (rootRatio_measurable ha hb).comp (hζ.measurable t)

/-- Almost surely the likelihood ratio tends to zero. -/
theorem ratio_tendsto (ha : IsDensity ν a) (hb : IsDensity ν b) (hab : ¬ a =ᵐ[ν] b) (hζ : Readings μ ν b ζ) :
    ∀ᵐ ω ∂μ, Filter.Tendsto (fun T => ∏ t ∈ Finset.range T, rootRatio a b (ζ t ω)) Filter.atTop (nhds 0) := by
  have hsum : ∫⁻ ω, ∑' T, ∏ t ∈ Finset.range T, rootRatio a b (ζ t ω) ∂μ ≠ ⊤ := by
    rw [lintegral_tsum fun T => (prod_measurable ha hb hζ T).aemeasurable]
    simp only [lintegral_ratio ha hb hζ]
    rw [ENNReal.tsum_geometric]
    exact ENNReal.inv_ne_top.2 (tsub_pos_of_lt (overlap_lt_one ha hb hab)).ne'
  have := ae_lt_top' (AEMeasurable.tsum fun T => (prod_measurable ha hb hζ T).aemeasurable) hsum
  filter_upwards [this] with ω hω
  exact ENNReal.tendsto_atTop_zero_of_tsum_ne_top hω.ne

/-- Almost surely no reading was impossible. -/
theorem readings_pos (hb : IsDensity ν b) (hζ : Readings μ ν b ζ) : ∀ᵐ ω ∂μ, ∀ t, 0 < b (ζ t ω) := by
  rw [ae_all_iff]
  intro t
  have h1 : ∀ᵐ z ∂(μ.map (ζ t)), 0 < b z := by
    rw [hζ.law t, ae_withDensity_iff hb.measurable.ennreal_ofReal]
    refine Filter.Eventually.of_forall fun z hz => ?_
    by_contra hc
    exact hz (ENNReal.ofReal_eq_zero.2 (not_lt.1 hc))
  exact ae_of_ae_map (hζ.measurable t).aemeasurable h1

end BFL
