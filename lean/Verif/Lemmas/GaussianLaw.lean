import Verif.Lemmas.Gaussian
import Mathlib.Probability.Distributions.Gaussian.Real
import Mathlib.MeasureTheory.Integral.Pi
import Mathlib.MeasureTheory.Function.Jacobian

/-!
# The law of an affine image of independent standard normal variables
-/

namespace BFL

open Matrix Spec MeasureTheory ProbabilityTheory

variable {n : Nat}

/-- `n` independent draws of a standard normal random number. -/
noncomputable def stdNormals (n : Nat) : Measure (Fin n → ℝ) :=
  Measure.pi fun _ => gaussianReal 0 1

/-- Joint density of independent standard normal random numbers. -/
noncomputable def stdDensity (z : Fin n → ℝ) : ℝ := ∏ i, gaussianPDFReal 0 1 (z i)

theorem stdDensity_nonneg (z : Fin n → ℝ) : 0 ≤ stdDensity z :=
  Finset.prod_nonneg fun i _ => gaussianPDFReal_nonneg _ _ _

theorem stdDensity_eq (z : Fin n → ℝ) :
    stdDensity z = Real.exp (-(z ⬝ᵥ z) / 2) / Real.sqrt ((2 * Real.pi) ^ n) := by
  have h : ∀ x : ℝ, gaussianPDFReal 0 1 x = (Real.sqrt (2 * Real.pi))⁻¹ * Real.exp (-(x * x) / 2) := by
    intro x
    rw [gaussianPDFReal]
    congr 2
    · simp
    · simp; ring
  rw [stdDensity]
  simp only [h]
  rw [Finset.prod_mul_distrib, ← Real.exp_sum, Finset.prod_const, Finset.card_univ, Fintype.card_fin,
    inv_pow, Real.sqrt_eq_rpow, Real.sqrt_eq_rpow, ← Real.rpow_natCast, ← Real.rpow_mul (by positivity),
    ← Real.rpow_natCast, ← Real.rpow_mul (by positivity), mul_comm (1 / 2 : ℝ), div_eq_mul_inv, mul_comm]
  congr 2
  simp only [dotProduct, ← Finset.sum_neg_distrib, Finset.sum_div]

theorem stdNormals_eq :
    stdNormals n = (volume : Measure (Fin n → ℝ)).withDensity
      (fun z => ENNReal.ofReal (stdDensity z)) := by
  refine Measure.pi_eq fun s hs => ?_
  rw [withDensity_apply _ (MeasurableSet.univ_pi hs), volume_pi, Measure.restrict_pi_pi]
  have hint : ∀ i : Fin n, Integrable (gaussianPDFReal 0 1) ((volume : Measure ℝ).restrict (s i)) :=
    fun i => (integrable_gaussianPDFReal 0 1).restrict
  have hprod : Integrable (fun z : Fin n → ℝ => stdDensity z)
      (Measure.pi fun i => (volume : Measure ℝ).restrict (s i)) :=
    Integrable.fintype_prod hint
  rw [← ofReal_integral_eq_lintegral_ofReal hprod (ae_of_all _ stdDensity_nonneg)]
  simp only [stdDensity]
  rw [integral_fintype_prod_eq_prod, ENNReal.ofReal_prod_of_nonneg]
  · exact Finset.prod_congr rfl fun i _ =>
      (gaussianReal_apply_eq_integral 0 one_ne_zero (s i)).symm
  · exact fun i _ => integral_nonneg fun x => gaussianPDFReal_nonneg _ _ _

/-- Change of variables for the density of the normal distribution. -/
theorem stdDensity_affine {L S : Matrix (Fin n) (Fin n) ℝ} (hL : L * Lᵀ = S) (hd : L.det ≠ 0)
    (m z : Fin n → ℝ) : |L.det| * normalDensity m S (m + L *ᵥ z) = stdDensity z := by
  have hu : IsUnit L.det := hd.isUnit
  have hdet : S.det = L.det ^ 2 := by rw [← hL, det_mul, det_transpose, sq]
  have hq : quad S⁻¹ (m + L *ᵥ z - m) = z ⬝ᵥ z := by
    rw [add_sub_cancel_left, quad, ← hL, Matrix.mul_inv_rev, mulVec_mulVec, Matrix.mul_assoc,
      nonsing_inv_mul _ hu, Matrix.mul_one, ← transpose_nonsing_inv, dotProduct_mulVec, vecMul_transpose,
      mulVec_mulVec, nonsing_inv_mul _ hu, one_mulVec]
  rw [normalDensity, hq, hdet, stdDensity_eq, Real.sqrt_mul (by positivity), Real.sqrt_sq_eq_abs]
  have : |L.det| ≠ 0 := abs_ne_zero.mpr hd
  field_simp

theorem affine_law {L S : Matrix (Fin n) (Fin n) ℝ} (hL : L * Lᵀ = S) (hd : L.det ≠ 0)
    (m : Fin n → ℝ) :
    (stdNormals n).map (fun z => m + L *ᵥ z) =
      volume.withDensity fun x => ENNReal.ofReal (normalDensity m S x) := by
  have hu : IsUnit L.det := hd.isUnit
  have hcont : Continuous fun z : Fin n → ℝ => m + L *ᵥ z := by fun_prop
  have hinj : Function.Injective fun z : Fin n → ℝ => m + L *ᵥ z := by
    intro z z' h
    have h1 : L *ᵥ z = L *ᵥ z' := add_left_cancel h
    have h2 := congrArg (fun v => L⁻¹ *ᵥ v) h1
    simpa [mulVec_mulVec, nonsing_inv_mul _ hu] using h2
  have hsurj : Function.Surjective fun z : Fin n → ℝ => m + L *ᵥ z := by
    intro x
    refine ⟨L⁻¹ *ᵥ (x - m), ?_⟩
    simp [mulVec_mulVec, mul_nonsing_inv _ hu]
  ext B hB
  have hpre : MeasurableSet ((fun z : Fin n → ℝ => m + L *ᵥ z) ⁻¹' B) := hcont.measurable hB
  rw [Measure.map_apply hcont.measurable hB, stdNormals_eq, withDensity_apply _ hpre,
    withDensity_apply _ hB]
  have himg : (fun z : Fin n → ℝ => m + L *ᵥ z) '' ((fun z : Fin n → ℝ => m + L *ᵥ z) ⁻¹' B) = B :=
    Set.image_preimage_eq B hsurj
  have hder : ∀ x ∈ (fun z : Fin n → ℝ => m + L *ᵥ z) ⁻¹' B,
      HasFDerivWithinAt (fun z : Fin n → ℝ => m + L *ᵥ z)
        (LinearMap.toContinuousLinearMap (Matrix.toLin' L))
        ((fun z : Fin n → ℝ => m + L *ᵥ z) ⁻¹' B) x := by
    intro x _
    have := (LinearMap.toContinuousLinearMap (Matrix.toLin' L)).hasFDerivWithinAt
      (s := (fun z : Fin n → ℝ => m + L *ᵥ z) ⁻¹' B) (x := x)
    exact this.const_add m
  have hcv := lintegral_image_eq_lintegral_abs_det_fderiv_mul (volume : Measure (Fin n → ℝ)) hpre hder
    hinj.injOn (fun x => ENNReal.ofReal (normalDensity m S x))
  rw [himg] at hcv
  rw [hcv]
  refine setLIntegral_congr_fun hpre fun z _ => ?_
  have hdet : (LinearMap.toContinuousLinearMap (Matrix.toLin' L)).det = L.det := by
    rw [ContinuousLinearMap.det]
    simp
  simp only [hdet]
  rw [← ENNReal.ofReal_mul (abs_nonneg _), stdDensity_affine hL hd]

end BFL
