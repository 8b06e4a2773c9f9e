import Verif.Lemmas.GaussianLaw
import Verif.Props.Gaussian
import Mathlib.Analysis.Matrix.Order

/-!
# C54: the sampler of a `Gaussian` and its density describe the same distribution
-/

set_option linter.unusedSectionVars false

namespace BFL.Props

open Matrix Spec MeasureTheory ProbabilityTheory
open scoped MatrixOrder

variable {n : Nat}

/-- **C54.** After any history of calls, if the covariance set last has no eigenvalue below the
machine epsilon and the random numbers are independent standard normal ones, the samples follow
exactly the distribution whose density `ProbabilityGet` reports. -/
theorem C54_law (be : Backend) (m : Fin n → ℝ) (s : Matrix (Fin n) (Fin n) ℝ)
    (ops : List (Gaussian.Op n)) (g : Gaussian n)
    (h : Gaussian.run be ops (Gaussian.make m s) = .ok g)
    (hs : PSD (lastCov s ops - machEps • (1 : Matrix (Fin n) (Fin n) ℝ))) (me : SampleMthd)
    (hme : me = .default ∨ me = .cholesky) :
    ∃ (sample : (Fin n → ℝ) → (Fin n → ℝ)) (density : (Fin n → ℝ) → ℝ),
      (∀ old z, g.sampleOne me old z = .ok (true, sample z)) ∧
      (∀ x, ∃ g', g.probabilityGet be x = .ok (density x, g')) ∧
      (Measure.pi fun _ : Fin n => gaussianReal 0 1).map sample =
        volume.withDensity fun x => ENNReal.ofReal (density x) := by
  obtain ⟨h1, h2, h3⟩ := run_state be ops (g := Gaussian.make m s)
    (fun h => by simp [Gaussian.make] at h) rfl rfl h
  obtain ⟨L, hL, hlow, hpos, hfac⟩ := C42_definite realSqrt_isSqrt machEps_pos machEps_le hs
  have hpd : PD (lastCov s ops) := by
    refine ⟨?_, fun x hx => ?_⟩
    · rw [← hfac, transpose_mul, transpose_transpose]
    · have h4 := hs.2 x
      rw [sub_mulVec, dotProduct_sub, smul_mulVec, one_mulVec, dotProduct_smul, smul_eq_mul] at h4
      have h5 : 0 < x ⬝ᵥ x := by
        have := dotProduct_self_star_pos_iff (v := x) |>.mpr hx
        simpa using this
      have := mul_pos machEps_pos h5
      linarith
  have hdet : L.det ≠ 0 := by
    intro h0
    have := pd_det_pos hpd
    rw [← hfac, det_mul, det_transpose, h0, mul_zero] at this
    exact lt_irrefl _ this
  refine ⟨fun z => lastMean m ops + L *ᵥ z, normalDensity (lastMean m ops) (lastCov s ops),
    fun old z => ?_, fun x => ?_, affine_law hfac hdet _⟩
  · rw [Gaussian.sampleOne_ok h2 h3 hme, hL, add_comm]
  · have e := Gaussian.probabilityGet_coherent h1 h2 h3 x
    obtain ⟨g0, h0⟩ := Gaussian.probabilityGet_make be hpd (lastMean m ops) x
    rw [h0] at e
    cases hq : g.probabilityGet be x with
    | ok r =>
      rw [hq] at e
      have e1 : r.1 = normalDensity (lastMean m ops) (lastCov s ops) x := Outcome.ok.inj e
      exact ⟨r.2, by rw [← e1]⟩
    | abort => rw [hq] at e; cases e
    | ub => rw [hq] at e; cases e

example : ∃ (sample : (Fin 1 → ℝ) → (Fin 1 → ℝ)) (density : (Fin 1 → ℝ) → ℝ),
    (∀ old z, (Gaussian.make ![3] !![4]).sampleOne .default old z = .ok (true, sample z)) ∧
    (∀ x, ∃ g', (Gaussian.make ![3] !![4]).probabilityGet .boost x = .ok (density x, g')) ∧
    (Measure.pi fun _ : Fin 1 => gaussianReal 0 1).map sample =
      volume.withDensity fun x => ENNReal.ofReal (density x) :=
  C54_law .boost ![3] !![4] [] _ rfl four_psd .default (Or.inl rfl)

/-- A positive definite matrix is the product of an invertible matrix and its transpose. -/
theorem pd_factor {s : Matrix (Fin n) (Fin n) ℝ} (hs : PD s) :
    ∃ L : Matrix (Fin n) (Fin n) ℝ, L * Lᵀ = s ∧ L.det ≠ 0 := by
  have hp := (pd_posDef' hs).posSemidef.nonneg
  obtain ⟨B, hB⟩ := CStarAlgebra.nonneg_iff_eq_star_mul_self.mp hp
  have hB' : Bᵀ * Bᵀᵀ = s := by
    rw [transpose_transpose, hB, star_eq_conjTranspose, conjTranspose_eq_transpose_of_trivial]
  refine ⟨Bᵀ, hB', fun h0 => ?_⟩
  have := pd_det_pos hs
  rw [← hB', det_mul, h0, zero_mul] at this
  exact lt_irrefl _ this

/-- **C54.** For every positive definite covariance the density that `ProbabilityGet` reports
integrates to one over the whole space. -/
theorem C54_total_mass (be : Backend) (m : Fin n → ℝ) (s : Matrix (Fin n) (Fin n) ℝ) (hs : PD s) :
    ∃ density : (Fin n → ℝ) → ℝ,
      (∀ x, ∃ g', (Gaussian.make m s).probabilityGet be x = .ok (density x, g')) ∧
      ∫⁻ x, ENNReal.ofReal (density x) = 1 := by
  refine ⟨normalDensity m s, Gaussian.probabilityGet_make be hs m, ?_⟩
  obtain ⟨L, hL, hd⟩ := pd_factor hs
  have hlaw := affine_law hL hd m
  have h1 := congrArg (fun μ : Measure (Fin n → ℝ) => μ Set.univ) hlaw
  simp only [withDensity_apply _ MeasurableSet.univ, Measure.restrict_univ] at h1
  rw [← h1, Measure.map_apply (by fun_prop) MeasurableSet.univ, Set.preimage_univ, stdNormals]
  exact measure_univ

example : ∃ density : (Fin 1 → ℝ) → ℝ,
    (∀ x, ∃ g', (Gaussian.make ![3] !![4]).probabilityGet .eigen x = .ok (density x, g')) ∧
    ∫⁻ x, ENNReal.ofReal (density x) = 1 :=
  C54_total_mass .eigen ![3] !![4] (one_pd (by norm_num))

end BFL.Props
