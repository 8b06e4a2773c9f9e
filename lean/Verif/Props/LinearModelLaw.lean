import Verif.Props.LinearConditional
import Verif.Props.GaussianLaw

/-!
# C57: linear models simulate the distribution whose density they report
-/

set_option linter.unusedSectionVars false

namespace BFL.Props

open Matrix Spec MeasureTheory ProbabilityTheory

variable {n : Nat}

/-- The density of a conditional Gaussian, for the mean and covariance its virtual functions return. -/
theorem conditional_density (be : Backend) {s : Matrix (Fin n) (Fin n) ℝ} (hs : PD s)
    (m x : Fin n → ℝ) :
    ConditionalGaussian.probabilityGet be m s x = .ok (normalDensity m s x) := by
  have hd := (pd_det_pos hs).ne'
  have hq : 0 ≤ (x - m) ⬝ᵥ (s⁻¹ *ᵥ (x - m)) := hs.inv.psd.2 _
  simp only [ConditionalGaussian.probabilityGet, Outcome.ok_bind,
    be.symInverse_of_det hs.1 hd, be.determinant_of_det s hd, mkProb, if_pos hq,
    Gaussian.densityOf_pd hs m x]

/-- A sample of a conditional Gaussian. -/
theorem conditional_sample (m : Fin n → ℝ) (s : Matrix (Fin n) (Fin n) ℝ) {me : SampleMthd}
    (hme : me = .default ∨ me = .cholesky) (old z : Fin n → ℝ) :
    ConditionalGaussian.sampleOne m s me old z =
      ((cholesky Real.sqrt machEps s).1, (cholesky Real.sqrt machEps s).2 *ᵥ z + m) := by
  rcases hme with rfl | rfl <;> rfl

/-- The law of a sample of a conditional Gaussian. -/
theorem conditional_law (m : Fin n → ℝ) (s : Matrix (Fin n) (Fin n) ℝ)
    (hs : PSD (s - machEps • (1 : Matrix (Fin n) (Fin n) ℝ))) {me : SampleMthd}
    (hme : me = .default ∨ me = .cholesky) (old : Fin n → ℝ) :
    PD s ∧ (∀ z, (ConditionalGaussian.sampleOne m s me old z).1 = true) ∧
    (Measure.pi fun _ : Fin n => gaussianReal 0 1).map
        (fun z => (ConditionalGaussian.sampleOne m s me old z).2) =
      volume.withDensity fun x => ENNReal.ofReal (normalDensity m s x) := by
  obtain ⟨L, hL, hlow, hpos, hfac⟩ := C42_definite realSqrt_isSqrt machEps_pos machEps_le hs
  have hpd : PD s := by
    refine ⟨?_, fun x hx => ?_⟩
    · rw [← hfac, transpose_mul, transpose_transpose]
    · have h4 := hs.2 x
      rw [sub_mulVec, dotProduct_sub, smul_mulVec, one_mulVec, dotProduct_smul, smul_eq_mul] at h4
      have h5 : 0 < x ⬝ᵥ x := by
        have := dotProduct_self_star_pos_iff (v := x) |>.mpr hx
        simpa using this
      have := mul_pos machEps_pos h5
      linarith
  have hdet : L.det ≠ 0 := by
    intro h0
    have := pd_det_pos hpd
    rw [← hfac, det_mul, det_transpose, h0, mul_zero] at this
    exact lt_irrefl _ this
  refine ⟨hpd, fun z => ?_, ?_⟩
  · rw [conditional_sample m s hme, hL]
  · simp only [conditional_sample m s hme, hL]
    have := affine_law hfac hdet m
    simpa only [stdNormals, add_comm] using this

section
variable {a b : Nat}

theorem from_condition (be : Backend) {c : Outcome (LinCond ℝ n)} {p p' : LinCond ℝ n}
    {mean : Fin n → ℝ} {sigma : Matrix (Fin n) (Fin n) ℝ} (hc : c = .ok p)
    (hp : p.expectedValueGet = .ok (mean, p')) (hs : p'.sigma = sigma) :
    (∀ y, LinModel.probabilityFrom be c y = ConditionalGaussian.probabilityGet be mean sigma y) ∧
    ∀ me old z, LinModel.simulateFrom c me old z =
      .ok (ConditionalGaussian.sampleOne mean sigma me old z).2 := by
  constructor
  · intro y
    simp only [LinModel.probabilityFrom, hc, hp, Outcome.ok_bind, LinCond.covarianceGet, hs]
  · intro me old z
    simp only [LinModel.simulateFrom, hc, hp, Outcome.ok_bind, LinCond.covarianceGet, hs,
      Outcome.pure_eq]

/-- **C57.** For a linear model with input, after any history: `ProbabilityGet(y,x,u)` is the normal
density with the mean `PredictionGet(u,x)` and the covariance `CovarianceGet(u,x)`, and `Simulate(x,u)`
draws from exactly that distribution if the random numbers are independent standard normal ones. -/
theorem C57_with_input (be : Backend) (m : LinModel ℝ n) (A : Matrix (Fin n) (Fin a) ℝ)
    (B : Matrix (Fin n) (Fin b) ℝ) (mu : Fin n → ℝ) (sigma : Matrix (Fin n) (Fin n) ℝ)
    (h : LinearWithInput m A B mu sigma)
    (hs : PSD (sigma - machEps • (1 : Matrix (Fin n) (Fin n) ℝ))) (me : SampleMthd)
    (hme : me = .default ∨ me = .cholesky) (x : Fin a → ℝ) (u : Fin b → ℝ) :
    ∃ (mean : Fin n → ℝ) (simulate : (Fin n → ℝ) → (Fin n → ℝ)) (density : (Fin n → ℝ) → ℝ),
      (∃ m', m.predictionGet ⟨b, u⟩ ⟨a, x⟩ = .ok (mean, m')) ∧
      (∃ m', m.covGet ⟨b, u⟩ ⟨a, x⟩ = .ok (sigma, m')) ∧
      (∀ y, LinModel.probabilityFrom be (m.conditionBoth ⟨a, x⟩ ⟨b, u⟩) y = .ok (density y)) ∧
      (∀ y, density y = normalDensity mean sigma y) ∧
      (∀ old z, LinModel.simulateFrom (m.conditionBoth ⟨a, x⟩ ⟨b, u⟩) me old z =
        .ok (simulate z)) ∧
      (Measure.pi fun _ : Fin n => gaussianReal 0 1).map simulate =
        volume.withDensity fun y => ENNReal.ofReal (density y) := by
  obtain ⟨p, -, e, w, hn, hA, hB, hx, hu, hmu, hsig⟩ := condition_two h ⟨b, u⟩ ⟨a, x⟩
  obtain ⟨p', hp, hsame⟩ := mean_two hn hA hB hx hu
  rw [hmu] at hp
  have hs' : p'.sigma = sigma := hsame.2.2.2.2.symm.trans hsig
  obtain ⟨h1, h2⟩ := from_condition be e hp hs'
  obtain ⟨hpred, -, hcov, -, -⟩ := C44_prediction m A B mu sigma h u x
  obtain ⟨hpd, -, hlaw⟩ := conditional_law (A *ᵥ x + B *ᵥ u + mu) sigma hs hme 0
  refine ⟨A *ᵥ x + B *ᵥ u + mu, _, normalDensity (A *ᵥ x + B *ᵥ u + mu) sigma, hpred, hcov,
    fun y => ?_, fun y => rfl, fun old z => ?_, hlaw⟩
  · rw [h1, conditional_density be hpd]
  · rw [h2, conditional_sample _ _ hme, conditional_sample _ _ hme]

/-- **C57.** The same for a model without input. -/
theorem C57_no_input (be : Backend) (m : LinModel ℝ n) (A : Matrix (Fin n) (Fin a) ℝ)
    (mu : Fin n → ℝ) (sigma : Matrix (Fin n) (Fin n) ℝ) (h : LinearNoInput m A mu sigma)
    (hs : PSD (sigma - machEps • (1 : Matrix (Fin n) (Fin n) ℝ))) (me : SampleMthd)
    (hme : me = .default ∨ me = .cholesky) (x : Fin a → ℝ) (u : DVec ℝ) :
    ∃ (mean : Fin n → ℝ) (simulate : (Fin n → ℝ) → (Fin n → ℝ)) (density : (Fin n → ℝ) → ℝ),
      (∃ m', m.predictionGet u ⟨a, x⟩ = .ok (mean, m')) ∧
      (∃ m', m.covGet u ⟨a, x⟩ = .ok (sigma, m')) ∧
      (∀ y, LinModel.probabilityFrom be (m.conditionState ⟨a, x⟩) y = .ok (density y)) ∧
      (∀ y, density y = normalDensity mean sigma y) ∧
      (∀ old z, LinModel.simulateFrom (m.conditionState ⟨a, x⟩) me old z = .ok (simulate z)) ∧
      (Measure.pi fun _ : Fin n => gaussianReal 0 1).map simulate =
        volume.withDensity fun y => ENNReal.ofReal (density y) := by
  obtain ⟨p, -, e, w, hn, hA, hx, hmu, hsig⟩ := condition_one h u ⟨a, x⟩
  obtain ⟨p', hp, hsame⟩ := mean_one hn hA hx
  rw [hmu] at hp
  have hs' : p'.sigma = sigma := hsame.2.2.2.2.symm.trans hsig
  obtain ⟨h1, h2⟩ := from_condition be e hp hs'
  obtain ⟨hpred, -, hcov, -⟩ := C44_prediction_no_input m A mu sigma h u x
  obtain ⟨hpd, -, hlaw⟩ := conditional_law (A *ᵥ x + mu) sigma hs hme 0
  refine ⟨A *ᵥ x + mu, _, normalDensity (A *ᵥ x + mu) sigma, hpred, hcov, fun y => ?_,
    fun y => rfl, fun old z => ?_, hlaw⟩
  · rw [h1, conditional_density be hpd]
  · rw [h2, conditional_sample _ _ hme, conditional_sample _ _ hme]

/-- Asking a model with input for its behaviour without one, or the other way round, is rejected. -/
theorem C57_overloads (be : Backend) (m : LinModel ℝ n) (A : Matrix (Fin n) (Fin a) ℝ)
    (mu : Fin n → ℝ) (sigma : Matrix (Fin n) (Fin n) ℝ) :
    (∀ B : Matrix (Fin n) (Fin b) ℝ, LinearWithInput m A B mu sigma → ∀ x me old z,
      LinModel.probabilityFrom be (m.conditionState x) z = .abort ∧
      LinModel.simulateFrom (m.conditionState x) me old z = .abort) ∧
    (LinearNoInput m A mu sigma → ∀ x u me old z,
      LinModel.probabilityFrom be (m.conditionBoth x u) z = .abort ∧
      LinModel.simulateFrom (m.conditionBoth x u) me old z = .abort) := by
  constructor
  · intro B h x me old z
    have : m.conditionState x = .abort := by
      simp only [LinModel.conditionState]
      rw [cassert_false (by rw [h.state.2.2.1]; decide)]
      rfl
    rw [this]
    exact ⟨rfl, rfl⟩
  · intro h x u me old z
    have : m.conditionBoth x u = .abort := by
      simp only [LinModel.conditionBoth]
      rw [cassert_false (by rw [h.state.2.2.1]; decide)]
      rfl
    rw [this]
    exact ⟨rfl, rfl⟩

/-- `Simulate` does not report failure: with a sampling method that is not implemented it returns the
value of a new sample, whatever the model is, and with a covariance that has a negative entry on the
diagonal it returns the mean. -/
theorem C57_silent_failure (m : LinModel ℝ n) (A : Matrix (Fin n) (Fin a) ℝ) (mu : Fin n → ℝ)
    (sigma : Matrix (Fin n) (Fin n) ℝ) (h : LinearNoInput m A mu sigma) (x : Fin a → ℝ)
    (old z : Fin n → ℝ) :
    LinModel.simulateFrom (m.conditionState ⟨a, x⟩) .boxmuller old z = .ok old ∧
    (sigmaᵀ = sigma → (∃ j, sigma j j ≤ -machEps) →
      LinModel.simulateFrom (m.conditionState ⟨a, x⟩) .default old z = .ok (A *ᵥ x + mu)) := by
  obtain ⟨p, -, e, w, hn, hA, hx, hmu, hsig⟩ := condition_one h ⟨0, 0⟩ ⟨a, x⟩
  obtain ⟨p', hp, hsame⟩ := mean_one hn hA hx
  rw [hmu] at hp
  have hs' : p'.sigma = sigma := hsame.2.2.2.2.symm.trans hsig
  obtain ⟨-, h2⟩ := from_condition .boost e hp hs'
  refine ⟨by rw [h2]; rfl, fun hsy hj => ?_⟩
  obtain ⟨j, hj⟩ := hj
  rw [h2, conditional_sample _ _ (Or.inl rfl),
    C42_negative realSqrt_isSqrt machEps_pos machEps_le hsy j hj]
  simp

/-- A one-dimensional model with input: `y = 2 x + 5 u + 1 + w`, `w` of variance 4. -/
noncomputable def lineModel : LinModel ℝ 1 :=
  ⟨⟨2, [⟨1, 0⟩, ⟨1, 0⟩], [⟨1, 1, !![2]⟩, ⟨1, 1, !![5]⟩], ![1], !![4], none, none⟩, false⟩

theorem lineModel_linear : LinearWithInput lineModel (!![2] : Matrix (Fin 1) (Fin 1) ℝ)
    (!![5] : Matrix (Fin 1) (Fin 1) ℝ) ![1] !![4] :=
  ⟨⟨1, 1, !![2]⟩, ⟨1, 1, !![5]⟩, ![1], !![4], _, _, [], rfl, rfl, rfl, rfl, rfl, rfl, rfl⟩

example (x u : Fin 1 → ℝ) := C57_with_input .boost lineModel _ _ _ _ lineModel_linear four_psd
  .default (Or.inl rfl) x u

end

end BFL.Props
