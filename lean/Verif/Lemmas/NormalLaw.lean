import Verif.Spec.NormalLaw
import Verif.Spec.ExactFilter
import Verif.Props.GaussianLaw
import Verif.Props.Kalman
import Verif.Lemmas.EKParticleFilter

/-!
# Normal distributions under linear maps with noise and under Bayes' rule
-/

set_option linter.unusedSectionVars false

namespace BFL

open Matrix Spec MeasureTheory ProbabilityTheory Props
open scoped ENNReal

variable {n k : Nat}

theorem continuous_normalDensity {X : Type} [TopologicalSpace X] {u v : X → Fin n → ℝ} (hu : Continuous u)
    (hv : Continuous v) (S : Matrix (Fin n) (Fin n) ℝ) :
    Continuous fun p => normalDensity (u p) S (v p) := by
  unfold normalDensity quad
  refine Continuous.div_const (Real.continuous_exp.comp (Continuous.div_const (Continuous.neg ?_) _)) _
  exact (hv.sub hu).dotProduct (continuous_const.matrix_mulVec (hv.sub hu))

theorem measurable_density (m : Fin n → ℝ) (S : Matrix (Fin n) (Fin n) ℝ) :
    Measurable fun x => ENNReal.ofReal (normalDensity m S x) :=
  (continuous_normalDensity continuous_const continuous_id S).measurable.ennreal_ofReal

theorem lintegral_normalLaw {m : Fin n → ℝ} {S : Matrix (Fin n) (Fin n) ℝ} {F : (Fin n → ℝ) → ℝ≥0∞}
    (hF : Measurable F) : ∫⁻ x, F x ∂(normalLaw m S) = ∫⁻ x, ENNReal.ofReal (normalDensity m S x) * F x := by
  unfold normalLaw
  rw [lintegral_withDensity_eq_lintegral_mul _ (measurable_density m S) hF]
  rfl

theorem normalLaw_eq_map {m : Fin n → ℝ} {S : Matrix (Fin n) (Fin n) ℝ} (hS : PD S) :
    ∃ L : Matrix (Fin n) (Fin n) ℝ, L * Lᵀ = S ∧ normalLaw m S = (stdNormals n).map fun z => m + L *ᵥ z := by
  obtain ⟨L, hL, hd⟩ := pd_factor hS
  exact ⟨L, hL, (affine_law hL hd m).symm⟩

instance : IsProbabilityMeasure (stdNormals n) := by unfold stdNormals; infer_instance

theorem normalLaw_prob {m : Fin n → ℝ} {S : Matrix (Fin n) (Fin n) ℝ} (hS : PD S) :
    IsProbabilityMeasure (normalLaw m S) := by
  obtain ⟨L, _, h⟩ := normalLaw_eq_map (m := m) hS
  rw [h]
  exact Measure.isProbabilityMeasure_map (by fun_prop)

theorem lintegral_density {m : Fin n → ℝ} {S : Matrix (Fin n) (Fin n) ℝ} (hS : PD S) :
    ∫⁻ x, ENNReal.ofReal (normalDensity m S x) = 1 := by
  have := normalLaw_prob (m := m) hS
  have h1 := lintegral_normalLaw (m := m) (S := S) (F := fun _ => 1) measurable_const
  rw [lintegral_one, measure_univ] at h1
  simpa using h1.symm

/-- Bayes' rule for normal densities and a linear observation. -/
theorem normal_bayes {m : Fin n → ℝ} {P : Matrix (Fin n) (Fin n) ℝ} (hP : PD P)
    (H : Matrix (Fin k) (Fin n) ℝ) (c : Fin k → ℝ) {R : Matrix (Fin k) (Fin k) ℝ} (hR : PD R)
    (z : Fin k → ℝ) :
    PD (kcov P H R) ∧ ∀ x, normalDensity m P x * normalDensity (H *ᵥ x + c) R z =
      normalDensity (H *ᵥ m + c) (H * P * Hᵀ + R) z *
        normalDensity (kgain P H R *ᵥ (z - (H *ᵥ m + c)) + m) (kcov P H R) x := by
  let mo : AnalyticModel ℝ n k Unit := .noInput (fun x => H *ᵥ x + c) (fun _ => H) (fun _ => R)
  have he : mo.Evaluates none m (H *ᵥ m + c) H R := ⟨rfl, rfl, rfl⟩
  obtain ⟨f', h, hpd, _⟩ := C34_information .boost mo none z (H *ᵥ m + c) H R (KF.make m P) he hP hR
  obtain ⟨f'', h', hb⟩ := C34_bayes .boost mo none z (H *ᵥ m + c) H R (KF.make m P) he hP hR
  rw [h] at h'
  cases h'
  rw [ekf_eq (f := KF.make m P) he, calc_valid (f := KF.make m P) hP.psd hR] at h
  cases h
  refine ⟨hpd, fun x => ?_⟩
  have e : H *ᵥ x + c = H *ᵥ m + c + H *ᵥ (x - m) := by
    rw [mulVec_sub]; abel
  rw [e]
  exact hb x

theorem propagated_pd {P : Matrix (Fin n) (Fin n) ℝ} (hP : PD P) (H : Matrix (Fin k) (Fin n) ℝ)
    {R : Matrix (Fin k) (Fin k) ℝ} (hR : PD R) : PD (H * P * Hᵀ + R) :=
  innovCov_pd (H := H) hP.psd hR

/-- A linear move with normal noise takes a normal distribution to a normal distribution. -/
theorem normalLaw_bind {m : Fin n → ℝ} {P : Matrix (Fin n) (Fin n) ℝ} (hP : PD P)
    (A : Matrix (Fin k) (Fin n) ℝ) (b : Fin k → ℝ) {Q : Matrix (Fin k) (Fin k) ℝ} (hQ : PD Q)
    {κ : Kernel (Fin n → ℝ) (Fin k → ℝ)} (hκ : ∀ x, κ x = normalLaw (A *ᵥ x + b) Q) :
    (normalLaw m P).bind κ = normalLaw (A *ᵥ m + b) (A * P * Aᵀ + Q) := by
  apply Measure.ext_of_lintegral
  intro F hF
  rw [Measure.lintegral_bind κ.measurable.aemeasurable hF.aemeasurable,
    lintegral_normalLaw (hF.lintegral_kernel), lintegral_normalLaw hF]
  simp only [hκ, lintegral_normalLaw hF]
  have hj : Measurable fun p : (Fin n → ℝ) × (Fin k → ℝ) =>
      ENNReal.ofReal (normalDensity (A *ᵥ p.1 + b) Q p.2) * F p.2 := by
    refine Measurable.mul (Continuous.measurable ?_).ennreal_ofReal (hF.comp measurable_snd)
    exact continuous_normalDensity (by fun_prop) continuous_snd Q
  have e1 : ∀ x, ENNReal.ofReal (normalDensity m P x) *
      ∫⁻ y, ENNReal.ofReal (normalDensity (A *ᵥ x + b) Q y) * F y =
      ∫⁻ y, ENNReal.ofReal (normalDensity m P x) *
        (ENNReal.ofReal (normalDensity (A *ᵥ x + b) Q y) * F y) := by
    intro x
    rw [lintegral_const_mul]
    exact (measurable_density _ _).mul hF
  simp only [e1]
  rw [lintegral_lintegral_swap
    (((measurable_density m P).comp measurable_fst).mul hj).aemeasurable]
  refine lintegral_congr fun y => ?_
  obtain ⟨hpd, hb⟩ := normal_bayes (m := m) hP A b hQ y
  have e2 : ∀ x, ENNReal.ofReal (normalDensity m P x) *
      (ENNReal.ofReal (normalDensity (A *ᵥ x + b) Q y) * F y) =
      ENNReal.ofReal (normalDensity (A *ᵥ m + b) (A * P * Aᵀ + Q) y) * F y *
        ENNReal.ofReal (normalDensity (kgain P A Q *ᵥ (y - (A *ᵥ m + b)) + m) (kcov P A Q) x) := by
    intro x
    rw [← mul_assoc, ← ENNReal.ofReal_mul (normalDensity_pos hP _ _).le, hb,
      ENNReal.ofReal_mul (normalDensity_pos (propagated_pd hP A hQ) _ _).le]
    ring
  simp only [e2]
  rw [lintegral_const_mul _ (measurable_density _ _), lintegral_density hpd, mul_one]

/-- Bayes' rule for a normal prior and a linear measurement with normal noise. -/
theorem normalLaw_bayes {m : Fin n → ℝ} {P : Matrix (Fin n) (Fin n) ℝ} (hP : PD P)
    (H : Matrix (Fin k) (Fin n) ℝ) (c : Fin k → ℝ) {R : Matrix (Fin k) (Fin k) ℝ} (hR : PD R)
    (z : Fin k → ℝ) {κ : Kernel (Fin n → ℝ) (Fin n → ℝ)} {π : Measure (Fin n → ℝ)}
    (hκ : π.bind κ = normalLaw m P) {ℓ : (Fin n → ℝ) → ℝ≥0∞}
    (hℓ : ∀ x, ℓ x = ENNReal.ofReal (normalDensity (H *ᵥ x + c) R z)) :
    evidenceOf κ ℓ π = ENNReal.ofReal (normalDensity (H *ᵥ m + c) (H * P * Hᵀ + R) z) ∧
    bayesStep κ ℓ π =
      normalLaw (kgain P H R *ᵥ (z - (H *ᵥ m + c)) + m) (kcov P H R) := by
  obtain rfl : ℓ = fun x => ENNReal.ofReal (normalDensity (H *ᵥ x + c) R z) := funext hℓ
  have hm : Measurable fun x : Fin n → ℝ => ENNReal.ofReal (normalDensity (H *ᵥ x + c) R z) := by
    refine (Continuous.measurable ?_).ennreal_ofReal
    exact continuous_normalDensity (by fun_prop) continuous_const R
  obtain ⟨hpd, hb⟩ := normal_bayes (m := m) hP H c hR z
  have hz := normalDensity_pos (propagated_pd hP H hR) (H *ᵥ m + c) z
  have e : ∀ x, ENNReal.ofReal (normalDensity m P x) * ENNReal.ofReal (normalDensity (H *ᵥ x + c) R z) =
      ENNReal.ofReal (normalDensity (H *ᵥ m + c) (H * P * Hᵀ + R) z) *
        ENNReal.ofReal (normalDensity (kgain P H R *ᵥ (z - (H *ᵥ m + c)) + m) (kcov P H R) x) := by
    intro x
    rw [← ENNReal.ofReal_mul (normalDensity_pos hP _ _).le, hb, ENNReal.ofReal_mul hz.le]
  have h1 : evidenceOf κ (fun x => ENNReal.ofReal (normalDensity (H *ᵥ x + c) R z)) π =
      ENNReal.ofReal (normalDensity (H *ᵥ m + c) (H * P * Hᵀ + R) z) := by
    unfold evidenceOf
    rw [hκ, lintegral_normalLaw hm]
    simp only [e]
    rw [lintegral_const_mul _ (measurable_density _ _), lintegral_density hpd, mul_one]
  refine ⟨h1, ?_⟩
  apply Measure.ext_of_lintegral
  intro F hF
  unfold bayesStep
  rw [h1, hκ, lintegral_smul_measure, lintegral_withDensity_eq_lintegral_mul _ hm hF,
    lintegral_normalLaw (hm.mul hF), lintegral_normalLaw hF]
  simp only [Pi.mul_apply, ← mul_assoc, e]
  simp only [mul_assoc]
  have hmF : Measurable fun x => ENNReal.ofReal (normalDensity (kgain P H R *ᵥ (z - (H *ᵥ m + c)) + m)
      (kcov P H R) x) * F x := (measurable_density _ _).mul hF
  rw [lintegral_const_mul _ hmF, smul_eq_mul, ← mul_assoc,
    ENNReal.inv_mul_cancel (by simpa using hz) ENNReal.ofReal_ne_top, one_mul]

/-- Moments of the normal distribution. -/
theorem normalLaw_moments {m : Fin n → ℝ} {S : Matrix (Fin n) (Fin n) ℝ} (hS : PD S) :
    (∀ i, Integrable (fun y : Fin n → ℝ => y i) (normalLaw m S) ∧ ∫ y, y i ∂(normalLaw m S) = m i) ∧
    ∀ i j, Integrable (fun y : Fin n → ℝ => y i * y j) (normalLaw m S) ∧
      ∫ y, y i * y j ∂(normalLaw m S) = m i * m j + S i j := by
  obtain ⟨L, hL, h⟩ := normalLaw_eq_map (m := m) hS
  have hmap : Measurable fun z : Fin n → ℝ => m + L *ᵥ z := by fun_prop
  have hc : ∀ i, MeasurePreserving (fun z : Fin n → ℝ => z i) (stdNormals n) (gaussianReal 0 1) :=
    fun i => measurePreserving_eval _ i
  have hL2 : ∀ i, MemLp (fun z : Fin n → ℝ => z i) 2 (stdNormals n) := fun i =>
    (memLp_id_gaussianReal 2).comp_measurePreserving (hc i)
  have hi1 : ∀ i, Integrable (fun z : Fin n → ℝ => z i) (stdNormals n) := fun i =>
    (hL2 i).integrable (by norm_num)
  have hi2 : ∀ i j, Integrable (fun z : Fin n → ℝ => z i * z j) (stdNormals n) := fun i j =>
    (hL2 i).integrable_mul (hL2 j)
  have h1 : ∀ i, ∫ z, z i ∂(stdNormals n) = 0 := by
    intro i
    have e := integral_map (μ := stdNormals n) (φ := fun z : Fin n → ℝ => z i) (f := fun x : ℝ => x)
      (measurable_pi_apply i).aemeasurable measurable_id.aestronglyMeasurable
    rw [(hc i).map_eq, integral_id_gaussianReal] at e
    exact e.symm
  have h2 : ∀ i j, ∫ z, z i * z j ∂(stdNormals n) = if i = j then 1 else 0 := by
    intro i j
    split
    · rename_i hij
      subst hij
      have e := integral_map (μ := stdNormals n) (φ := fun z : Fin n → ℝ => z i) (f := fun x : ℝ => x * x)
        (measurable_pi_apply i).aemeasurable (by fun_prop)
      have hv := variance_id_gaussianReal (μ := 0) (v := 1)
      rw [variance_eq_sub (memLp_id_gaussianReal 2)] at hv
      simp only [id_eq, integral_id_gaussianReal, Pi.pow_apply] at hv
      rw [(hc i).map_eq] at e
      rw [← e]
      simp only [← sq]
      simpa using hv
    · rename_i hij
      have hind : iIndepFun (fun (i : Fin n) (z : Fin n → ℝ) => z i) (stdNormals n) :=
        iIndepFun_pi (μ := fun _ : Fin n => gaussianReal 0 1) (X := fun _ x => x)
          fun _ => measurable_id.aemeasurable
      have := (hind.indepFun hij).integral_fun_mul_eq_mul_integral
        (hi1 i).aestronglyMeasurable (hi1 j).aestronglyMeasurable
      rw [this, h1, zero_mul]
  have hlin : ∀ i, Integrable (fun z : Fin n → ℝ => (L *ᵥ z) i) (stdNormals n) ∧
      ∫ z, (L *ᵥ z) i ∂(stdNormals n) = 0 := by
    intro i
    simp only [mulVec, dotProduct]
    refine ⟨integrable_finsetSum _ fun a _ => (hi1 a).const_mul _, ?_⟩
    rw [integral_finsetSum _ fun a _ => (hi1 a).const_mul _]
    refine Finset.sum_eq_zero fun a _ => ?_
    rw [integral_const_mul, h1, mul_zero]
  have hquad : ∀ i j, Integrable (fun z : Fin n → ℝ => (L *ᵥ z) i * (L *ᵥ z) j) (stdNormals n) ∧
      ∫ z, (L *ᵥ z) i * (L *ᵥ z) j ∂(stdNormals n) = S i j := by
    intro i j
    have e : (fun z : Fin n → ℝ => (L *ᵥ z) i * (L *ᵥ z) j) =
        fun z => ∑ a, ∑ b, L i a * L j b * (z a * z b) := by
      funext z
      simp only [mulVec, dotProduct]
      rw [Finset.sum_mul_sum]
      refine Finset.sum_congr rfl fun a _ => Finset.sum_congr rfl fun b _ => ?_
      ring
    have hab : ∀ a b, Integrable (fun z : Fin n → ℝ => L i a * L j b * (z a * z b)) (stdNormals n) :=
      fun a b => (hi2 a b).const_mul _
    have ha : ∀ a, Integrable (fun z : Fin n → ℝ => ∑ b, L i a * L j b * (z a * z b)) (stdNormals n) :=
      fun a => integrable_finsetSum _ fun b _ => hab a b
    rw [e]
    refine ⟨integrable_finsetSum _ fun a _ => ha a, ?_⟩
    rw [integral_finsetSum _ fun a _ => ha a, ← hL, mul_apply]
    refine Finset.sum_congr rfl fun a _ => ?_
    rw [integral_finsetSum _ fun b _ => hab a b]
    simp only [integral_const_mul, h2, mul_ite, mul_one, mul_zero, Finset.sum_ite_eq, Finset.mem_univ, if_true,
      transpose_apply]
  refine ⟨fun i => ?_, fun i j => ?_⟩
  · have hm : AEStronglyMeasurable (fun y : Fin n → ℝ => y i) ((stdNormals n).map fun z => m + L *ᵥ z) :=
      (measurable_pi_apply i).aestronglyMeasurable
    rw [h, integrable_map_measure hm hmap.aemeasurable, integral_map hmap.aemeasurable hm]
    refine ⟨(integrable_const (m i)).add (hlin i).1, ?_⟩
    simp only [Pi.add_apply]
    rw [integral_add (integrable_const _) (hlin i).1, (hlin i).2]
    simp
  · have hm : AEStronglyMeasurable (fun y : Fin n → ℝ => y i * y j)
        ((stdNormals n).map fun z => m + L *ᵥ z) :=
      ((measurable_pi_apply i).mul (measurable_pi_apply j)).aestronglyMeasurable
    have e : (fun z : Fin n → ℝ => (m + L *ᵥ z) i * (m + L *ᵥ z) j) = fun z =>
        m i * m j + (m i * (L *ᵥ z) j + (m j * (L *ᵥ z) i + (L *ᵥ z) i * (L *ᵥ z) j)) := by
      funext z
      simp only [Pi.add_apply]
      ring
    have k1 := (hlin j).1.const_mul (m i)
    have k2 := (hlin i).1.const_mul (m j)
    have k3 : Integrable (fun z : Fin n → ℝ => m j * (L *ᵥ z) i + (L *ᵥ z) i * (L *ᵥ z) j) (stdNormals n) :=
      k2.add (hquad i j).1
    have k4 : Integrable (fun z : Fin n → ℝ => m i * (L *ᵥ z) j +
        (m j * (L *ᵥ z) i + (L *ᵥ z) i * (L *ᵥ z) j)) (stdNormals n) := k1.add k3
    rw [h, integrable_map_measure hm hmap.aemeasurable, integral_map hmap.aemeasurable hm]
    have hcomp : ((fun y : Fin n → ℝ => y i * y j) ∘ fun z => m + L *ᵥ z) =
        fun z : Fin n → ℝ => (m + L *ᵥ z) i * (m + L *ᵥ z) j := rfl
    rw [hcomp, e]
    refine ⟨(integrable_const _).add k4, ?_⟩
    have t1 : ∫ z, m i * (L *ᵥ z) j ∂(stdNormals n) = 0 := by rw [integral_const_mul, (hlin j).2, mul_zero]
    have t2 : ∫ z, m j * (L *ᵥ z) i ∂(stdNormals n) = 0 := by rw [integral_const_mul, (hlin i).2, mul_zero]
    rw [integral_add (integrable_const _) k4, integral_add k1 k3, integral_add k2 (hquad i j).1, t1, t2,
      (hquad i j).2]
    simp

end BFL
