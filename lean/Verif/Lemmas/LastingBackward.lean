import Verif.Spec.Lasting
import Mathlib.Probability.Kernel.Composition.IntegralCompProd
import Mathlib.MeasureTheory.Integral.Bochner.ContinuousLinearMap

/-!
# Looking back from the last update

`ahead κ L f x` is the mean of the likelihood times `f` after one update from the state `x`. Going back from the
last update, the ratio of the results for two functions depends less and less on the state.
-/

set_option linter.unusedSectionVars false

namespace BFL

open MeasureTheory ProbabilityTheory Spec
open scoped ENNReal

variable {X : Type} [MeasurableSpace X]

/-- Mean of likelihood times `f` after the update. -/
noncomputable def ahead (κ : Kernel X X) (L : X → ℝ) (f : X → ℝ) (x : X) : ℝ := ∫ y, L y * f y ∂(κ x)

theorem measurable_ahead {κ : Kernel X X} [IsMarkovKernel κ] {L f : X → ℝ} (hL : Measurable L) (hf : Measurable f) :
    Measurable (ahead κ L f) := by
  have h : StronglyMeasurable fun y => L y * f y := (hL.mul hf).stronglyMeasurable
  exact h.integral_kernel.measurable

theorem integrable_bounded {μ : Measure X} [IsFiniteMeasure μ] {f : X → ℝ} (hf : Measurable f) {C : ℝ}
    (hC : ∀ x, |f x| ≤ C) : Integrable f μ :=
  Integrable.of_bound hf.aestronglyMeasurable C (Filter.Eventually.of_forall fun x => by rw [Real.norm_eq_abs]; exact hC x)

theorem abs_mul_le' {L f : X → ℝ} {B C : ℝ} (hL : ∀ x, 0 ≤ L x ∧ L x ≤ B) (hf : ∀ x, |f x| ≤ C) (x : X) :
    |L x * f x| ≤ B * C := by
  rw [abs_mul, abs_of_nonneg (hL x).1]
  exact mul_le_mul (hL x).2 (hf x) (abs_nonneg _) ((hL x).1.trans (hL x).2)

/-- The mean over the distribution after the update. -/
theorem integral_bayesStep {κ : Kernel X X} [IsMarkovKernel κ] {L : X → ℝ} (hL : Measurable L) {b B : ℝ} (hb : 0 < b)
    (hLb : ∀ y, b ≤ L y ∧ L y ≤ B) {π : Measure X} [IsProbabilityMeasure π] {f : X → ℝ} (hf : Measurable f) {C : ℝ}
    (hC : ∀ x, |f x| ≤ C) :
    b ≤ (evidenceOf κ (fun y => ENNReal.ofReal (L y)) π).toReal ∧
    evidenceOf κ (fun y => ENNReal.ofReal (L y)) π ≠ 0 ∧ evidenceOf κ (fun y => ENNReal.ofReal (L y)) π ≠ ∞ ∧
    (∫ x, ahead κ L (fun _ => 1) x ∂π) = (evidenceOf κ (fun y => ENNReal.ofReal (L y)) π).toReal ∧
    ∫ y, f y ∂(bayesStep κ (fun y => ENNReal.ofReal (L y)) π) =
      (∫ x, ahead κ L f x ∂π) / ∫ x, ahead κ L (fun _ => 1) x ∂π := by
  have hL0 : ∀ y, 0 ≤ L y ∧ L y ≤ B := fun y => ⟨hb.le.trans (hLb y).1, (hLb y).2⟩
  have hbind : IsProbabilityMeasure (π.bind κ) := by
    have : π.bind κ = (κ ∘ₖ Kernel.const Unit π) () := by rw [Kernel.comp_apply]; rfl
    rw [this]
    infer_instance
  have e1 : ∀ {g : X → ℝ} (hg : Measurable g) {C : ℝ}, (∀ x, |g x| ≤ C) →
      ∫ y, L y * g y ∂(π.bind κ) = ∫ x, ahead κ L g x ∂π := by
    intro g hg C hC
    have : π.bind κ = (κ ∘ₖ Kernel.const Unit π) () := by rw [Kernel.comp_apply]; rfl
    have hi : Integrable (fun y => L y * g y) ((κ ∘ₖ Kernel.const Unit π) ()) :=
      integrable_bounded (hL.mul hg) (abs_mul_le' hL0 hC)
    rw [this, Kernel.integral_comp hi]
    rfl
  have hev : evidenceOf κ (fun y => ENNReal.ofReal (L y)) π = ENNReal.ofReal (∫ y, L y ∂(π.bind κ)) := by
    unfold evidenceOf
    rw [ofReal_integral_eq_lintegral_ofReal]
    · exact integrable_bounded hL (C := B) fun x => by rw [abs_of_nonneg (hL0 x).1]; exact (hL0 x).2
    · exact Filter.Eventually.of_forall fun x => (hL0 x).1
  have hbig : b ≤ ∫ y, L y ∂(π.bind κ) := by
    have h1 : ∫ _, b ∂(π.bind κ) = b := by simp
    rw [← h1]
    exact integral_mono (integrable_const _)
      (integrable_bounded hL (C := B) fun x => by rw [abs_of_nonneg (hL0 x).1]; exact (hL0 x).2) fun y => (hLb y).1
  have h1 := e1 (g := fun _ => 1) measurable_const (C := 1) (by simp)
  simp only [mul_one] at h1
  have hZ : (evidenceOf κ (fun y => ENNReal.ofReal (L y)) π).toReal = ∫ y, L y ∂(π.bind κ) := by
    rw [hev, ENNReal.toReal_ofReal (hb.le.trans hbig)]
  refine ⟨hZ ▸ hbig, ?_, ?_, h1.symm.trans hZ.symm, ?_⟩
  · rw [hev, Ne, ENNReal.ofReal_eq_zero, not_le]
    linarith
  · rw [hev]
    exact ENNReal.ofReal_ne_top
  · unfold bayesStep
    rw [integral_smul_measure, integral_withDensity_eq_integral_toReal_smul hL.ennreal_ofReal
      (Filter.Eventually.of_forall fun _ => ENNReal.ofReal_lt_top), ENNReal.toReal_inv, hZ, ← h1, ← e1 hf hC, smul_eq_mul,
      div_eq_inv_mul]
    congr 1
    refine integral_congr_ae (Filter.Eventually.of_forall fun y => ?_)
    simp only [smul_eq_mul]
    rw [ENNReal.toReal_ofReal (hL0 y).1]

/-- Looking back: `F` and `H` are the means of `φ` and of 1, with the likelihoods of all later updates. -/
structure Backward (σ : ℝ) (F H : X → ℝ) (m M hi : ℝ) : Prop where
  mF : Measurable F
  mH : Measurable H
  hi_pos : 0 < hi
  low : ∀ x, σ * hi ≤ H x
  high : ∀ x, H x ≤ hi
  lower : ∀ x, m * H x ≤ F x
  upper : ∀ x, F x ≤ M * H x
  m_ge : -1 ≤ m
  M_le : M ≤ 1

namespace Backward

variable {σ : ℝ} {F H : X → ℝ} {m M hi : ℝ}

theorem pos (h : Backward σ F H m M hi) (hσ : 0 < σ) (x : X) : 0 < H x := lt_of_lt_of_le (mul_pos hσ h.hi_pos) (h.low x)

theorem absH (h : Backward σ F H m M hi) (hσ : 0 < σ) (x : X) : |H x| ≤ hi := by
  rw [abs_of_pos (h.pos hσ x)]; exact h.high x

theorem absF (h : Backward σ F H m M hi) (hσ : 0 < σ) (x : X) : |F x| ≤ hi := by
  have h0 := h.pos hσ x
  have h1 := h.high x
  have h2 := mul_le_mul_of_nonneg_right h.m_ge h0.le
  have h3 := mul_le_mul_of_nonneg_right h.M_le h0.le
  exact abs_le.2 ⟨by linarith [h.lower x], by linarith [h.upper x]⟩

theorem step (h : Backward σ F H m M hi) (hσ : 0 < σ) (hσ1 : σ < 1) {κ : Kernel X X} [IsMarkovKernel κ]
    (hκ : MovesAlike κ σ) {L : X → ℝ} (hL : Measurable L) {b B : ℝ} (hb : 0 < b) (hLb : ∀ y, b ≤ L y ∧ L y ≤ B) [Nonempty X] :
    ∃ m' M' hi', Backward σ (ahead κ L F) (ahead κ L H) m' M' hi' ∧ M' - m' = (1 - σ) * (M - m) := by
  obtain ⟨v, hv, hκ⟩ := hκ
  have hL0 : ∀ y, 0 ≤ L y ∧ L y ≤ B := fun y => ⟨hb.le.trans (hLb y).1, (hLb y).2⟩
  have mLF := hL.mul h.mF
  have mLH := hL.mul h.mH
  have iF : ∀ (μ : Measure X) [IsFiniteMeasure μ], Integrable (fun y => L y * F y) μ := fun μ _ =>
    integrable_bounded mLF (abs_mul_le' hL0 (h.absF hσ))
  have iH : ∀ (μ : Measure X) [IsFiniteMeasure μ], Integrable (fun y => L y * H y) μ := fun μ _ =>
    integrable_bounded mLH (abs_mul_le' hL0 (h.absH hσ))
  set VF := ∫ y, L y * F y ∂v with hVF
  set VH := ∫ y, L y * H y ∂v with hVH
  -- between the two measures
  have between : ∀ (a c : ℝ), (∀ y, 0 ≤ a * F y + c * H y) → ∀ x,
      σ * (a * VF + c * VH) ≤ a * ahead κ L F x + c * ahead κ L H x ∧
      a * ahead κ L F x + c * ahead κ L H x ≤ a * VF + c * VH := by
    intro a c hac x
    have e : ∀ (μ : Measure X) [IsFiniteMeasure μ], ∫ y, L y * (a * F y + c * H y) ∂μ =
        a * (∫ y, L y * F y ∂μ) + c * ∫ y, L y * H y ∂μ := by
      intro μ _
      rw [← integral_const_mul, ← integral_const_mul, ← integral_add ((iF μ).const_mul a) ((iH μ).const_mul c)]
      refine integral_congr_ae (Filter.Eventually.of_forall fun y => ?_)
      ring
    have i : ∀ (μ : Measure X) [IsFiniteMeasure μ], Integrable (fun y => L y * (a * F y + c * H y)) μ := by
      intro μ _
      refine (((iF μ).const_mul a).add ((iH μ).const_mul c)).congr (Filter.Eventually.of_forall fun y => ?_)
      simp only [Pi.add_apply]
      ring
    have n : ∀ y, 0 ≤ L y * (a * F y + c * H y) := fun y => mul_nonneg (hL0 y).1 (hac y)
    unfold ahead
    rw [← e (κ x), hVF, hVH, ← e v]
    refine ⟨?_, integral_mono_measure (hκ x).2 (Filter.Eventually.of_forall n) (i v)⟩
    have := integral_mono_measure (hκ x).1 (Filter.Eventually.of_forall n) (i (κ x))
    rwa [integral_smul_measure, ENNReal.toReal_ofReal hσ.le, smul_eq_mul] at this
  obtain ⟨x0⟩ := ‹Nonempty X›
  have hH := between 0 1 (fun y => by have := h.pos hσ y; linarith)
  simp only [zero_mul, one_mul, zero_add] at hH
  have posH : ∀ x, b * (σ * hi) ≤ ahead κ L H x := by
    intro x
    have e : ∫ _, b * (σ * hi) ∂(κ x) = b * (σ * hi) := by simp
    rw [← e]
    exact integral_mono (integrable_const _) (iH _) fun y =>
      mul_le_mul (hLb y).1 (h.low y) (mul_pos hσ h.hi_pos).le (hL0 y).1
  have hbp : 0 < b * (σ * hi) := mul_pos hb (mul_pos hσ h.hi_pos)
  have hVHpos : 0 < VH := lt_of_lt_of_le (lt_of_lt_of_le hbp (posH x0)) (hH x0).2
  set cc := VF / VH with hcc
  have hcV : cc * VH = VF := div_mul_cancel₀ _ hVHpos.ne'
  have hlo := between 1 (-m) (fun y => by have := h.lower y; linarith)
  have hup := between (-1) M (fun y => by have := h.upper y; linarith)
  have hcm : m ≤ cc := by
    rw [hcc, le_div_iff₀ hVHpos]
    have h1 := (hlo x0).1
    have h2 := (hlo x0).2
    have h3 : (1 - σ) * (1 * VF + -m * VH) ≥ 0 := by nlinarith
    have := nonneg_of_mul_nonneg_right h3 (by linarith : 0 < 1 - σ)
    linarith
  have hcM : cc ≤ M := by
    rw [hcc, div_le_iff₀ hVHpos]
    have h1 := (hup x0).1
    have h2 := (hup x0).2
    have h3 : (1 - σ) * (-1 * VF + M * VH) ≥ 0 := by nlinarith
    have := nonneg_of_mul_nonneg_right h3 (by linarith : 0 < 1 - σ)
    linarith
  refine ⟨m + σ * (cc - m), M - σ * (M - cc), VH, ⟨measurable_ahead hL h.mF, measurable_ahead hL h.mH, hVHpos,
    fun x => (hH x).1, fun x => (hH x).2, fun x => ?_, fun x => ?_, ?_, ?_⟩, by ring⟩
  · have h1 := (hlo x).1
    have h2 : σ * (cc - m) * ahead κ L H x ≤ σ * (cc - m) * VH :=
      mul_le_mul_of_nonneg_left (hH x).2 (mul_nonneg hσ.le (by linarith))
    have h3 : σ * (cc - m) * VH = σ * (1 * VF + -m * VH) := by rw [← hcV]; ring
    linarith
  · have h1 := (hup x).1
    have h2 : σ * (M - cc) * ahead κ L H x ≤ σ * (M - cc) * VH :=
      mul_le_mul_of_nonneg_left (hH x).2 (mul_nonneg hσ.le (by linarith))
    have h3 : σ * (M - cc) * VH = σ * (-1 * VF + M * VH) := by rw [← hcV]; ring
    linarith
  · have := mul_nonneg hσ.le (by linarith : 0 ≤ cc - m)
    linarith [h.m_ge]
  · have := mul_nonneg hσ.le (by linarith : 0 ≤ M - cc)
    linarith [h.M_le]

end Backward

/-- `backward κ L T φ k` looks back `k` updates from the update number `T`. -/
noncomputable def backward (κ : Nat → Kernel X X) (L : Nat → X → ℝ) (T : Nat) (φ : X → ℝ) : Nat → X → ℝ
  | 0 => φ
  | k + 1 => ahead (κ (T - (k + 1))) (L (T - (k + 1))) (backward κ L T φ k)

theorem backward_bounds {κ : Nat → Kernel X X} [∀ t, IsMarkovKernel (κ t)] {L : Nat → X → ℝ} {σ : ℝ} (hσ : 0 < σ)
    (hσ1 : σ < 1) {T : Nat} (hκ : ∀ t < T, MovesAlike (κ t) σ) (hL : ∀ t, Measurable (L t)) {b B : Nat → ℝ}
    (hLb : ∀ t < T, 0 < b t ∧ ∀ y, b t ≤ L t y ∧ L t y ≤ B t) [Nonempty X] {φ : X → ℝ} (hφ : Measurable φ)
    (hφ1 : ∀ x, |φ x| ≤ 1) : ∀ k ≤ T, ∃ m M hi, Backward σ (backward κ L T φ k) (backward κ L T (fun _ => 1) k) m M hi ∧
      M - m = 2 * (1 - σ) ^ k := by
  intro k
  induction k with
  | zero =>
    intro _
    refine ⟨-1, 1, 1, ⟨hφ, measurable_const, one_pos, fun x => ?_, fun x => le_rfl, fun x => ?_, fun x => ?_, le_rfl, le_rfl⟩,
      by norm_num⟩
    · show σ * 1 ≤ 1
      linarith
    · show -1 * 1 ≤ φ x
      have := (abs_le.1 (hφ1 x)).1
      linarith
    · show φ x ≤ 1 * 1
      have := (abs_le.1 (hφ1 x)).2
      linarith
  | succ k ih =>
    intro hk
    obtain ⟨m, M, hi, h, hd⟩ := ih (by omega)
    have ht : T - (k + 1) < T := by omega
    obtain ⟨m', M', hi', h', hd'⟩ := h.step hσ hσ1 (hκ _ ht) (hL _) (hLb _ ht).1 (hLb _ ht).2
    refine ⟨m', M', hi', h', ?_⟩
    rw [hd', hd, pow_succ]
    ring

end BFL
