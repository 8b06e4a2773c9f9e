import Verif.Lemmas.CloudFilter
import Mathlib.MeasureTheory.Function.LpSeminorm.ChebyshevMarkov

/-!
# Mean square error of particle sets of a given size
-/

set_option linter.unusedSectionVars false

namespace BFL

open MeasureTheory ProbabilityTheory Filter Spec Props
open scoped ENNReal Topology

variable {R X Y V W Ω : Type} [MeasurableSpace X] [MeasurableSpace R] [MeasurableSpace Ω]
  [MeasurableSpace Y] [MeasurableSpace V] [MeasurableSpace W]
  {P : Measure Ω} [IsProbabilityMeasure P] {N : ℕ}

/-- Sum of `φ` over weighted particles. -/
def sumOver (c : Fin N → Y × ℝ) (φ : Y → ℝ) : ℝ := ∑ i, (c i).2 * φ (c i).1

theorem measurable_sumOver {φ : Y → ℝ} (hφ : Measurable φ) :
    Measurable fun c : Fin N → Y × ℝ => sumOver c φ := by
  unfold sumOver
  refine Finset.measurable_sum _ fun i _ => ?_
  have h1 : Measurable fun c : Fin N → Y × ℝ => c i := measurable_pi_apply i
  exact (measurable_snd.comp h1).mul (hφ.comp (measurable_fst.comp h1))

theorem abs_sumOver_le {c : Fin N → Y × ℝ} (h0 : ∀ i, 0 ≤ (c i).2) (h1 : ∑ i, (c i).2 ≤ 1)
    {φ : Y → ℝ} (hφ : ∀ y, |φ y| ≤ 1) : |sumOver c φ| ≤ 1 := by
  unfold sumOver
  refine (Finset.abs_sum_le_sum_abs _ _).trans (le_trans (Finset.sum_le_sum fun i _ => ?_) h1)
  rw [abs_mul, abs_of_nonneg (h0 i)]
  exact mul_le_of_le_one_right (h0 i) (hφ _)

/-- The weighted averages of functions between -1 and 1 over the random particles have a root mean
square error of at most `e`. -/
structure CloudNear (P : Measure Ω) (C : Ω → Fin N → Y × ℝ) (π : Measure Y) (e : ℝ≥0∞) : Prop where
  prob : IsProbabilityMeasure π
  meas : Measurable C
  nonneg : ∀ ω i, 0 ≤ (C ω i).2
  total : ∀ ω, ∑ i, (C ω i).2 = 0 ∨ ∑ i, (C ω i).2 = 1
  close : ∀ φ : Y → ℝ, Measurable φ → (∀ y, |φ y| ≤ 1) →
    eLpNorm (fun ω => sumOver (C ω) φ - ∫ y, φ y ∂π) 2 P ≤ e

/-- Root mean square from the mean square. -/
theorem eLpNorm_two_le {f : Ω → ℝ} {a : ℝ} (ha : 0 ≤ a)
    (h : ∫⁻ ω, ENNReal.ofReal (f ω ^ 2) ∂P ≤ ENNReal.ofReal (a ^ 2)) :
    eLpNorm f 2 P ≤ ENNReal.ofReal a := by
  rw [eLpNorm_eq_lintegral_rpow_enorm_toReal (by norm_num) (by norm_num)]
  have e : ∀ ω, ‖f ω‖ₑ ^ (2 : ℝ≥0∞).toReal = ENNReal.ofReal (f ω ^ 2) := by
    intro ω
    rw [ENNReal.toReal_ofNat, Real.enorm_eq_ofReal_abs, ENNReal.rpow_ofNat,
      ← ENNReal.ofReal_pow (abs_nonneg _), sq_abs]
  simp only [e]
  rw [ENNReal.ofReal_pow ha] at h
  calc (∫⁻ ω, ENNReal.ofReal (f ω ^ 2) ∂P) ^ (1 / (2 : ℝ≥0∞).toReal)
      ≤ (ENNReal.ofReal a ^ 2) ^ (1 / (2 : ℝ≥0∞).toReal) := by
        apply ENNReal.rpow_le_rpow h
        positivity
    _ = ENNReal.ofReal a := by
        rw [ENNReal.toReal_ofNat, ← ENNReal.rpow_ofNat, ← ENNReal.rpow_mul]
        norm_num

/-- Mean over an independent random input. -/
theorem lintegral_indep {S : Type} [MeasurableSpace S] {C : Ω → S} {U : Ω → V} {ρ : Measure V}
    [IsProbabilityMeasure ρ] (hC : Measurable C) (hU : Measurable U)
    (hind : P.map (fun ω => (C ω, U ω)) = (P.map C).prod ρ) {F : S × V → ℝ≥0∞}
    (hF : Measurable F) {b : ℝ≥0∞} (hb : ∀ ω, ∫⁻ v, F (C ω, v) ∂ρ ≤ b) :
    ∫⁻ ω, F (C ω, U ω) ∂P ≤ b := by
  have e : ∫⁻ ω, F (C ω, U ω) ∂P = ∫⁻ ω, ∫⁻ v, F (C ω, v) ∂ρ ∂P := by
    rw [← lintegral_map (f := F) hF (hC.prodMk hU), hind, lintegral_prod _ hF.aemeasurable,
      lintegral_map (f := fun c => ∫⁻ v, F (c, v) ∂ρ) hF.lintegral_prod_right' hC]
  rw [e]
  calc ∫⁻ ω, ∫⁻ v, F (C ω, v) ∂ρ ∂P ≤ ∫⁻ _, b ∂P := lintegral_mono hb
    _ = b := by simp

namespace CloudNear

variable {C : Ω → Fin N → Y × ℝ} {π : Measure Y} {e : ℝ≥0∞}

theorem le_one (h : CloudNear P C π e) (ω : Ω) : ∑ i, (C ω i).2 ≤ 1 := by
  rcases h.total ω with h | h <;> rw [h]
  exact zero_le_one

theorem mono (h : CloudNear P C π e) {e' : ℝ≥0∞} (he : e ≤ e') : CloudNear P C π e' :=
  ⟨h.prob, h.meas, h.nonneg, h.total, fun φ hφ h1 => (h.close φ hφ h1).trans he⟩

/-- Resampling of some of the particle sets. -/
theorem resample (h : CloudNear P C π e) {D : Set (Fin N → Y × ℝ)} (hD : MeasurableSet D)
    {U : Ω → Fin N → ℝ} (hU : Measurable U)
    (hind : P.map (fun ω => (C ω, U ω)) = (P.map C).prod (unifs N)) :
    CloudNear P (fun ω => resampleIf D (C ω) (U ω)) π (e + ENNReal.ofReal (1 / √N)) := by
  have hm : Measurable fun ω => resampleIf D (C ω) (U ω) :=
    (measurable_resampleIf hD).comp (h.meas.prodMk hU)
  refine ⟨h.prob, hm, fun ω i => resampleIf_nonneg (h.nonneg ω) _ i, fun ω => ?_, ?_⟩
  · rw [resampleIf_total]
    exact h.total ω
  intro φ hφ hb
  have k : eLpNorm (fun ω => sumOver (resampleIf D (C ω) (U ω)) φ - sumOver (C ω) φ) 2 P ≤
      ENNReal.ofReal (1 / √N) := by
    refine eLpNorm_two_le (by positivity) ?_
    have hF : Measurable fun z : (Fin N → Y × ℝ) × (Fin N → ℝ) =>
        ENNReal.ofReal ((sumOver (resampleIf D z.1 z.2) φ - sumOver z.1 φ) ^ 2) :=
      ((((measurable_sumOver hφ).comp (measurable_resampleIf hD)).sub
        ((measurable_sumOver hφ).comp measurable_fst)).pow_const 2).ennreal_ofReal
    refine lintegral_indep h.meas hU hind hF fun ω => ?_
    have hv := variance_resampleIf (D := D) (h.nonneg ω) hb
    rw [div_pow, Real.sq_sqrt (Nat.cast_nonneg N)]
    exact hv
  have hsplit : (fun ω => sumOver (resampleIf D (C ω) (U ω)) φ - ∫ y, φ y ∂π) =
      (fun ω => sumOver (C ω) φ - ∫ y, φ y ∂π) +
      fun ω => sumOver (resampleIf D (C ω) (U ω)) φ - sumOver (C ω) φ := by
    funext ω
    simp only [Pi.add_apply]
    ring
  have m1 : Measurable fun ω => sumOver (C ω) φ := (measurable_sumOver hφ).comp h.meas
  have m2 : Measurable fun ω => sumOver (resampleIf D (C ω) (U ω)) φ :=
    (measurable_sumOver hφ).comp hm
  rw [hsplit]
  exact (eLpNorm_add_le (m1.sub_const _).aestronglyMeasurable
    (m2.sub m1).aestronglyMeasurable (by norm_num)).trans (add_le_add (h.close φ hφ hb) k)

/-- Every particle gets an independent random input with law `ν`. -/
theorem pair (h : CloudNear P C π e) {U : Ω → Fin N → V} (hU : Measurable U) {ν : Measure V}
    [IsProbabilityMeasure ν]
    (hind : P.map (fun ω => (C ω, U ω)) = (P.map C).prod (Measure.pi fun _ : Fin N => ν))
    {a : ℝ} (ha : 0 ≤ a) (hsq : ∀ ω, ∑ i, (C ω i).2 ^ 2 ≤ a ^ 2) :
    CloudNear P (fun ω i => (((C ω i).1, U ω i), (C ω i).2)) (π.prod ν) (e + ENNReal.ofReal a) := by
  have hπ := h.prob
  have hi : ∀ i, Measurable fun ω => C ω i := fun i => (measurable_pi_apply i).comp h.meas
  have hm : Measurable fun ω i => (((C ω i).1, U ω i), (C ω i).2) :=
    measurable_pi_lambda _ fun i => ((measurable_fst.comp (hi i)).prodMk
      ((measurable_pi_apply i).comp hU)).prodMk (measurable_snd.comp (hi i))
  refine ⟨inferInstance, hm, h.nonneg, h.total, ?_⟩
  intro g hg hb
  have hsm : StronglyMeasurable g := hg.stronglyMeasurable
  have hcm : Measurable fun y => ∫ v, g (y, v) ∂ν := hsm.integral_prod_right'.measurable
  have hcb : ∀ y, |∫ v, g (y, v) ∂ν| ≤ 1 := by
    intro y
    have := norm_integral_le_of_norm_le_const (μ := ν) (f := fun v => g (y, v)) (C := 1)
      (Eventually.of_forall fun v => hb (y, v))
    simpa using this
  have k : eLpNorm (fun ω => sumOver (fun i => (((C ω i).1, U ω i), (C ω i).2)) g -
      sumOver (C ω) fun y => ∫ v, g (y, v) ∂ν) 2 P ≤ ENNReal.ofReal a := by
    refine eLpNorm_two_le ha ?_
    have hF : Measurable fun z : (Fin N → Y × ℝ) × (Fin N → V) =>
        ENNReal.ofReal ((sumOver (fun i => (((z.1 i).1, z.2 i), (z.1 i).2)) g -
          sumOver z.1 fun y => ∫ v, g (y, v) ∂ν) ^ 2) := by
      refine (Measurable.pow_const (Measurable.sub ?_ ((measurable_sumOver hcm).comp
        measurable_fst)) 2).ennreal_ofReal
      refine (measurable_sumOver hg).comp (measurable_pi_lambda _ fun i => ?_)
      have h1 : Measurable fun z : (Fin N → Y × ℝ) × (Fin N → V) => z.1 i :=
        (measurable_pi_apply i).comp measurable_fst
      exact ((measurable_fst.comp h1).prodMk ((measurable_pi_apply i).comp measurable_snd)).prodMk
        (measurable_snd.comp h1)
    refine lintegral_indep h.meas hU hind hF fun ω => ?_
    have hv := weighted_variance (ν := ν) (fun i => (C ω i).2)
      (ψ := fun i v => g ((C ω i).1, v)) (fun i => hg.comp measurable_prodMk_left)
      (M := 1) (fun i v => hb _)
    refine le_trans (le_of_eq ?_) (hv.trans (ENNReal.ofReal_le_ofReal ?_))
    · apply lintegral_congr
      intro v
      congr 2
      unfold sumOver
      rw [← Finset.sum_sub_distrib]
      exact Finset.sum_congr rfl fun i _ => by ring
    · rw [one_pow, one_mul]
      exact hsq ω
  have hint : Integrable g (π.prod ν) :=
    Integrable.of_bound hg.aestronglyMeasurable 1 (Eventually.of_forall hb)
  have hsplit : (fun ω => sumOver (fun i => (((C ω i).1, U ω i), (C ω i).2)) g -
        ∫ z, g z ∂(π.prod ν)) =
      (fun ω => sumOver (C ω) (fun y => ∫ v, g (y, v) ∂ν) - ∫ y, ∫ v, g (y, v) ∂ν ∂π) +
      fun ω => sumOver (fun i => (((C ω i).1, U ω i), (C ω i).2)) g -
        sumOver (C ω) fun y => ∫ v, g (y, v) ∂ν := by
    funext ω
    rw [Pi.add_apply, integral_prod g hint]
    ring
  have m1 : Measurable fun ω => sumOver (C ω) fun y => ∫ v, g (y, v) ∂ν :=
    (measurable_sumOver hcm).comp h.meas
  have m2 : Measurable fun ω => sumOver (fun i => (((C ω i).1, U ω i), (C ω i).2)) g :=
    (measurable_sumOver hg).comp hm
  rw [hsplit]
  exact (eLpNorm_add_le (m1.sub_const _).aestronglyMeasurable
    (m2.sub m1).aestronglyMeasurable (by norm_num)).trans (add_le_add (h.close _ hcm hcb) k)

/-- Particles moved by `f` and weighted by `Γ`. -/
theorem reweight (h : CloudNear P C π e) {f : Y → X} (hf : Measurable f) {Γ : Y → ℝ} (hΓ : Measurable Γ)
    (h0 : ∀ y, 0 ≤ Γ y) {B Z : ℝ} (hB : ∀ y, Γ y ≤ B) (hB0 : 0 < B) (hZ : 0 < Z)
    {π' : Measure X} [IsProbabilityMeasure π']
    (hπ' : ∀ φ : X → ℝ, Measurable φ → (∀ x, |φ x| ≤ 1) →
      ∫ y, Γ y * φ (f y) ∂π = Z * ∫ x, φ x ∂π') :
    CloudNear P (fun ω i => (f (C ω i).1,
        (C ω i).2 * Γ (C ω i).1 / ∑ j, (C ω j).2 * Γ (C ω j).1)) π'
      (ENNReal.ofReal (2 * (B / Z)) * e) := by
  have hπ := h.prob
  have hi : ∀ i, Measurable fun ω => C ω i := fun i => (measurable_pi_apply i).comp h.meas
  have hg : ∀ i, Measurable fun ω => (C ω i).2 * Γ (C ω i).1 := fun i =>
    (measurable_snd.comp (hi i)).mul (hΓ.comp (measurable_fst.comp (hi i)))
  have hn : ∀ ω i, 0 ≤ (C ω i).2 * Γ (C ω i).1 := fun ω i => mul_nonneg (h.nonneg ω i) (h0 _)
  have hS : ∀ ω, 0 ≤ ∑ j, (C ω j).2 * Γ (C ω j).1 := fun ω => Finset.sum_nonneg fun i _ => hn ω i
  have hm : Measurable fun ω i => (f (C ω i).1,
        (C ω i).2 * Γ (C ω i).1 / ∑ j, (C ω j).2 * Γ (C ω j).1) :=
    measurable_pi_lambda _ fun i => (hf.comp (measurable_fst.comp (hi i))).prodMk
      ((hg i).div (Finset.measurable_sum _ fun j _ => hg j))
  have hn' : ∀ ω i, 0 ≤ (C ω i).2 * Γ (C ω i).1 / ∑ j, (C ω j).2 * Γ (C ω j).1 := fun ω i =>
    div_nonneg (hn ω i) (hS ω)
  have ht : ∀ ω, ∑ i, (C ω i).2 * Γ (C ω i).1 / ∑ j, (C ω j).2 * Γ (C ω j).1 = 0 ∨
      ∑ i, (C ω i).2 * Γ (C ω i).1 / ∑ j, (C ω j).2 * Γ (C ω j).1 = 1 := by
    intro ω
    rw [← Finset.sum_div]
    by_cases hz : ∑ j, (C ω j).2 * Γ (C ω j).1 = 0
    · left; rw [hz, div_zero]
    · right; exact div_self hz
  refine ⟨inferInstance, hm, hn', ht, ?_⟩
  intro φ hφ hb
  -- the error of a function bounded by `B`
  have hscale : ∀ g : Y → ℝ, Measurable g → (∀ y, |g y| ≤ B) →
      eLpNorm (fun ω => sumOver (C ω) g - ∫ y, g y ∂π) 2 P ≤ ENNReal.ofReal B * e := by
    intro g hgm hgb
    have k := h.close (fun y => g y / B) (hgm.div_const B) (fun y => by
      rw [abs_div, abs_of_pos hB0, div_le_one hB0]
      exact hgb y)
    have es : (fun ω => sumOver (C ω) g - ∫ y, g y ∂π) =
        B • fun ω => sumOver (C ω) (fun y => g y / B) - ∫ y, g y / B ∂π := by
      funext ω
      rw [Pi.smul_apply, smul_eq_mul, integral_div, mul_sub, mul_div_cancel₀ _ hB0.ne']
      congr 1
      unfold sumOver
      rw [Finset.mul_sum]
      refine Finset.sum_congr rfl fun i _ => ?_
      field_simp
    rw [es, eLpNorm_const_smul, Real.enorm_eq_ofReal hB0.le]
    exact mul_le_mul_right k _
  have mA : Measurable fun y => Γ y * φ (f y) := hΓ.mul (hφ.comp hf)
  have bA : ∀ y, |Γ y * φ (f y)| ≤ B := by
    intro y
    rw [abs_mul, abs_of_nonneg (h0 y)]
    exact (mul_le_of_le_one_right (h0 y) (hb _)).trans (hB y)
  have kA := hscale _ mA bA
  have kB := hscale Γ hΓ fun y => by rw [abs_of_nonneg (h0 y)]; exact hB y
  have eA := hπ' φ hφ hb
  have eB : ∫ y, Γ y ∂π = Z := by
    have := hπ' (fun _ => 1) measurable_const (fun _ => by simp)
    simpa using this
  rw [eA] at kA
  rw [eB] at kB
  have hle : ∀ ω, ‖sumOver (fun i => (f (C ω i).1,
        (C ω i).2 * Γ (C ω i).1 / ∑ j, (C ω j).2 * Γ (C ω j).1)) φ - ∫ x, φ x ∂π'‖ ≤
      Z⁻¹ * (‖sumOver (C ω) (fun y => Γ y * φ (f y)) - Z * ∫ x, φ x ∂π'‖ +
        ‖sumOver (C ω) Γ - Z‖) := by
    intro ω
    obtain ⟨q, hq⟩ : ∃ q, q = sumOver (fun i => (f (C ω i).1,
        (C ω i).2 * Γ (C ω i).1 / ∑ j, (C ω j).2 * Γ (C ω j).1)) φ := ⟨_, rfl⟩
    have hq1 : |q| ≤ 1 := by
      rw [hq]
      refine abs_sumOver_le (hn' ω) ?_ hb
      rcases ht ω with h | h <;> rw [h]
      exact zero_le_one
    have hqs : q * sumOver (C ω) Γ = sumOver (C ω) fun y => Γ y * φ (f y) := by
      rw [hq]
      unfold sumOver
      by_cases hz : ∑ j, (C ω j).2 * Γ (C ω j).1 = 0
      · rw [hz, mul_zero]
        have := (Finset.sum_eq_zero_iff_of_nonneg fun i _ => hn ω i).1 hz
        symm
        apply Finset.sum_eq_zero
        intro i hi
        rw [← mul_assoc, this i hi, zero_mul]
      · rw [Finset.sum_mul]
        refine Finset.sum_congr rfl fun i _ => ?_
        field_simp
    rw [← hq, ← hqs]
    have e1 : q - ∫ x, φ x ∂π' = Z⁻¹ * ((q * sumOver (C ω) Γ - Z * ∫ x, φ x ∂π') -
        q * (sumOver (C ω) Γ - Z)) := by
      field_simp
      ring
    rw [e1, norm_mul, Real.norm_of_nonneg (inv_nonneg.2 hZ.le)]
    refine mul_le_mul_of_nonneg_left ((norm_sub_le _ _).trans (add_le_add le_rfl ?_))
      (inv_nonneg.2 hZ.le)
    rw [norm_mul]
    exact mul_le_of_le_one_left (norm_nonneg _) hq1
  have m1 : Measurable fun ω => sumOver (C ω) (fun y => Γ y * φ (f y)) :=
    (measurable_sumOver mA).comp h.meas
  have m2 : Measurable fun ω => sumOver (C ω) Γ := (measurable_sumOver hΓ).comp h.meas
  calc eLpNorm (fun ω => sumOver (fun i => (f (C ω i).1,
        (C ω i).2 * Γ (C ω i).1 / ∑ j, (C ω j).2 * Γ (C ω j).1)) φ - ∫ x, φ x ∂π') 2 P
      ≤ eLpNorm (Z⁻¹ • ((fun ω => ‖sumOver (C ω) (fun y => Γ y * φ (f y)) - Z * ∫ x, φ x ∂π'‖) +
        fun ω => ‖sumOver (C ω) Γ - Z‖)) 2 P := eLpNorm_mono_real hle
    _ = ENNReal.ofReal Z⁻¹ * eLpNorm ((fun ω =>
          ‖sumOver (C ω) (fun y => Γ y * φ (f y)) - Z * ∫ x, φ x ∂π'‖) +
        fun ω => ‖sumOver (C ω) Γ - Z‖) 2 P := by
        rw [eLpNorm_const_smul, Real.enorm_eq_ofReal (inv_nonneg.2 hZ.le)]
    _ ≤ ENNReal.ofReal Z⁻¹ * (ENNReal.ofReal B * e + ENNReal.ofReal B * e) := by
        refine mul_le_mul_right ?_ _
        refine (eLpNorm_add_le (m1.sub_const _).norm.aestronglyMeasurable
          (m2.sub_const _).norm.aestronglyMeasurable (by norm_num)).trans ?_
        rw [eLpNorm_norm, eLpNorm_norm]
        exact add_le_add kA kB
    _ = ENNReal.ofReal (2 * (B / Z)) * e := by
        have e2 : ENNReal.ofReal (2 * (B / Z)) = 2 * (ENNReal.ofReal Z⁻¹ * ENNReal.ofReal B) := by
          rw [← ENNReal.ofReal_mul (inv_nonneg.2 hZ.le), ENNReal.ofReal_mul (by norm_num : (0 : ℝ) ≤ 2),
            ENNReal.ofReal_ofNat, div_eq_inv_mul]
        rw [e2]
        ring

theorem map (h : CloudNear P C π e) {f : Y → V} (hf : Measurable f) :
    CloudNear P (fun ω i => (f (C ω i).1, (C ω i).2)) (π.map f) e := by
  have hπ := h.prob
  have hi : ∀ i, Measurable fun ω => C ω i := fun i => (measurable_pi_apply i).comp h.meas
  refine ⟨Measure.isProbabilityMeasure_map hf.aemeasurable, measurable_pi_lambda _ fun i =>
    (hf.comp (measurable_fst.comp (hi i))).prodMk (measurable_snd.comp (hi i)), h.nonneg, h.total,
    fun φ hφ hb => ?_⟩
  rw [integral_map hf.aemeasurable hφ.aestronglyMeasurable]
  exact h.close (fun y => φ (f y)) (hφ.comp hf) fun y => hb _

/-- Chebyshev's inequality. -/
theorem chebyshev (h : CloudNear P C π e) {φ : Y → ℝ} (hφ : Measurable φ) (hb : ∀ y, |φ y| ≤ 1)
    {ε : ℝ} (hε : 0 < ε) :
    P {ω | ε ≤ |sumOver (C ω) φ - ∫ y, φ y ∂π|} ≤ e ^ 2 / ENNReal.ofReal (ε ^ 2) := by
  have m : AEStronglyMeasurable (fun ω => sumOver (C ω) φ - ∫ y, φ y ∂π) P :=
    (((measurable_sumOver hφ).comp h.meas).sub_const _).aestronglyMeasurable
  have k := mul_meas_ge_le_pow_eLpNorm' P (p := 2) (by norm_num) (by norm_num) m (ENNReal.ofReal ε)
  rw [ENNReal.toReal_ofNat, ENNReal.rpow_ofNat, ENNReal.rpow_ofNat,
    ← ENNReal.ofReal_pow hε.le] at k
  have hset : {ω | ε ≤ |sumOver (C ω) φ - ∫ y, φ y ∂π|} =
      {ω | ENNReal.ofReal ε ≤ ‖sumOver (C ω) φ - ∫ y, φ y ∂π‖ₑ} := by
    ext ω
    simp only [Set.mem_ofPred_eq, Real.enorm_eq_ofReal_abs]
    rw [ENNReal.ofReal_le_ofReal_iff (abs_nonneg _)]
  rw [hset, ENNReal.le_div_iff_mul_le (Or.inl (by rw [Ne, ENNReal.ofReal_eq_zero, not_le]; positivity))
    (Or.inl ENNReal.ofReal_ne_top), mul_comm]
  exact k.trans (pow_le_pow_left₀ zero_le (h.close φ hφ hb) 2)

/-- One update with its three random inputs of every particle. -/
theorem filterStep {C : Ω → Fin N → X × ℝ} {π : Measure X} (h : CloudNear P C π e)
    {U : Ω → Fin N → ℝ × R × ℝ} (hU : Measurable U) {ν : Measure R} [IsProbabilityMeasure ν]
    (hind : P.map (fun ω => (C ω, U ω)) = (P.map C).prod (Measure.pi fun _ : Fin N =>
      ((volume : Measure ℝ).restrict (Set.Ioc 0 1)).prod
        (ν.prod ((volume : Measure ℝ).restrict (Set.Ioc 0 1)))))
    {mv : R → X → X} {G : X → X → ℝ} {κ : Kernel X X} {ℓ : X → ℝ≥0∞} (hs : StepLaw mv G ν κ ℓ)
    (hZ : evidenceOf κ ℓ π ≠ 0) (hZ' : evidenceOf κ ℓ π ≠ ∞) (static dynamic : Prop)
    (threshold : ℝ) {B : ℝ} (hB : ∀ a b, G a b ≤ B) (hB0 : 0 < B) {a : ℝ} (ha : 0 ≤ a)
    (hsq : ∀ ω, ∑ i, (prepared static (C ω) (U ω) i).2 ^ 2 ≤ a ^ 2) :
    CloudNear P (fun ω => BFL.filterStep static dynamic threshold mv G (C ω, U ω)) (bayesStep κ ℓ π)
      (ENNReal.ofReal (2 * (B / (evidenceOf κ ℓ π).toReal)) *
        (e + ENNReal.ofReal (1 / √N) + ENNReal.ofReal a) + ENNReal.ofReal (1 / √N)) := by
  have hπ := h.prob
  have hu : IsProbabilityMeasure ((volume : Measure ℝ).restrict (Set.Ioc (0 : ℝ) 1)) :=
    ⟨by simp⟩
  have hA : Measurable fun ω (i : Fin N) => (U ω i).1 := (measurable_part measurable_fst).comp hU
  have hR : Measurable fun ω (i : Fin N) => (U ω i).2.1 :=
    (measurable_part (measurable_fst.comp measurable_snd)).comp hU
  have hD : Measurable fun ω (i : Fin N) => (U ω i).2.2 :=
    (measurable_part (measurable_snd.comp measurable_snd)).comp hU
  have hvol : P.map (fun ω => (C ω, ((fun i => (U ω i).1 : Fin N → ℝ),
      ((fun i => (U ω i).2.1 : Fin N → R), (fun i => (U ω i).2.2 : Fin N → ℝ))))) =
      (P.map C).prod ((unifs N).prod ((Measure.pi fun _ : Fin N => ν).prod (unifs N))) := by
    have hf : Measurable fun v : Fin N → ℝ × R × ℝ => ((fun i => (v i).1 : Fin N → ℝ),
        ((fun i => (v i).2.1 : Fin N → R), (fun i => (v i).2.2 : Fin N → ℝ))) :=
      (measurable_part measurable_fst).prodMk
        ((measurable_part (measurable_fst.comp measurable_snd)).prodMk
          (measurable_part (measurable_snd.comp measurable_snd)))
    have h1 := law_right h.meas hU hind hf
    rw [map_triple] at h1
    exact h1
  have s1 := law_split h.meas hA (hR.prodMk hD) hvol
  have a1 : CloudNear P (fun ω => prepared static (C ω) (U ω)) π (e + ENNReal.ofReal (1 / √N)) :=
    h.resample (D := {_c | static}) (MeasurableSet.const static) hA s1.1
  have hmp : Measurable fun z : (Fin N → X × ℝ) × (Fin N → ℝ) =>
      resampleIf {_c | static} z.1 z.2 := measurable_resampleIf (MeasurableSet.const static)
  have s2 : P.map (fun ω => (prepared static (C ω) (U ω),
      ((fun i => (U ω i).2.1 : Fin N → R), (fun i => (U ω i).2.2 : Fin N → ℝ)))) =
      (P.map fun ω => prepared static (C ω) (U ω)).prod
        ((Measure.pi fun _ : Fin N => ν).prod (unifs N)) :=
    law_left (h.meas.prodMk hA) (hR.prodMk hD) s1.2 hmp
  have s3 := law_split a1.meas hR hD s2
  have a2 := a1.pair hR s3.1 ha hsq
  have hm : Measurable fun z : X × R => mv z.2 z.1 := hs.hmv.comp measurable_swap
  have hΓ : Measurable fun z : X × R => G z.1 (mv z.2 z.1) := hs.hG.comp (measurable_fst.prodMk hm)
  have hev : ∫⁻ z, ENNReal.ofReal (G z.1 (mv z.2 z.1)) ∂(π.prod ν) = evidenceOf κ ℓ π := by
    have := evidence_eq hs π (F := fun _ => 1) measurable_const
    simpa [evidenceOf] using this
  have htarget : ((evidenceOf κ ℓ π)⁻¹ • (π.prod ν).withDensity fun z =>
      ENNReal.ofReal (G z.1 (mv z.2 z.1))).map (fun z : X × R => mv z.2 z.1) =
      bayesStep κ ℓ π := by
    refine Measure.ext_of_lintegral _ fun F hF => ?_
    unfold bayesStep
    have hFm : Measurable fun z : X × R => F (mv z.2 z.1) := hF.comp hm
    rw [lintegral_map hF hm, lintegral_smul_measure, lintegral_smul_measure,
      lintegral_withDensity_eq_lintegral_mul _ hΓ.ennreal_ofReal hFm,
      lintegral_withDensity_eq_lintegral_mul _ hs.hℓ hF]
    congr 1
    exact evidence_eq hs π hF
  have hprob : IsProbabilityMeasure (bayesStep κ ℓ π) := by
    rw [← htarget]
    have : IsProbabilityMeasure ((evidenceOf κ ℓ π)⁻¹ • (π.prod ν).withDensity fun z =>
        ENNReal.ofReal (G z.1 (mv z.2 z.1))) := by
      refine ⟨?_⟩
      rw [Measure.smul_apply, withDensity_apply _ MeasurableSet.univ, Measure.restrict_univ, hev,
        smul_eq_mul, ENNReal.inv_mul_cancel hZ hZ']
    exact Measure.isProbabilityMeasure_map hm.aemeasurable
  have hZr : 0 < (evidenceOf κ ℓ π).toReal := ENNReal.toReal_pos hZ hZ'
  have hint : ∀ φ : X → ℝ, Measurable φ → (∀ x, |φ x| ≤ 1) →
      ∫ z, G z.1 (mv z.2 z.1) * φ (mv z.2 z.1) ∂(π.prod ν) =
        (evidenceOf κ ℓ π).toReal * ∫ x, φ x ∂(bayesStep κ ℓ π) := by
    intro φ hφ _
    rw [← htarget, integral_map hm.aemeasurable hφ.aestronglyMeasurable, integral_smul_measure,
      integral_withDensity_eq_integral_toReal_smul hΓ.ennreal_ofReal
        (Eventually.of_forall fun _ => ENNReal.ofReal_lt_top), ENNReal.toReal_inv, smul_eq_mul,
      ← mul_assoc, mul_inv_cancel₀ hZr.ne', one_mul]
    refine integral_congr_ae (Eventually.of_forall fun z => ?_)
    simp only [smul_eq_mul]
    rw [ENNReal.toReal_ofReal (hs.nonneg _ _)]
  have a3 := a2.reweight hm hΓ (fun _ => hs.nonneg _ _) (fun _ => hB _ _) hB0 hZr hint
  have s4 : P.map (fun ω => (advanced mv G (prepared static (C ω) (U ω))
      (fun i => (U ω i).2.1), (fun i => (U ω i).2.2 : Fin N → ℝ))) =
      (P.map fun ω => advanced mv G (prepared static (C ω) (U ω)) fun i => (U ω i).2.1).prod
        (unifs N) :=
    law_left (a1.meas.prodMk hR) hD s3.2 (measurable_advanced hs.hmv hs.hG)
  have a4 : CloudNear P (fun ω => advanced mv G (prepared static (C ω) (U ω))
      fun i => (U ω i).2.1) (bayesStep κ ℓ π) _ := a3
  have a5 := a4.resample (D := degenerate dynamic threshold)
    (measurableSet_degenerate dynamic threshold) hD s4
  unfold BFL.filterStep
  exact a5

end CloudNear

/-- Independent draws with equal weights. -/
theorem near_initial {x : Nat → Ω → X} {r : Nat → Nat → Ω → R} {μ : Measure X}
    {ν : Nat → Measure R} (h : IndependentDraws P x r μ ν) (hN : 0 < N) :
    CloudNear P (fun ω (i : Fin N) => (x i ω, 1 / (N : ℝ))) μ (ENNReal.ofReal (1 / √N)) := by
  have hμ : IsProbabilityMeasure μ := by
    rw [← h.law_x 0]
    exact Measure.isProbabilityMeasure_map (h.measurable_x 0).aemeasurable
  have hN' : (0 : ℝ) < N := by exact_mod_cast hN
  have hsum : ∑ _i : Fin N, 1 / (N : ℝ) = 1 := by simp [hN'.ne']
  have a0 : CloudNear P (fun _ (_ : Fin N) => ((), 1 / (N : ℝ))) (Measure.dirac ()) 0 := by
    refine ⟨inferInstance, measurable_const, fun _ _ => by positivity, fun _ => Or.inr hsum, ?_⟩
    intro φ _ _
    have e : (fun _ : Ω => sumOver (fun _ : Fin N => ((), 1 / (N : ℝ))) φ -
        ∫ y, φ y ∂(Measure.dirac ())) = 0 := by
      funext _
      unfold sumOver
      rw [← Finset.sum_mul, hsum, integral_dirac]
      simp
    rw [e]
    simp
  have hx : Measurable fun ω (i : Fin N) => x i ω :=
    measurable_pi_lambda _ fun i => h.measurable_x i
  have a1 := a0.pair hx (ν := μ) (by
    rw [← map_initial h N]
    refine (indepFun_iff_map_prod_eq_prod_map_map measurable_const.aemeasurable
      hx.aemeasurable).1 (indepFun_const_left _ _)) (a := 1 / √N) (by positivity) (by
    intro ω
    rw [div_pow 1 (√(N : ℝ)), Real.sq_sqrt hN'.le]
    simp only [Finset.sum_const, Finset.card_univ, Fintype.card_fin, nsmul_eq_mul]
    apply le_of_eq
    field_simp)
  have a2 := a1.map measurable_snd
  rw [Measure.map_snd_prod, measure_univ, one_smul, zero_add] at a2
  exact a2

/-! ### Evenness of the weights -/

theorem weights_zero {c : Fin N → X × ℝ} (h0 : ∀ i, 0 ≤ (c i).2) (h : ∑ i, (c i).2 = 0) (i : Fin N) :
    (c i).2 = 0 :=
  (Finset.sum_eq_zero_iff_of_nonneg fun i _ => h0 i).1 h i (Finset.mem_univ i)

/-- Equal weights after resampling. -/
theorem squares_resampled {c : Fin N → X × ℝ} (u : Fin N → ℝ) :
    ∑ i, (resampled c u i).2 ^ 2 = 1 / (N : ℝ) := by
  simp only [resampled, Finset.sum_const, Finset.card_univ, Fintype.card_fin, nsmul_eq_mul]
  rcases Nat.eq_zero_or_pos N with rfl | hN
  · simp
  · have : (0 : ℝ) < N := by exact_mod_cast hN
    field_simp

theorem squares_resampleIf {D : Set (Fin N → X × ℝ)} {c : Fin N → X × ℝ} (h0 : ∀ i, 0 ≤ (c i).2)
    (ht : ∑ i, (c i).2 = 0 ∨ ∑ i, (c i).2 = 1) {b : ℝ} (hb : 1 / (N : ℝ) ≤ b)
    (h : c ∉ D → ∑ i, (c i).2 = 1 → ∑ i, (c i).2 ^ 2 ≤ b) (u : Fin N → ℝ) :
    ∑ i, (resampleIf D c u i).2 ^ 2 ≤ b := by
  unfold resampleIf
  split
  · rw [squares_resampled]; exact hb
  · rename_i hc
    rcases ht with ht | ht
    · rw [Finset.sum_eq_zero fun i _ => by rw [weights_zero h0 ht i]; norm_num]
      exact le_trans (by positivity) hb
    · exact h (fun hd => hc ⟨hd, ht⟩) ht

/-- The set left by resampling below the threshold. -/
theorem squares_degenerate {threshold s : ℝ} (hs : 0 < s) (hN : 0 < N)
    (hthr : (N : ℝ) ≤ s * threshold) {c : Fin N → X × ℝ} (hc : c ∉ degenerate True threshold) :
    ∑ i, (c i).2 ^ 2 ≤ s / N := by
  have hN' : (0 : ℝ) < N := by exact_mod_cast hN
  have ht : threshold ≤ 1 / ∑ i, (c i).2 ^ 2 := by
    by_contra h
    exact hc ⟨trivial, not_le.1 h⟩
  have h0 : 0 ≤ ∑ i, (c i).2 ^ 2 := Finset.sum_nonneg fun i _ => sq_nonneg _
  rcases h0.eq_or_lt with h0 | h0
  · rw [← h0]; positivity
  · rw [le_div_iff₀ h0] at ht
    rw [le_div_iff₀ hN']
    calc (∑ i, (c i).2 ^ 2) * N ≤ (∑ i, (c i).2 ^ 2) * (s * threshold) :=
          mul_le_mul_of_nonneg_left hthr h0.le
      _ = s * (threshold * ∑ i, (c i).2 ^ 2) := by ring
      _ ≤ s * 1 := mul_le_mul_of_nonneg_left ht hs.le
      _ = s := mul_one s

end BFL
