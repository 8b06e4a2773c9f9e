import Verif.Lemmas.LastingBackward
import Verif.Lemmas.ParticleResampleBound

/-!
# One update of the particles, seen from the last update
-/

set_option linter.unusedSectionVars false

namespace BFL

open MeasureTheory ProbabilityTheory Filter Spec Props
open scoped ENNReal

variable {R X Ω : Type} [MeasurableSpace X] [MeasurableSpace R] [MeasurableSpace Ω] {N : Nat}

/-- Mean square from the root mean square. -/
theorem lintegral_sq_le {P : Measure Ω} {f : Ω → ℝ} {a : ℝ} (ha : 0 ≤ a) (h : eLpNorm f 2 P ≤ ENNReal.ofReal a) :
    ∫⁻ ω, ENNReal.ofReal (f ω ^ 2) ∂P ≤ ENNReal.ofReal (a ^ 2) := by
  rw [eLpNorm_eq_lintegral_rpow_enorm_toReal (by norm_num) (by norm_num)] at h
  have e : ∀ ω, ‖f ω‖ₑ ^ (2 : ℝ≥0∞).toReal = ENNReal.ofReal (f ω ^ 2) := by
    intro ω
    rw [ENNReal.toReal_ofNat, Real.enorm_eq_ofReal_abs, ENNReal.rpow_ofNat,
      ← ENNReal.ofReal_pow (abs_nonneg _), sq_abs]
  simp only [e] at h
  rw [ENNReal.ofReal_pow ha]
  have h2 := pow_le_pow_left₀ zero_le h 2
  rw [← ENNReal.rpow_ofNat, ← ENNReal.rpow_mul, ENNReal.toReal_ofNat] at h2
  norm_num at h2
  exact h2

/-- The weighted particles as a measure. -/
noncomputable def cloudMeasure (c : Fin N → X × ℝ) : Measure X := ∑ i, ENNReal.ofReal (c i).2 • Measure.dirac (c i).1

theorem cloudMeasure_prob {c : Fin N → X × ℝ} (h0 : ∀ i, 0 ≤ (c i).2) (h1 : ∑ i, (c i).2 = 1) :
    IsProbabilityMeasure (cloudMeasure c) := by
  refine ⟨?_⟩
  unfold cloudMeasure
  rw [Measure.finsetSum_apply]
  simp only [Measure.smul_apply, measure_univ, smul_eq_mul, mul_one]
  rw [← ENNReal.ofReal_sum_of_nonneg fun i _ => h0 i, h1, ENNReal.ofReal_one]

theorem integral_cloudMeasure {c : Fin N → X × ℝ} (h0 : ∀ i, 0 ≤ (c i).2) {f : X → ℝ} (hf : Measurable f) {C : ℝ}
    (hC : ∀ x, |f x| ≤ C) : ∫ x, f x ∂(cloudMeasure c) = sumOver c f := by
  unfold cloudMeasure sumOver
  rw [integral_finsetSum_measure]
  · refine Finset.sum_congr rfl fun i _ => ?_
    rw [integral_smul_measure, integral_dirac' _ _ hf.stronglyMeasurable, ENNReal.toReal_ofReal (h0 i), smul_eq_mul]
  · intro i _
    exact (integrable_bounded hf hC).smul_measure ENNReal.ofReal_ne_top

theorem abs_ahead_le {κ : Kernel X X} [IsMarkovKernel κ] {L f : X → ℝ} {B C : ℝ} (hL : ∀ x, 0 ≤ L x ∧ L x ≤ B)
    (hf : ∀ x, |f x| ≤ C) (x : X) : |ahead κ L f x| ≤ B * C := by
  have h := norm_integral_le_of_norm_le_const (μ := κ x) (f := fun y => L y * f y) (C := B * C)
    (Eventually.of_forall fun y => by rw [Real.norm_eq_abs]; exact abs_mul_le' hL hf y)
  rw [Real.norm_eq_abs] at h
  simpa [ahead] using h

theorem ahead_linear {κ : Kernel X X} [IsMarkovKernel κ] {L f g : X → ℝ} (mL : Measurable L) {B C D : ℝ}
    (hL : ∀ x, 0 ≤ L x ∧ L x ≤ B) (mf : Measurable f) (hf : ∀ x, |f x| ≤ C) (mg : Measurable g) (hg : ∀ x, |g x| ≤ D)
    (p q : ℝ) (x : X) : ahead κ L (fun y => p * f y + q * g y) x = p * ahead κ L f x + q * ahead κ L g x := by
  have i1 : Integrable (fun y => L y * f y) (κ x) := integrable_bounded (mL.mul mf) (abs_mul_le' hL hf)
  have i2 : Integrable (fun y => L y * g y) (κ x) := integrable_bounded (mL.mul mg) (abs_mul_le' hL hg)
  unfold ahead
  rw [← integral_const_mul, ← integral_const_mul, ← integral_add (i1.const_mul p) (i2.const_mul q)]
  refine integral_congr_ae (Eventually.of_forall fun y => ?_)
  ring

theorem sumOver_linear (c : Fin N → X × ℝ) (f g : X → ℝ) (p q : ℝ) :
    sumOver c (fun y => p * f y + q * g y) = p * sumOver c f + q * sumOver c g := by
  unfold sumOver
  rw [Finset.mul_sum, Finset.mul_sum, ← Finset.sum_add_distrib]
  exact Finset.sum_congr rfl fun i _ => by ring

theorem sumOver_mono {c : Fin N → X × ℝ} (h0 : ∀ i, 0 ≤ (c i).2) {f g : X → ℝ} (h : ∀ x, f x ≤ g x) :
    sumOver c f ≤ sumOver c g :=
  Finset.sum_le_sum fun i _ => mul_le_mul_of_nonneg_left (h _) (h0 i)

theorem sumOver_const {c : Fin N → X × ℝ} (h1 : ∑ i, (c i).2 = 1) (a : ℝ) : sumOver c (fun _ => a) = a := by
  unfold sumOver
  rw [← Finset.sum_mul, h1, one_mul]

/-- Mean square error of one update of given particles, for a function of mean 0. -/
theorem local_step {c : Fin N → X × ℝ} (h0 : ∀ i, 0 ≤ (c i).2) (h1 : ∑ i, (c i).2 = 1) {ν : Measure R}
    [IsProbabilityMeasure ν] {mv : R → X → X} {G : X → X → ℝ} {κ : Kernel X X} [IsMarkovKernel κ] {L : X → ℝ}
    (hs : StepLaw mv G ν κ fun y => ENNReal.ofReal (L y)) (hL : Measurable L) {b B r : ℝ} (hb : 0 < b) (hr : 1 ≤ r)
    (hLb : ∀ y, b ≤ L y ∧ L y ≤ B) (hG : ∀ a y, G a y ≤ r * b) (static dynamic : Prop) (threshold : ℝ) {s : ℝ}
    (hsq : ∀ v : Fin N → ℝ × R × ℝ, ∑ i, (prepared static c v i).2 ^ 2 ≤ (√s / √N) ^ 2) {ψ : X → ℝ} (hψ : Measurable ψ)
    (hψ1 : ∀ x, |ψ x| ≤ 1) (hz : sumOver c (ahead κ L ψ) = 0) :
    ∫⁻ v, ENNReal.ofReal (sumOver (filterStep static dynamic threshold mv G (c, v)) ψ ^ 2) ∂(Measure.pi fun _ : Fin N =>
      ((volume : Measure ℝ).restrict (Set.Ioc 0 1)).prod (ν.prod ((volume : Measure ℝ).restrict (Set.Ioc 0 1)))) ≤
      ENNReal.ofReal (((2 * r * (1 + √s) + 1) / √N) ^ 2) := by
  have hu : IsProbabilityMeasure ((volume : Measure ℝ).restrict (Set.Ioc (0 : ℝ) 1)) := ⟨by simp⟩
  set Q := Measure.pi fun _ : Fin N =>
    ((volume : Measure ℝ).restrict (Set.Ioc 0 1)).prod (ν.prod ((volume : Measure ℝ).restrict (Set.Ioc 0 1))) with hQ
  have hπ := cloudMeasure_prob h0 h1
  have hL0 : ∀ y, 0 ≤ L y ∧ L y ≤ B := fun y => ⟨hb.le.trans (hLb y).1, (hLb y).2⟩
  obtain ⟨z1, z2, z3, _, z5⟩ := integral_bayesStep hL hb hLb (κ := κ) (π := cloudMeasure c) hψ hψ1
  rw [integral_cloudMeasure h0 (measurable_ahead hL hψ) (abs_ahead_le hL0 hψ1), hz, zero_div] at z5
  have a0 : CloudNear Q (fun _ => c) (cloudMeasure c) 0 := by
    refine ⟨hπ, measurable_const, fun _ => h0, fun _ => Or.inr h1, fun φ hφ hφ1 => ?_⟩
    have e : (fun _ : Fin N → ℝ × R × ℝ => sumOver c φ - ∫ y, φ y ∂(cloudMeasure c)) = 0 := by
      funext _
      rw [integral_cloudMeasure h0 hφ hφ1, sub_self]
      rfl
    rw [e]
    simp
  have hind : Q.map (fun v => (c, v)) = (Q.map fun _ => c).prod Q := by
    have := (indepFun_iff_map_prod_eq_prod_map_map (μ := Q) (f := fun _ => c) (g := fun v => v)
      measurable_const.aemeasurable measurable_id.aemeasurable).1 (indepFun_const_left _ _)
    rw [this]
    congr 1
    exact Measure.map_id
  have st := a0.filterStep measurable_id hind hs z2 z3 static dynamic threshold hG (by positivity)
    (a := √s / √N) (by positivity) hsq
  have hc := st.close ψ hψ hψ1
  rw [z5] at hc
  simp only [sub_zero, id, zero_add] at hc
  refine lintegral_sq_le (by positivity) (hc.trans ?_)
  rw [← ENNReal.ofReal_add (by positivity) (by positivity), ← ENNReal.ofReal_mul (by positivity),
    ← ENNReal.ofReal_add (by positivity) (by positivity)]
  refine ENNReal.ofReal_le_ofReal ?_
  have hq : r * b / (evidenceOf κ (fun y => ENNReal.ofReal (L y)) (cloudMeasure c)).toReal ≤ r := by
    rw [div_le_iff₀ (by linarith)]
    exact mul_le_mul_of_nonneg_left z1 (by linarith)
  have hn : 0 ≤ 1 / √(N : ℝ) + √s / √N := by positivity
  have := mul_le_mul_of_nonneg_right (mul_le_mul_of_nonneg_left hq (by norm_num : (0 : ℝ) ≤ 2)) hn
  have e : (2 * r * (1 + √s) + 1) / √(N : ℝ) = 2 * r * (1 / √(N : ℝ) + √s / √N) + 1 / √N := by ring
  rw [e]
  linarith

/-! ### The estimate seen from the last update -/

/-- Estimate of the mean, if no further errors are made. -/
noncomputable def ratioOf (c : Fin N → X × ℝ) (F H : X → ℝ) : ℝ := sumOver c F / sumOver c H

/-- Normalised difference. -/
noncomputable def tilt (F H : X → ℝ) (m M hi a : ℝ) (x : X) : ℝ := 1 / ((M - m) * hi) * F x + -a / ((M - m) * hi) * H x

namespace Backward

variable {σ : ℝ} {F H : X → ℝ} {m M hi : ℝ}

theorem measurable_tilt (h : Backward σ F H m M hi) (a : ℝ) : Measurable (tilt F H m M hi a) :=
  (h.mF.const_mul _).add (h.mH.const_mul _)

theorem tilt_le (h : Backward σ F H m M hi) (hσ : 0 < σ) (hd : 0 < M - m) {a : ℝ} (ha : m ≤ a) (ha' : a ≤ M) (x : X) :
    |tilt F H m M hi a x| ≤ 1 := by
  have hp : 0 < (M - m) * hi := mul_pos hd h.hi_pos
  have e : tilt F H m M hi a x = (F x - a * H x) / ((M - m) * hi) := by unfold tilt; ring
  have h0 := h.pos hσ x
  have h1 := h.lower x
  have h2 := h.upper x
  have h3 := mul_le_mul_of_nonneg_left (h.high x) hd.le
  have h4 := mul_le_mul_of_nonneg_right ha h0.le
  have h5 := mul_le_mul_of_nonneg_right ha' h0.le
  rw [e, abs_div, abs_of_pos hp, div_le_one hp, abs_le]
  constructor <;> nlinarith

theorem ratio_error (h : Backward σ F H m M hi) (hσ : 0 < σ) (hd : 0 < M - m) {c : Fin N → X × ℝ}
    (h0 : ∀ i, 0 ≤ (c i).2) (h1 : ∑ i, (c i).2 = 1) (a : ℝ) :
    (ratioOf c F H - a) ^ 2 ≤ ((M - m) / σ) ^ 2 * sumOver c (tilt F H m M hi a) ^ 2 := by
  have hp : 0 < (M - m) * hi := mul_pos hd h.hi_pos
  have hS : σ * hi ≤ sumOver c H := by
    rw [← sumOver_const h1 (σ * hi)]
    exact sumOver_mono h0 h.low
  have hS0 : 0 < sumOver c H := lt_of_lt_of_le (mul_pos hσ h.hi_pos) hS
  have e : sumOver c (tilt F H m M hi a) = (sumOver c F - a * sumOver c H) / ((M - m) * hi) := by
    unfold tilt
    rw [sumOver_linear]
    ring
  have e1 : ratioOf c F H - a = (M - m) * hi / sumOver c H * sumOver c (tilt F H m M hi a) := by
    rw [e]
    unfold ratioOf
    have := h.hi_pos
    field_simp
  rw [e1, mul_pow]
  refine mul_le_mul_of_nonneg_right ?_ (sq_nonneg _)
  refine pow_le_pow_left₀ (by positivity) ?_ 2
  rw [div_le_div_iff₀ hS0 hσ]
  nlinarith

theorem ratio_between (h : Backward σ F H m M hi) (hσ : 0 < σ) {c : Fin N → X × ℝ} (h0 : ∀ i, 0 ≤ (c i).2)
    (h1 : ∑ i, (c i).2 = 1) {κ : Kernel X X} [IsMarkovKernel κ] {L : X → ℝ} (hL : Measurable L) {b B : ℝ} (hb : 0 < b)
    (hLb : ∀ y, b ≤ L y ∧ L y ≤ B) : 0 < sumOver c (ahead κ L H) ∧ m ≤ ratioOf c (ahead κ L F) (ahead κ L H) ∧
      ratioOf c (ahead κ L F) (ahead κ L H) ≤ M := by
  have hL0 : ∀ y, 0 ≤ L y ∧ L y ≤ B := fun y => ⟨hb.le.trans (hLb y).1, (hLb y).2⟩
  have iH : ∀ x, Integrable (fun y => L y * H y) (κ x) := fun x =>
    integrable_bounded (hL.mul h.mH) (abs_mul_le' hL0 (h.absH hσ))
  have iF : ∀ x, Integrable (fun y => L y * F y) (κ x) := fun x =>
    integrable_bounded (hL.mul h.mF) (abs_mul_le' hL0 (h.absF hσ))
  have hbp : 0 < b * (σ * hi) := mul_pos hb (mul_pos hσ h.hi_pos)
  have p1 : ∀ x, b * (σ * hi) ≤ ahead κ L H x := by
    intro x
    have e : ∫ _, b * (σ * hi) ∂(κ x) = b * (σ * hi) := by simp
    rw [← e]
    exact integral_mono (integrable_const _) (iH x) fun y =>
      mul_le_mul (hLb y).1 (h.low y) (mul_pos hσ h.hi_pos).le (hL0 y).1
  have p2 : ∀ x, m * ahead κ L H x ≤ ahead κ L F x := by
    intro x
    unfold ahead
    rw [← integral_const_mul]
    refine integral_mono ((iH x).const_mul m) (iF x) fun y => ?_
    have := mul_le_mul_of_nonneg_left (h.lower y) (hL0 y).1
    beta_reduce
    linarith
  have p3 : ∀ x, ahead κ L F x ≤ M * ahead κ L H x := by
    intro x
    unfold ahead
    rw [← integral_const_mul]
    refine integral_mono (iF x) ((iH x).const_mul M) fun y => ?_
    have := mul_le_mul_of_nonneg_left (h.upper y) (hL0 y).1
    beta_reduce
    linarith
  have q1 : 0 < sumOver c (ahead κ L H) := by
    refine lt_of_lt_of_le hbp ?_
    rw [← sumOver_const h1 (b * (σ * hi))]
    exact sumOver_mono h0 p1
  have sc : ∀ a : ℝ, sumOver c (fun x => a * ahead κ L H x) = a * sumOver c (ahead κ L H) := by
    intro a
    unfold sumOver
    rw [Finset.mul_sum]
    exact Finset.sum_congr rfl fun i _ => by ring
  refine ⟨q1, ?_, ?_⟩
  · unfold ratioOf
    rw [le_div_iff₀ q1, ← sc]
    exact sumOver_mono h0 p2
  · unfold ratioOf
    rw [div_le_iff₀ q1, ← sc]
    exact sumOver_mono h0 p3

end Backward

/-- The weights have total 1 after the update. -/
theorem filterStep_total {mv : R → X → X} {G : X → X → ℝ} (hG : ∀ a y, 0 < G a y)
    {static dynamic : Prop} {threshold : ℝ} {c : Fin N → X × ℝ} (h0 : ∀ i, 0 ≤ (c i).2) (h1 : ∑ i, (c i).2 = 1)
    (v : Fin N → ℝ × R × ℝ) : (∀ i, 0 ≤ (filterStep static dynamic threshold mv G (c, v) i).2) ∧
      ∑ i, (filterStep static dynamic threshold mv G (c, v) i).2 = 1 := by
  have hG0 : ∀ a y, 0 ≤ G a y := fun a y => (hG a y).le
  have p0 : ∀ i, 0 ≤ (prepared static c v i).2 := resampleIf_nonneg h0 _
  have pt : ∑ i, (prepared static c v i).2 = 1 := by unfold prepared; rw [resampleIf_total, h1]
  unfold filterStep
  refine ⟨resampleIf_nonneg (advanced_nonneg hG0 p0 _) _, ?_⟩
  rw [resampleIf_total]
  unfold advanced
  rw [← Finset.sum_div]
  obtain ⟨i, hi, hpi⟩ : ∃ i ∈ Finset.univ, 0 < (prepared static c v i).2 :=
    by
    by_contra hcon
    simp only [Finset.mem_univ, true_and, not_exists, not_lt] at hcon
    have := Finset.sum_nonpos fun i (_ : i ∈ Finset.univ) => hcon i
    rw [pt] at this
    linarith
  exact div_self (ne_of_gt (Finset.sum_pos' (fun j _ => mul_nonneg (p0 j) (hG0 _ _)) ⟨i, hi, mul_pos hpi (hG _ _)⟩))

/-- Mean square change of the estimate by one update of given particles. -/
theorem ratio_step {σ : ℝ} {F H : X → ℝ} {m M hi : ℝ} (h : Backward σ F H m M hi) (hσ : 0 < σ) (hd : 0 < M - m)
    {c : Fin N → X × ℝ} (h0 : ∀ i, 0 ≤ (c i).2) (h1 : ∑ i, (c i).2 = 1) {ν : Measure R}
    [IsProbabilityMeasure ν] {mv : R → X → X} {G : X → X → ℝ} {κ : Kernel X X} [IsMarkovKernel κ] {L : X → ℝ}
    (hs : StepLaw mv G ν κ fun y => ENNReal.ofReal (L y)) (hL : Measurable L) {b B r : ℝ} (hb : 0 < b) (hr : 1 ≤ r)
    (hLb : ∀ y, b ≤ L y ∧ L y ≤ B) (hG : ∀ a y, 0 < G a y ∧ G a y ≤ r * b) (static dynamic : Prop) (threshold : ℝ)
    {s : ℝ} (hsq : ∀ v : Fin N → ℝ × R × ℝ, ∑ i, (prepared static c v i).2 ^ 2 ≤ (√s / √N) ^ 2) :
    ∫⁻ v, ENNReal.ofReal ((ratioOf (filterStep static dynamic threshold mv G (c, v)) F H -
        ratioOf c (ahead κ L F) (ahead κ L H)) ^ 2) ∂(Measure.pi fun _ : Fin N =>
      ((volume : Measure ℝ).restrict (Set.Ioc 0 1)).prod (ν.prod ((volume : Measure ℝ).restrict (Set.Ioc 0 1)))) ≤
      ENNReal.ofReal (((M - m) / σ * ((2 * r * (1 + √s) + 1) / √N)) ^ 2) := by
  have hL0 : ∀ y, 0 ≤ L y ∧ L y ≤ B := fun y => ⟨hb.le.trans (hLb y).1, (hLb y).2⟩
  obtain ⟨q1, q2, q3⟩ := h.ratio_between hσ h0 h1 (κ := κ) hL hb hLb
  obtain ⟨a, ha⟩ : ∃ a, a = ratioOf c (ahead κ L F) (ahead κ L H) := ⟨_, rfl⟩
  rw [← ha] at q2 q3
  have hz : sumOver c (ahead κ L (tilt F H m M hi a)) = 0 := by
    have e : ahead κ L (tilt F H m M hi a) = fun x =>
        1 / ((M - m) * hi) * ahead κ L F x + -a / ((M - m) * hi) * ahead κ L H x := by
      funext x
      exact ahead_linear hL hL0 h.mF (h.absF hσ) h.mH (h.absH hσ) _ _ x
    have e2 : a * sumOver c (ahead κ L H) = sumOver c (ahead κ L F) := by
      rw [ha]; exact div_mul_cancel₀ _ q1.ne'
    rw [e, sumOver_linear, ← e2]
    ring
  have hl := local_step h0 h1 hs hL hb hr hLb (fun a y => (hG a y).2) static dynamic threshold hsq
    (h.measurable_tilt a) (h.tilt_le hσ hd q2 q3) hz
  rw [← ha]
  calc _ ≤ ∫⁻ v, ENNReal.ofReal (((M - m) / σ) ^ 2) * ENNReal.ofReal (sumOver (filterStep static dynamic threshold mv G (c, v))
        (tilt F H m M hi a) ^ 2) ∂(Measure.pi fun _ : Fin N =>
      ((volume : Measure ℝ).restrict (Set.Ioc 0 1)).prod (ν.prod ((volume : Measure ℝ).restrict (Set.Ioc 0 1)))) := by
        refine lintegral_mono fun v => ?_
        rw [← ENNReal.ofReal_mul (sq_nonneg _)]
        obtain ⟨t0, t1⟩ := filterStep_total (fun a y => (hG a y).1) (static := static) (dynamic := dynamic)
          (threshold := threshold) (mv := mv) h0 h1 v
        exact ENNReal.ofReal_le_ofReal (h.ratio_error hσ hd t0 t1 a)
    _ = ENNReal.ofReal (((M - m) / σ) ^ 2) * ∫⁻ v, ENNReal.ofReal (sumOver (filterStep static dynamic threshold mv G (c, v))
        (tilt F H m M hi a) ^ 2) ∂(Measure.pi fun _ : Fin N =>
      ((volume : Measure ℝ).restrict (Set.Ioc 0 1)).prod (ν.prod ((volume : Measure ℝ).restrict (Set.Ioc 0 1)))) :=
        lintegral_const_mul' _ _ ENNReal.ofReal_ne_top
    _ ≤ ENNReal.ofReal (((M - m) / σ) ^ 2) * ENNReal.ofReal (((2 * r * (1 + √s) + 1) / √N) ^ 2) := by gcongr
    _ = _ := by rw [← ENNReal.ofReal_mul (sq_nonneg _), ← mul_pow]

end BFL
