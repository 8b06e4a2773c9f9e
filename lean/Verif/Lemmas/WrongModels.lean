import Verif.Lemmas.WrongStart
import Verif.Props.ParticleFilter
import Verif.Spec.WrongModels

/-!
# Exact filters with slightly wrong models
-/

set_option linter.unusedSectionVars false

namespace BFL.Props

open MeasureTheory ProbabilityTheory Filter Spec
open scoped ENNReal Topology

variable {X : Type} [MeasurableSpace X]

/-- A mean under moves and likelihood, as an integral with weights. -/
theorem ahead_withDensity {κ : Kernel X X} [IsMarkovKernel κ] {L : X → ℝ} (hL : Measurable L) {B : ℝ}
    (hLb : ∀ y, 0 ≤ L y ∧ L y ≤ B) {f : X → ℝ} (hf : Measurable f) {C : ℝ} (hC : ∀ y, |f y| ≤ C) (x : X) :
    Integrable f ((κ x).withDensity fun y => ENNReal.ofReal (L y)) ∧
      ∫ y, f y ∂((κ x).withDensity fun y => ENNReal.ofReal (L y)) = ahead κ L f x := by
  have hi : Integrable L (κ x) := integrable_bounded hL (C := B) fun y => by
    rw [abs_of_nonneg (hLb y).1]; exact (hLb y).2
  have hfin : IsFiniteMeasure ((κ x).withDensity fun y => ENNReal.ofReal (L y)) :=
    isFiniteMeasure_withDensity_ofReal hi.2
  refine ⟨integrable_bounded hf hC, ?_⟩
  rw [integral_withDensity_eq_integral_toReal_smul hL.ennreal_ofReal (Eventually.of_forall fun y => ENNReal.ofReal_lt_top)]
  unfold ahead
  refine integral_congr_ae (Eventually.of_forall fun y => ?_)
  beta_reduce
  rw [ENNReal.toReal_ofReal (hLb y).1, smul_eq_mul]

section step

variable {κ κ' : Kernel X X} [IsMarkovKernel κ] [IsMarkovKernel κ'] {L L' : X → ℝ} (hL : Measurable L) (hL' : Measurable L')
  {b B b' B' : ℝ} (hb : 0 < b) (hLb : ∀ y, b ≤ L y ∧ L y ≤ B) (hb' : 0 < b') (hLb' : ∀ y, b' ≤ L' y ∧ L' y ≤ B') {δ : ℝ}
  (hδ : 0 ≤ δ)

include hL hL' hb hLb hb' hLb' hδ

theorem ahead_between {a : ℝ} (ha : 0 < a)
    (hn : ∀ x, ENNReal.ofReal a • (κ x).withDensity (fun y => ENNReal.ofReal (L y)) ≤
        (κ' x).withDensity (fun y => ENNReal.ofReal (L' y)) ∧
      (κ' x).withDensity (fun y => ENNReal.ofReal (L' y)) ≤
        ENNReal.ofReal (a * (1 + δ)) • (κ x).withDensity fun y => ENNReal.ofReal (L y))
    {f : X → ℝ} (hf : Measurable f) {C : ℝ} (hC : ∀ y, |f y| ≤ C) (h0 : ∀ y, 0 ≤ f y) (x : X) :
    a * ahead κ L f x ≤ ahead κ' L' f x ∧ ahead κ' L' f x ≤ a * (1 + δ) * ahead κ L f x := by
  obtain ⟨i1, e1⟩ := ahead_withDensity (κ := κ) hL (fun y => ⟨hb.le.trans (hLb y).1, (hLb y).2⟩) hf hC x
  obtain ⟨i2, e2⟩ := ahead_withDensity (κ := κ') hL' (fun y => ⟨hb'.le.trans (hLb' y).1, (hLb' y).2⟩) hf hC x
  have n1 := integral_mono_measure (hn x).1 (Eventually.of_forall h0) i2
  have n2 := integral_mono_measure (hn x).2 (Eventually.of_forall h0) (i1.smul_measure ENNReal.ofReal_ne_top)
  rw [integral_smul_measure, ENNReal.toReal_ofReal ha.le, smul_eq_mul, e1, e2] at n1
  rw [integral_smul_measure, ENNReal.toReal_ofReal (by positivity), smul_eq_mul, e1, e2] at n2
  exact ⟨n1, n2⟩

/-- One step with the other models changes the estimate at the end by a small part of what is still open. -/
theorem ratio_wrong {σ : ℝ} {F H : X → ℝ} {m M hi : ℝ} (h : Backward σ F H m M hi) (hσ : 0 < σ)
    (hn : NearlyRight κ κ' (fun y => ENNReal.ofReal (L y)) (fun y => ENNReal.ofReal (L' y)) δ)
    (π : Measure X) [IsProbabilityMeasure π] :
    |(∫ x, ahead κ' L' F x ∂π) / (∫ x, ahead κ' L' H x ∂π) - (∫ x, ahead κ L F x ∂π) / ∫ x, ahead κ L H x ∂π| ≤
      δ * (M - m) := by
  obtain ⟨a, ha, hn⟩ := hn
  have hL0 : ∀ y, 0 ≤ L y ∧ L y ≤ B := fun y => ⟨hb.le.trans (hLb y).1, (hLb y).2⟩
  have hL0' : ∀ y, 0 ≤ L' y ∧ L' y ≤ B' := fun y => ⟨hb'.le.trans (hLb' y).1, (hLb' y).2⟩
  -- integrals of the functions looked at
  have int : ∀ (κ : Kernel X X) [IsMarkovKernel κ] {L : X → ℝ} {B : ℝ}, Measurable L → (∀ y, 0 ≤ L y ∧ L y ≤ B) →
      ∀ p q : ℝ, Integrable (ahead κ L F) π ∧ Integrable (ahead κ L H) π ∧
      ∫ x, ahead κ L (fun y => p * F y + q * H y) x ∂π = p * (∫ x, ahead κ L F x ∂π) + q * ∫ x, ahead κ L H x ∂π := by
    intro κ _ L B hL hL0 p q
    have iF : Integrable (ahead κ L F) π := integrable_bounded (measurable_ahead hL h.mF) (abs_ahead_le hL0 (h.absF hσ))
    have iH : Integrable (ahead κ L H) π := integrable_bounded (measurable_ahead hL h.mH) (abs_ahead_le hL0 (h.absH hσ))
    refine ⟨iF, iH, ?_⟩
    rw [← integral_const_mul, ← integral_const_mul, ← integral_add (iF.const_mul p) (iH.const_mul q)]
    refine integral_congr_ae (Eventually.of_forall fun x => ?_)
    exact ahead_linear hL hL0 h.mF (h.absF hσ) h.mH (h.absH hσ) p q x
  have bet : ∀ p q : ℝ, (∀ y, 0 ≤ p * F y + q * H y) →
      a * (p * (∫ x, ahead κ L F x ∂π) + q * ∫ x, ahead κ L H x ∂π) ≤
        p * (∫ x, ahead κ' L' F x ∂π) + q * ∫ x, ahead κ' L' H x ∂π ∧
      p * (∫ x, ahead κ' L' F x ∂π) + q * ∫ x, ahead κ' L' H x ∂π ≤
        a * (1 + δ) * (p * (∫ x, ahead κ L F x ∂π) + q * ∫ x, ahead κ L H x ∂π) := by
    intro p q h0
    have mf : Measurable fun y => p * F y + q * H y := (h.mF.const_mul p).add (h.mH.const_mul q)
    have hC : ∀ y, |p * F y + q * H y| ≤ |p| * hi + |q| * hi := by
      intro y
      refine (abs_add_le _ _).trans ?_
      rw [abs_mul, abs_mul]
      exact add_le_add (mul_le_mul_of_nonneg_left (h.absF hσ y) (abs_nonneg _))
        (mul_le_mul_of_nonneg_left (h.absH hσ y) (abs_nonneg _))
    have pw := ahead_between hL hL' hb hLb hb' hLb' hδ ha hn mf hC h0
    have i1 : Integrable (ahead κ L fun y => p * F y + q * H y) π :=
      integrable_bounded (measurable_ahead hL mf) (abs_ahead_le hL0 hC)
    have i2 : Integrable (ahead κ' L' fun y => p * F y + q * H y) π :=
      integrable_bounded (measurable_ahead hL' mf) (abs_ahead_le hL0' hC)
    rw [← (int κ hL hL0 p q).2.2, ← (int κ' hL' hL0' p q).2.2, ← integral_const_mul, ← integral_const_mul]
    exact ⟨integral_mono (i1.const_mul _) i2 fun x => (pw x).1, integral_mono i2 (i1.const_mul _) fun x => (pw x).2⟩
  have hH := bet 0 1 (fun y => by have := h.pos hσ y; linarith)
  simp only [zero_mul, one_mul, zero_add] at hH
  have hlo := bet 1 (-m) (fun y => by have := h.lower y; linarith)
  have hup := bet (-1) M (fun y => by have := h.upper y; linarith)
  have nn : ∀ p q : ℝ, (∀ y, 0 ≤ p * F y + q * H y) →
      0 ≤ p * (∫ x, ahead κ L F x ∂π) + q * ∫ x, ahead κ L H x ∂π := by
    intro p q h0
    rw [← (int κ hL hL0 p q).2.2]
    exact integral_nonneg fun x => integral_nonneg fun y => mul_nonneg (hL0 y).1 (h0 y)
  have nlo := nn 1 (-m) (fun y => by have := h.lower y; linarith)
  have nup := nn (-1) M (fun y => by have := h.upper y; linarith)
  have pos : 0 < ∫ x, ahead κ L H x ∂π := by
    have hbp : 0 < b * (σ * hi) := mul_pos hb (mul_pos hσ h.hi_pos)
    refine lt_of_lt_of_le hbp ?_
    have e : ∫ _, b * (σ * hi) ∂π = b * (σ * hi) := by simp
    rw [← e]
    refine integral_mono (integrable_const _) (int κ hL hL0 0 0).2.1 fun x => ?_
    have e2 : ∫ _, b * (σ * hi) ∂(κ x) = b * (σ * hi) := by simp
    beta_reduce
    rw [← e2]
    exact integral_mono (integrable_const _) (integrable_bounded (hL.mul h.mH) (abs_mul_le' hL0 (h.absH hσ))) fun y =>
      mul_le_mul (hLb y).1 (h.low y) (mul_pos hσ h.hi_pos).le (hL0 y).1
  generalize (∫ x, ahead κ L F x ∂π) = AF at *
  generalize (∫ x, ahead κ L H x ∂π) = AH at *
  generalize (∫ x, ahead κ' L' F x ∂π) = AF' at *
  generalize (∫ x, ahead κ' L' H x ∂π) = AH' at *
  have pos' : 0 < AH' := lt_of_lt_of_le (mul_pos ha pos) hH.1
  obtain ⟨q, hq⟩ : ∃ q, q = AF / AH := ⟨_, rfl⟩
  obtain ⟨q', hq'⟩ : ∃ q', q' = AF' / AH' := ⟨_, rfl⟩
  have eq1 : AF = q * AH := by rw [hq]; field_simp
  have eq2 : AF' = q' * AH' := by rw [hq']; field_simp
  rw [← hq, ← hq']
  subst eq1 eq2
  have haδ : 0 ≤ a * δ := mul_nonneg ha.le hδ
  have hmq : 0 ≤ q - m := by
    by_contra hneg
    push Not at hneg
    nlinarith [mul_pos_of_neg_of_neg hneg (neg_lt_zero.mpr pos)]
  have hMq : 0 ≤ M - q := by
    by_contra hneg
    push Not at hneg
    nlinarith [mul_pos_of_neg_of_neg hneg (neg_lt_zero.mpr pos)]
  have u1 : q' - m ≤ (1 + δ) * (q - m) := by
    have h1 : (q' - m) * AH' ≤ (1 + δ) * (q - m) * AH' := by
      have h2 : (q' - m) * AH' ≤ (1 + δ) * (q - m) * (a * AH) := by nlinarith [hlo.2]
      exact h2.trans (mul_le_mul_of_nonneg_left hH.1 (by positivity))
    exact le_of_mul_le_mul_right h1 pos'
  have u2 : M - q' ≤ (1 + δ) * (M - q) := by
    have h1 : (M - q') * AH' ≤ (1 + δ) * (M - q) * AH' := by
      have h2 : (M - q') * AH' ≤ (1 + δ) * (M - q) * (a * AH) := by nlinarith [hup.2]
      exact h2.trans (mul_le_mul_of_nonneg_left hH.1 (by positivity))
    exact le_of_mul_le_mul_right h1 pos'
  rw [abs_le]
  constructor <;> nlinarith

end step

/-- Likelihoods as real numbers. -/
theorem real_likelihoods {ℓ : Nat → X → ℝ≥0∞} (mℓ : ∀ t, Measurable (ℓ t)) {b B : Nat → ℝ}
    (hℓ : ∀ t, 0 < b t ∧ ∀ y, ENNReal.ofReal (b t) ≤ ℓ t y ∧ ℓ t y ≤ ENNReal.ofReal (B t)) :
    ∃ L : Nat → X → ℝ, (ℓ = fun t y => ENNReal.ofReal (L t y)) ∧ (∀ t, Measurable (L t)) ∧
      ∀ t, 0 < b t ∧ ∀ y, b t ≤ L t y ∧ L t y ≤ B t := by
  have hfin : ∀ t y, ℓ t y ≠ ∞ := fun t y => ne_top_of_le_ne_top ENNReal.ofReal_ne_top ((hℓ t).2 y).2
  refine ⟨fun t y => (ℓ t y).toReal, ?_, fun t => (mℓ t).ennreal_toReal, fun t => ⟨(hℓ t).1, fun y => ?_⟩⟩
  · funext t y
    rw [ENNReal.ofReal_toReal (hfin t y)]
  · obtain ⟨h0, h1⟩ := hℓ t
    have hB : 0 ≤ B t := (ENNReal.ofReal_pos.1 (lt_of_lt_of_le (ENNReal.ofReal_pos.2 h0) ((h1 y).1.trans (h1 y).2))).le
    exact ⟨(ENNReal.ofReal_le_iff_le_toReal (hfin t y)).1 (h1 y).1, ENNReal.toReal_le_of_le_ofReal hB (h1 y).2⟩

/-- The means of two exact filters with the same prior, one of them with models that are nearly right. -/
theorem exact_wrong {κ κ' : Nat → Kernel X X} [∀ t, IsMarkovKernel (κ t)] [∀ t, IsMarkovKernel (κ' t)]
    {ℓ ℓ' : Nat → X → ℝ≥0∞} (mℓ : ∀ t, Measurable (ℓ t)) (mℓ' : ∀ t, Measurable (ℓ' t)) {b B b' B' : Nat → ℝ}
    (hℓ : ∀ t, 0 < b t ∧ ∀ y, ENNReal.ofReal (b t) ≤ ℓ t y ∧ ℓ t y ≤ ENNReal.ofReal (B t))
    (hℓ' : ∀ t, 0 < b' t ∧ ∀ y, ENNReal.ofReal (b' t) ≤ ℓ' t y ∧ ℓ' t y ≤ ENNReal.ofReal (B' t))
    {σ δ : ℝ} (hσ : 0 < σ) (hσ1 : σ < 1) (hδ : 0 ≤ δ) (hκ : ∀ t, MovesAlike (κ t) σ)
    (hn : ∀ t, NearlyRight (κ t) (κ' t) (ℓ t) (ℓ' t) δ) [Nonempty X]
    {φ : X → ℝ} (hφ : Measurable φ) (hφ1 : ∀ x, |φ x| ≤ 1) (T : Nat) {μ : Measure X} [IsProbabilityMeasure μ] :
    |∫ y, φ y ∂(exactFilter κ' ℓ' μ T) - ∫ y, φ y ∂(exactFilter κ ℓ μ T)| ≤ 2 * δ / σ := by
  obtain ⟨L, rfl, mL, hL⟩ := real_likelihoods mℓ hℓ
  obtain ⟨L', rfl, mL', hL'⟩ := real_likelihoods mℓ' hℓ'
  have key : ∀ k ≤ T, |∫ y, φ y ∂(exactFilter κ' (fun t y => ENNReal.ofReal (L' t y)) μ T) -
      (∫ y, backward κ L T φ k y ∂(exactFilter κ' (fun t y => ENNReal.ofReal (L' t y)) μ (T - k))) /
        ∫ y, backward κ L T (fun _ => 1) k y ∂(exactFilter κ' (fun t y => ENNReal.ofReal (L' t y)) μ (T - k))| ≤
      2 * δ / σ * (1 - (1 - σ) ^ k) := by
    intro k
    induction k with
    | zero =>
      intro _
      have := exactFilter_prob (κ := κ') mL' hL' (μ := μ) T
      simp [backward]
    | succ k ih =>
      intro hk
      have hp := exactFilter_prob (κ := κ') mL' hL' (μ := μ) (T - (k + 1))
      obtain ⟨m, M, hi, hB, hgap⟩ := backward_bounds hσ hσ1 (fun t _ => hκ t) mL (fun t _ => hL t) hφ hφ1 (T := T) k
        (by omega)
      have h1 := ratio_wrong (mL (T - (k + 1))) (mL' (T - (k + 1))) (hL _).1 (hL _).2 (hL' _).1 (hL' _).2 hδ hB hσ
        (hn (T - (k + 1))) (exactFilter κ' (fun t y => ENNReal.ofReal (L' t y)) μ (T - (k + 1)))
      have h2 := ih (by omega)
      have e : T - k = T - (k + 1) + 1 := by omega
      rw [e, exactFilter] at h2
      obtain ⟨ev, _, _, e1, e2⟩ := integral_bayesStep (κ := κ' (T - (k + 1))) (mL' (T - (k + 1))) (hL' _).1 (hL' _).2
        (π := exactFilter κ' (fun t y => ENNReal.ofReal (L' t y)) μ (T - (k + 1))) hB.mF (hB.absF hσ)
      obtain ⟨_, _, _, _, e3⟩ := integral_bayesStep (κ := κ' (T - (k + 1))) (mL' (T - (k + 1))) (hL' _).1 (hL' _).2
        (π := exactFilter κ' (fun t y => ENNReal.ofReal (L' t y)) μ (T - (k + 1))) hB.mH (hB.absH hσ)
      have hne : (∫ x, ahead (κ' (T - (k + 1))) (L' (T - (k + 1))) (fun _ => 1) x
          ∂(exactFilter κ' (fun t y => ENNReal.ofReal (L' t y)) μ (T - (k + 1)))) ≠ 0 := by
        rw [e1]
        exact (lt_of_lt_of_le (hL' _).1 ev).ne'
      rw [e2, e3, div_div_div_cancel_right₀ hne] at h2
      refine (abs_sub_le _ _ _).trans ((add_le_add h2 h1).trans (le_of_eq ?_))
      rw [hgap]
      field_simp
      ring
  have hrat := exact_ratio (κ := κ) mL hL (μ := μ) hσ hσ1 (fun t _ => hκ t) hφ hφ1 T le_rfl
  have h := key T le_rfl
  rw [Nat.sub_self, exactFilter] at hrat h
  rw [hrat]
  refine h.trans (mul_le_of_le_one_right (by positivity) ?_)
  have : 0 ≤ (1 - σ) ^ T := pow_nonneg (by linarith) _
  linarith

/-! ### A state that never moves, without resampling -/

section static

open ParticleFilter

variable {R MV : Type} {threshold : ℝ}

theorem advance_static (g : X → ℝ) (ρ : Nat → R) (ps : List (X × ℝ)) :
    advance (fun _ a => a) (fun _ y => g y) ρ ps =
        ps.map (fun a => (a.1, a.2 * g a.1 / (ps.map fun a => a.2 * g a.1).sum)) ∧
      advanceTotal (fun _ a => a) (fun _ y => g y) ρ ps = (ps.map fun a => a.2 * g a.1).sum := by
  have e : ps.mapIdx (fun _ a => a.2 * g a.1) = ps.map fun a => a.2 * g a.1 := by
    apply List.ext_getElem <;> simp
  refine ⟨?_, ?_⟩
  · unfold Props.advance advanceTotal
    rw [e]
    apply List.ext_getElem <;> simp
  · unfold advanceTotal
    rw [e]

theorem sum_weighted_pos {ps : List (X × ℝ)} (hn : Normalised ps) {g : X → ℝ} {l : ℝ} (hl : 0 < l) (hg : ∀ y, l ≤ g y) :
    0 < (ps.map fun a => a.2 * g a.1).sum := by
  have h1 : (ps.map fun a => a.2 * l).sum = l := by
    have h2 : (ps.map Prod.snd).sum = 1 := hn.2
    have e : (ps.map fun a => a.2 * l) = (ps.map Prod.snd).map fun w => w * l := by rw [List.map_map]; rfl
    rw [e, List.sum_map_mul_right, List.map_id', h2, one_mul]
  refine lt_of_lt_of_le hl (h1.symm.le.trans (List.sum_le_sum fun a ha => ?_))
  exact mul_le_mul_of_nonneg_left (hg _) (hn.1 _ (List.mem_map_of_mem ha))

theorem normalised_reweighted {ps : List (X × ℝ)} (hn : Normalised ps) {g : X → ℝ} {l : ℝ} (hl : 0 < l)
    (hg : ∀ y, l ≤ g y) :
    Normalised (ps.map fun a => (a.1, a.2 * g a.1 / (ps.map fun a => a.2 * g a.1).sum)) := by
  have hpos := sum_weighted_pos hn hl hg
  refine ⟨?_, ?_⟩
  · intro w hw
    rw [List.map_map, List.mem_map] at hw
    obtain ⟨a, ha, rfl⟩ := hw
    exact div_nonneg (mul_nonneg (hn.1 _ (List.mem_map_of_mem ha)) (hl.le.trans (hg _))) hpos.le
  · rw [List.map_map]
    have e : (ps.map (Prod.snd ∘ fun a : X × ℝ => (a.1, a.2 * g a.1 / (ps.map fun a => a.2 * g a.1).sum))) =
        (ps.map fun a => a.2 * g a.1 * ((ps.map fun a => a.2 * g a.1).sum)⁻¹) := rfl
    rw [e, List.sum_map_mul_right, mul_inv_cancel₀ hpos.ne']

/-- The weights after `T` updates are the first ones times the likelihoods. -/
theorem static_run {root : Nat → ℝ → ℝ} {step : Noise R ℝ → UpdateCall R X MV ℝ → ParticleFilter R X ℝ →
      Outcome (Bool × ParticleFilter R X ℝ)} {good : ParticleFilter R X ℝ → Prop} {c : UpdateCall R X MV ℝ}
    {g : X → ℝ} (hc : StepRuns root step 0 threshold good c (fun _ a => a) (fun _ y => g y)) {l : ℝ} (hl : 0 < l)
    (hg : ∀ y, l ≤ g y) (hthr : threshold ≤ 1) {noise : Nat → Noise R ℝ}
    (hu : ∀ t, Uniforms (noise t).static ∧ Uniforms (noise t).dynamic) {f : ParticleFilter R X ℝ} (hgood : good f)
    {ps : List (X × ℝ)} (hr : Ready 0 threshold 0 f ps) : ∀ T, ∃ f' k n,
      ParticleFilter.run step ((List.range T).map fun t => (noise t, c)) f = .ok (true, f') ∧ good f' ∧
        Ready 0 threshold n f' (ps.map fun a => (a.1, k * (a.2 * g a.1 ^ T)))
  | 0 => ⟨f, 1, 0, rfl, hgood, by simpa using hr⟩
  | T + 1 => by
    obtain ⟨f1, k, n, r1, g1, rd1⟩ := static_run hc hl hg hthr hu hgood hr T
    obtain ⟨ps2, h2, h3⟩ := hc rd1 g1 (hu T).1 (hu T).2
    have e2 := h2.2 (by rintro ⟨_, h4, h5⟩; rw [zero_dvd_iff] at h5; omega)
    subst e2
    have hpos := sum_weighted_pos rd1.live.dist hl hg
    obtain ⟨ea, et⟩ := advance_static g (noise T).prop (ps.map fun a => (a.1, k * (a.2 * g a.1 ^ T)))
    obtain ⟨f3, ps3, k1, k2, k3, k4⟩ := h3 (by rw [et]; exact hpos)
    have hnorm : Normalised ((ps.map fun a => (a.1, k * (a.2 * g a.1 ^ T))).map fun a => (a.1, a.2 * g a.1 /
        ((ps.map fun a => (a.1, k * (a.2 * g a.1 ^ T))).map fun a => a.2 * g a.1).sum)) :=
      normalised_reweighted rd1.live.dist hl hg
    have e4 := k4.2 (by
      rintro ⟨_, h5⟩
      rw [ea] at h5
      exact absurd h5 (not_lt.2 (hthr.trans (C28_effective_size hnorm).1)))
    rw [ea] at e4
    subst e4
    refine ⟨f3, k / ((ps.map fun a => (a.1, k * (a.2 * g a.1 ^ T))).map fun a => a.2 * g a.1).sum,
      n + (if c.sys.isSome = true then 1 else 0), ?_, k2, ?_⟩
    · rw [List.range_succ, List.map_append]
      exact run_snoc step (noise T, c) k1 _ r1
    · convert k3 using 1
      generalize ((ps.map fun a => (a.1, k * (a.2 * g a.1 ^ T))).map fun a => a.2 * g a.1).sum = tot
      rw [List.map_map]
      refine List.map_congr_left fun a _ => ?_
      simp only [Function.comp, Prod.mk.injEq, true_and]
      ring

end static

end BFL.Props
