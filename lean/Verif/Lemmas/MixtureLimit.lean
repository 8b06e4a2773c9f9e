import Verif.Lemmas.MixtureStep
import Verif.Spec.MixtureLaw

/-!
# Limits of component weights, and the exact filter of a mixture
-/

set_option linter.unusedSectionVars false

namespace BFL

open MeasureTheory ProbabilityTheory Filter Spec Props
open scoped ENNReal Topology

variable {R X Ω : Type} [MeasurableSpace X] [MeasurableSpace R] [MeasurableSpace Ω]
  {P : Measure Ω} [IsProbabilityMeasure P] {N J : ℕ}

/-- Convergence in probability of random numbers to a constant. -/
def TendsTo (P : Measure Ω) (F : ℕ → Ω → ℝ) (a : ℝ) : Prop :=
  ∀ ε > 0, Rare P fun N => {ω | ε ≤ |F N ω - a|}

theorem TendsTo.const (a : ℝ) : TendsTo P (fun _ _ => a) a := by
  intro ε hε
  refine Rare.empty.mono (Eventually.of_forall fun N ω hω => ?_)
  have h : ε ≤ |a - a| := hω
  simp at h
  linarith

/-- Continuous functions of finitely many quantities. -/
theorem TendsTo.comp {ι : Type} [Fintype ι] {F : ι → ℕ → Ω → ℝ} {a : ι → ℝ}
    (h : ∀ i, TendsTo P (F i) (a i)) {g : (ι → ℝ) → ℝ} (hg : ContinuousAt g a) :
    TendsTo P (fun N ω => g fun i => F i N ω) (g a) := by
  intro ε hε
  obtain ⟨δ, hδ, hd⟩ := Metric.continuousAt_iff.1 hg ε hε
  refine (Rare.iUnion fun i => h i δ hδ).mono (Eventually.of_forall fun N ω hω => ?_)
  by_contra hcon
  simp only [Set.mem_iUnion, not_exists, Set.mem_ofPred_eq, not_le] at hcon
  have := hd (x := fun i => F i N ω) ((dist_pi_lt_iff hδ).2 fun i => by
    rw [Real.dist_eq]; exact hcon i)
  rw [Real.dist_eq] at this
  exact absurd this (not_lt.2 hω)

/-- The total weight of the particles after a step approximates the probability of the
measurement. -/
theorem Approx.evidence {C : (N : ℕ) → Ω → Fin N → X × ℝ} {π : Measure X} (h : Approx P C π)
    {V : (N : ℕ) → Ω → Fin N → ℝ × R × ℝ} (hV : ∀ N, Measurable (V N)) {ν : Measure R}
    [IsProbabilityMeasure ν]
    (hind : ∀ N, P.map (fun ω => (C N ω, V N ω)) = (P.map (C N)).prod (Measure.pi fun _ : Fin N =>
      ((volume : Measure ℝ).restrict (Set.Ioc 0 1)).prod
        (ν.prod ((volume : Measure ℝ).restrict (Set.Ioc 0 1)))))
    {mv : R → X → X} {G : X → X → ℝ} {κ : Kernel X X} {ℓ : X → ℝ≥0∞} (hs : StepLaw mv G ν κ ℓ)
    (hZ' : evidenceOf κ ℓ π ≠ ∞) (static : Prop) :
    TendsTo P (fun N ω => ∑ i, (prepared static (C N ω) (V N ω) i).2 *
      G (prepared static (C N ω) (V N ω) i).1
        (mv (V N ω i).2.1 (prepared static (C N ω) (V N ω) i).1)) (evidenceOf κ ℓ π).toReal := by
  have hπ := h.prob
  have hu : IsProbabilityMeasure ((volume : Measure ℝ).restrict (Set.Ioc (0 : ℝ) 1)) :=
    ⟨by simp⟩
  have hA : ∀ N, Measurable fun ω (i : Fin N) => (V N ω i).1 := fun N =>
    (measurable_part measurable_fst).comp (hV N)
  have hR : ∀ N, Measurable fun ω (i : Fin N) => (V N ω i).2.1 := fun N =>
    (measurable_part (measurable_fst.comp measurable_snd)).comp (hV N)
  have hB : ∀ N, Measurable fun ω (i : Fin N) => (V N ω i).2.2 := fun N =>
    (measurable_part (measurable_snd.comp measurable_snd)).comp (hV N)
  have hvol : ∀ N, P.map (fun ω => (C N ω, ((fun i => (V N ω i).1 : Fin N → ℝ),
      ((fun i => (V N ω i).2.1 : Fin N → R), (fun i => (V N ω i).2.2 : Fin N → ℝ))))) =
      (P.map (C N)).prod ((unifs N).prod ((Measure.pi fun _ : Fin N => ν).prod (unifs N))) := by
    intro N
    have hf : Measurable fun v : Fin N → ℝ × R × ℝ => ((fun i => (v i).1 : Fin N → ℝ),
        ((fun i => (v i).2.1 : Fin N → R), (fun i => (v i).2.2 : Fin N → ℝ))) :=
      (measurable_part measurable_fst).prodMk
        ((measurable_part (measurable_fst.comp measurable_snd)).prodMk
          (measurable_part (measurable_snd.comp measurable_snd)))
    have h1 := law_right (h.meas N) (hV N) (hind N) hf
    rw [map_triple] at h1
    exact h1
  have s1 := fun N => law_split (h.meas N) (hA N) ((hR N).prodMk (hB N)) (hvol N)
  have a1 : Approx P (fun N ω => prepared static (C N ω) (V N ω)) π :=
    h.resample (D := fun _ => {_c | static}) (fun N => MeasurableSet.const static) hA
      fun N => (s1 N).1
  have hmp : ∀ N, Measurable fun z : (Fin N → X × ℝ) × (Fin N → ℝ) =>
      resampleIf {_c | static} z.1 z.2 := fun N =>
    measurable_resampleIf (MeasurableSet.const static)
  have s2 : ∀ N, P.map (fun ω => (prepared static (C N ω) (V N ω),
      ((fun i => (V N ω i).2.1 : Fin N → R), (fun i => (V N ω i).2.2 : Fin N → ℝ)))) =
      (P.map fun ω => prepared static (C N ω) (V N ω)).prod
        ((Measure.pi fun _ : Fin N => ν).prod (unifs N)) := fun N =>
    law_left ((h.meas N).prodMk (hA N)) ((hR N).prodMk (hB N)) (s1 N).2 (hmp N)
  have s3 := fun N => law_split (a1.meas N) (hR N) (hB N) (s2 N)
  have a2 := a1.pair hR fun N => (s3 N).1
  have hm : Measurable fun z : X × R => mv z.2 z.1 := hs.hmv.comp measurable_swap
  have hΓ : Measurable fun z : X × R => G z.1 (mv z.2 z.1) := hs.hG.comp (measurable_fst.prodMk hm)
  have hev : ∫⁻ z, ENNReal.ofReal (G z.1 (mv z.2 z.1)) ∂(π.prod ν) = evidenceOf κ ℓ π := by
    have := evidence_eq hs π (F := fun _ => 1) measurable_const
    simpa [evidenceOf] using this
  have hi : Integrable (fun z : X × R => G z.1 (mv z.2 z.1)) (π.prod ν) := by
    refine ⟨hΓ.aestronglyMeasurable, ?_⟩
    rw [hasFiniteIntegral_iff_ofReal (Eventually.of_forall fun z => hs.nonneg _ _), hev]
    exact hZ'.lt_top
  have he : ∫ z, G z.1 (mv z.2 z.1) ∂(π.prod ν) = (evidenceOf κ ℓ π).toReal := by
    rw [← hev]
    exact integral_eq_lintegral_of_nonneg_ae (Eventually.of_forall fun z => hs.nonneg _ _)
      hΓ.aestronglyMeasurable
  intro ε hε
  have a3 := a2.average hΓ hi hε
  rw [he] at a3
  exact a3

section exact

variable {κ : Nat → Kernel X X} {ℓ : Nat → X → ℝ≥0∞} {w : Fin J → ℝ} {μ : Fin J → Measure X}

theorem lintegral_mixtureLaw (F : X → ℝ≥0∞) :
    ∫⁻ y, F y ∂(mixtureLaw w μ) = ∑ k, ENNReal.ofReal (w k) * ∫⁻ y, F y ∂(μ k) := by
  unfold mixtureLaw
  rw [lintegral_finsetSum_measure]
  exact Finset.sum_congr rfl fun k _ => lintegral_smul_measure _ _

theorem bind_mixtureLaw (κ : Kernel X X) :
    (mixtureLaw w μ).bind κ = mixtureLaw w fun k => (μ k).bind κ := by
  refine Measure.ext_of_lintegral _ fun F hF => ?_
  rw [Measure.lintegral_bind κ.measurable.aemeasurable hF.aemeasurable, lintegral_mixtureLaw,
    lintegral_mixtureLaw]
  exact Finset.sum_congr rfl fun k _ => by
    rw [Measure.lintegral_bind κ.measurable.aemeasurable hF.aemeasurable]

theorem evidence_mixtureLaw (κ : Kernel X X) (ℓ : X → ℝ≥0∞) :
    evidenceOf κ ℓ (mixtureLaw w μ) = ∑ k, ENNReal.ofReal (w k) * evidenceOf κ ℓ (μ k) := by
  unfold evidenceOf
  rw [bind_mixtureLaw, lintegral_mixtureLaw]

/-- Bayes' rule for a mixture: each component on its own, and the probabilities of the
components multiplied by their evidence. -/
theorem bayesStep_mixtureLaw {κ : Kernel X X} {ℓ : X → ℝ≥0∞} (hℓ : Measurable ℓ)
    (hw : ∀ k, 0 ≤ w k) (hw1 : ∑ k, w k = 1)
    (hE : ∀ k, evidenceOf κ ℓ (μ k) ≠ 0 ∧ evidenceOf κ ℓ (μ k) ≠ ∞) :
    bayesStep κ ℓ (mixtureLaw w μ) =
      mixtureLaw (rescaled w fun k => (evidenceOf κ ℓ (μ k)).toReal) fun k => bayesStep κ ℓ (μ k) := by
  have hE0 : ∀ k, 0 < (evidenceOf κ ℓ (μ k)).toReal := fun k =>
    ENNReal.toReal_pos (hE k).1 (hE k).2
  have hS := sum_rescaled_pos hw hw1 hE0
  have hsum : evidenceOf κ ℓ (mixtureLaw w μ) =
      ENNReal.ofReal (∑ j, w j * (evidenceOf κ ℓ (μ j)).toReal) := by
    rw [evidence_mixtureLaw, ENNReal.ofReal_sum_of_nonneg fun j _ => mul_nonneg (hw j) (hE0 j).le]
    exact Finset.sum_congr rfl fun j _ => by
      rw [ENNReal.ofReal_mul (hw j), ENNReal.ofReal_toReal (hE j).2]
  refine Measure.ext_of_lintegral _ fun F hF => ?_
  rw [lintegral_mixtureLaw]
  unfold bayesStep
  rw [hsum, bind_mixtureLaw, lintegral_smul_measure,
    lintegral_withDensity_eq_lintegral_mul _ hℓ hF, lintegral_mixtureLaw, smul_eq_mul,
    Finset.mul_sum]
  refine Finset.sum_congr rfl fun k _ => ?_
  rw [lintegral_smul_measure, lintegral_withDensity_eq_lintegral_mul _ hℓ hF, smul_eq_mul]
  unfold rescaled
  rw [ENNReal.ofReal_div_of_pos hS, ENNReal.ofReal_mul (hw k), ENNReal.ofReal_toReal (hE k).2,
    ENNReal.div_eq_inv_mul]
  set A := (ENNReal.ofReal (∑ j, w j * (evidenceOf κ ℓ (μ j)).toReal))⁻¹
  set B := ENNReal.ofReal (w k)
  set E := evidenceOf κ ℓ (μ k)
  set I := lintegral ((μ k).bind κ) (ℓ * F)
  have : E * E⁻¹ = 1 := ENNReal.mul_inv_cancel (hE k).1 (hE k).2
  calc A * (B * I) = A * (B * ((E * E⁻¹) * I)) := by rw [this, one_mul]
    _ = A * (B * E) * (E⁻¹ * I) := by ring

theorem rescaled_rescaled {A B : Fin J → ℝ} (hw : ∀ k, 0 ≤ w k) (hw1 : ∑ k, w k = 1)
    (hA : ∀ k, 0 < A k) : rescaled (rescaled w A) B = rescaled w fun k => A k * B k := by
  have hS := sum_rescaled_pos hw hw1 hA
  funext k
  unfold rescaled
  have e : ∑ j, w j * A j / (∑ j, w j * A j) * B j =
      (∑ j, w j * (A j * B j)) / ∑ j, w j * A j := by
    rw [Finset.sum_div]
    exact Finset.sum_congr rfl fun j _ => by ring
  rw [e]
  by_cases h0 : ∑ j, w j * (A j * B j) = 0
  · simp [h0]
  · field_simp

theorem rescaled_dist {S : Fin J → ℝ} (hw : ∀ k, 0 ≤ w k) (hw1 : ∑ k, w k = 1)
    (hS : ∀ k, 0 < S k) : (∀ k, 0 ≤ rescaled w S k) ∧ ∑ k, rescaled w S k = 1 := by
  have h := sum_rescaled_pos hw hw1 hS
  refine ⟨fun k => div_nonneg (mul_nonneg (hw k) (hS k).le) h.le, ?_⟩
  unfold rescaled
  rw [← Finset.sum_div]
  exact div_self h.ne'

theorem evidenceUpTo_pos {T : Nat} {π : Measure X} (hp : Possible κ ℓ π T) {t : Nat} (ht : t ≤ T) :
    0 < evidenceUpTo κ ℓ π t :=
  Finset.prod_pos fun s hs => by
    have hs' := Finset.mem_range.1 hs
    exact ENNReal.toReal_pos (hp s (by omega)).1 (hp s (by omega)).2

theorem sourceProbability_eq (T : Nat) :
    sourceProbability κ ℓ w μ T = rescaled w fun k => evidenceUpTo κ ℓ (μ k) T := rfl

theorem sourceProbability_zero (hw1 : ∑ k, w k = 1) : sourceProbability κ ℓ w μ 0 = w := by
  rw [sourceProbability_eq]
  simp [evidenceUpTo, rescaled_one hw1]

theorem sourceProbability_succ (hw : ∀ k, 0 ≤ w k) (hw1 : ∑ k, w k = 1) {T : Nat}
    (hp : ∀ k, Possible κ ℓ (μ k) T) {t : Nat} (ht : t ≤ T) :
    sourceProbability κ ℓ w μ (t + 1) = rescaled (sourceProbability κ ℓ w μ t) fun k =>
      (evidenceOf (κ t) (ℓ t) (exactFilter κ ℓ (μ k) t)).toReal := by
  rw [sourceProbability_eq, sourceProbability_eq,
    rescaled_rescaled hw hw1 fun k => evidenceUpTo_pos (hp k) ht]
  simp only [evidenceUpTo, Finset.prod_range_succ]

/-- The exact filter of a mixture of priors. -/
theorem exactFilter_mixtureLaw (hw : ∀ k, 0 ≤ w k) (hw1 : ∑ k, w k = 1) {T : Nat}
    (hℓ : ∀ t < T, Measurable (ℓ t)) (hp : ∀ k, Possible κ ℓ (μ k) T) :
    ∀ t ≤ T, exactFilter κ ℓ (mixtureLaw w μ) t =
      mixtureLaw (sourceProbability κ ℓ w μ t) fun k => exactFilter κ ℓ (μ k) t := by
  intro t
  induction t with
  | zero =>
    intro _
    rw [sourceProbability_zero hw1]
    rfl
  | succ t ih =>
    intro ht
    have hd := rescaled_dist hw hw1 (S := fun k => evidenceUpTo κ ℓ (μ k) t)
      fun k => evidenceUpTo_pos (hp k) (by omega)
    rw [← sourceProbability_eq] at hd
    rw [exactFilter, ih (by omega), bayesStep_mixtureLaw (hℓ t (by omega)) hd.1 hd.2
      (fun k => hp k t (by omega)), ← sourceProbability_succ hw hw1 hp (by omega)]
    rfl

end exact

end BFL
