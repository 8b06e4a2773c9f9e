import Verif.Lemmas.CloudSources
import Verif.Lemmas.CloudResample
import Verif.Props.ParticleConvergence

/-!
# One update of a particle filter with resampling, on random particle sets
-/

set_option linter.unusedSectionVars false

namespace BFL

open MeasureTheory ProbabilityTheory Filter Spec Props
open scoped ENNReal Topology

variable {R X Ω : Type} [MeasurableSpace X] [MeasurableSpace R] [MeasurableSpace Ω]
  {P : Measure Ω} [IsProbabilityMeasure P] {N : ℕ}

/-- The particles moved, and weighted with total 1. -/
noncomputable def advanced (mv : R → X → X) (G : X → X → ℝ) (c : Fin N → X × ℝ) (v : Fin N → R) :
    Fin N → X × ℝ :=
  fun i => (mv (v i) (c i).1, (c i).2 * G (c i).1 (mv (v i) (c i).1) /
    ∑ j, (c j).2 * G (c j).1 (mv (v j) (c j).1))

/-- Particle sets of small effective size. -/
def degenerate (on : Prop) (threshold : ℝ) : Set (Fin N → X × ℝ) :=
  {c | on ∧ 1 / ∑ i, (c i).2 ^ 2 < threshold}

/-- The particle set when it is moved. -/
noncomputable def prepared (static : Prop) (c : Fin N → X × ℝ) (v : Fin N → ℝ × R × ℝ) :
    Fin N → X × ℝ :=
  resampleIf {_c | static} c fun i => (v i).1

/-- One update with its three random inputs of every particle. -/
noncomputable def filterStep (static dynamic : Prop) (threshold : ℝ) (mv : R → X → X)
    (G : X → X → ℝ) (z : (Fin N → X × ℝ) × (Fin N → ℝ × R × ℝ)) : Fin N → X × ℝ :=
  resampleIf (degenerate dynamic threshold)
    (advanced mv G (prepared static z.1 z.2) fun i => (z.2 i).2.1) fun i => (z.2 i).2.2

theorem measurable_advanced {mv : R → X → X} {G : X → X → ℝ}
    (hmv : Measurable fun p : R × X => mv p.1 p.2) (hG : Measurable fun p : X × X => G p.1 p.2) :
    Measurable fun z : (Fin N → X × ℝ) × (Fin N → R) => advanced mv G z.1 z.2 := by
  have hc : ∀ i, Measurable fun z : (Fin N → X × ℝ) × (Fin N → R) => z.1 i := fun i =>
    (measurable_pi_apply i).comp measurable_fst
  have hv : ∀ i, Measurable fun z : (Fin N → X × ℝ) × (Fin N → R) => z.2 i := fun i =>
    (measurable_pi_apply i).comp measurable_snd
  have hm : ∀ i, Measurable fun z : (Fin N → X × ℝ) × (Fin N → R) => mv (z.2 i) (z.1 i).1 :=
    fun i => hmv.comp ((hv i).prodMk (measurable_fst.comp (hc i)))
  have hw : ∀ i, Measurable fun z : (Fin N → X × ℝ) × (Fin N → R) =>
      (z.1 i).2 * G (z.1 i).1 (mv (z.2 i) (z.1 i).1) := fun i =>
    (measurable_snd.comp (hc i)).mul (hG.comp ((measurable_fst.comp (hc i)).prodMk (hm i)))
  exact measurable_pi_lambda _ fun i => (hm i).prodMk
    ((hw i).div (Finset.measurable_sum _ fun j _ => hw j))

theorem measurableSet_degenerate (on : Prop) (threshold : ℝ) :
    MeasurableSet (degenerate on threshold : Set (Fin N → X × ℝ)) := by
  unfold degenerate
  by_cases h : on
  · simp only [h, true_and]
    refine measurableSet_lt (Measurable.const_div ?_ 1) measurable_const
    exact Finset.measurable_sum _ fun i _ =>
      (measurable_snd.comp (measurable_pi_apply i)).pow_const 2
  · simp [h]

theorem measurable_part {A B : Type} [MeasurableSpace A] [MeasurableSpace B] {g : A → B}
    (hg : Measurable g) : Measurable fun (v : Fin N → A) (i : Fin N) => g (v i) :=
  measurable_pi_lambda _ fun i => hg.comp (measurable_pi_apply i)

theorem measurable_prepared (static : Prop) :
    Measurable fun z : (Fin N → X × ℝ) × (Fin N → ℝ × R × ℝ) => prepared static z.1 z.2 := by
  have h1 : Measurable fun z : (Fin N → X × ℝ) × (Fin N → ℝ) => resampleIf {_c | static} z.1 z.2 :=
    measurable_resampleIf (MeasurableSet.const static)
  have h2 : Measurable fun z : (Fin N → X × ℝ) × (Fin N → ℝ × R × ℝ) =>
      (z.1, (fun i => (z.2 i).1 : Fin N → ℝ)) :=
    measurable_fst.prodMk ((measurable_part measurable_fst).comp measurable_snd)
  exact h1.comp h2

theorem measurable_filterStep {mv : R → X → X} {G : X → X → ℝ}
    (hmv : Measurable fun p : R × X => mv p.1 p.2) (hG : Measurable fun p : X × X => G p.1 p.2)
    (static dynamic : Prop) (threshold : ℝ) :
    Measurable fun z : (Fin N → X × ℝ) × (Fin N → ℝ × R × ℝ) =>
      filterStep static dynamic threshold mv G z := by
  have h0 : Measurable fun z : (Fin N → X × ℝ) × (Fin N → R) => advanced mv G z.1 z.2 :=
    measurable_advanced hmv hG
  have h1 : Measurable fun z : (Fin N → X × ℝ) × (Fin N → ℝ × R × ℝ) =>
      advanced mv G (prepared static z.1 z.2) fun i => (z.2 i).2.1 := by
    have h2 : Measurable fun z : (Fin N → X × ℝ) × (Fin N → ℝ × R × ℝ) =>
        (prepared static z.1 z.2, (fun i => (z.2 i).2.1 : Fin N → R)) :=
      (measurable_prepared static).prodMk
        ((measurable_part (measurable_fst.comp measurable_snd)).comp measurable_snd)
    exact h0.comp h2
  have h3 : Measurable fun z : (Fin N → X × ℝ) × (Fin N → ℝ × R × ℝ) =>
      (advanced mv G (prepared static z.1 z.2) (fun i => (z.2 i).2.1),
        (fun i => (z.2 i).2.2 : Fin N → ℝ)) :=
    h1.prodMk ((measurable_part (measurable_snd.comp measurable_snd)).comp measurable_snd)
  have h4 : Measurable fun z : (Fin N → X × ℝ) × (Fin N → ℝ) =>
      resampleIf (degenerate dynamic threshold) z.1 z.2 :=
    measurable_resampleIf (measurableSet_degenerate dynamic threshold)
  have h5 := h4.comp h3
  unfold filterStep
  simp only [Function.comp_def] at h5
  exact h5

theorem evidence_eq {mv : R → X → X} {G : X → X → ℝ} {ν : Measure R} [IsProbabilityMeasure ν]
    {κ : Kernel X X} {ℓ : X → ℝ≥0∞} (hs : StepLaw mv G ν κ ℓ) (π : Measure X)
    [IsProbabilityMeasure π] {F : X → ℝ≥0∞} (hF : Measurable F) :
    ∫⁻ z, ENNReal.ofReal (G z.1 (mv z.2 z.1)) * F (mv z.2 z.1) ∂(π.prod ν) =
      ∫⁻ y, ℓ y * F y ∂(π.bind κ) := by
  have hm : Measurable fun z : X × R => mv z.2 z.1 := hs.hmv.comp measurable_swap
  have hg : Measurable fun z : X × R => G z.1 (mv z.2 z.1) := hs.hG.comp (measurable_fst.prodMk hm)
  have hgF : Measurable fun z : X × R => ENNReal.ofReal (G z.1 (mv z.2 z.1)) * F (mv z.2 z.1) :=
    hg.ennreal_ofReal.mul (hF.comp hm)
  have hlF : Measurable fun y => ℓ y * F y := hs.hℓ.mul hF
  rw [lintegral_prod _ hgF.aemeasurable, Measure.lintegral_bind κ.measurable.aemeasurable
    hlF.aemeasurable]
  exact lintegral_congr fun a => hs.law a F hF

/-- One update keeps the approximation, and succeeds with probability tending to 1. -/
theorem Approx.filterStep {C : (N : ℕ) → Ω → Fin N → X × ℝ} {π : Measure X} (h : Approx P C π)
    {V : (N : ℕ) → Ω → Fin N → ℝ × R × ℝ} (hV : ∀ N, Measurable (V N)) {ν : Measure R}
    [IsProbabilityMeasure ν]
    (hind : ∀ N, P.map (fun ω => (C N ω, V N ω)) = (P.map (C N)).prod (Measure.pi fun _ : Fin N =>
      ((volume : Measure ℝ).restrict (Set.Ioc 0 1)).prod
        (ν.prod ((volume : Measure ℝ).restrict (Set.Ioc 0 1)))))
    {mv : R → X → X} {G : X → X → ℝ} {κ : Kernel X X} {ℓ : X → ℝ≥0∞} (hs : StepLaw mv G ν κ ℓ)
    (hZ : evidenceOf κ ℓ π ≠ 0) (hZ' : evidenceOf κ ℓ π ≠ ∞) (static dynamic : Prop)
    (threshold : ℕ → ℝ) :
    Approx P (fun N ω => BFL.filterStep static dynamic (threshold N) mv G (C N ω, V N ω))
      (bayesStep κ ℓ π) ∧
    Rare P fun N => {ω | ¬ 0 < ∑ i, (prepared static (C N ω) (V N ω) i).2 *
      G (prepared static (C N ω) (V N ω) i).1
        (mv (V N ω i).2.1 (prepared static (C N ω) (V N ω) i).1)} := by
  have hπ := h.prob
  have hu : IsProbabilityMeasure ((volume : Measure ℝ).restrict (Set.Ioc (0 : ℝ) 1)) :=
    ⟨by simp⟩
  have hA : ∀ N, Measurable fun ω (i : Fin N) => (V N ω i).1 := fun N =>
    (measurable_part measurable_fst).comp (hV N)
  have hR : ∀ N, Measurable fun ω (i : Fin N) => (V N ω i).2.1 := fun N =>
    (measurable_part (measurable_fst.comp measurable_snd)).comp (hV N)
  have hB : ∀ N, Measurable fun ω (i : Fin N) => (V N ω i).2.2 := fun N =>
    (measurable_part (measurable_snd.comp measurable_snd)).comp (hV N)
  have hvol : ∀ N, P.map (fun ω => (C N ω, ((fun i => (V N ω i).1 : Fin N → ℝ),
      ((fun i => (V N ω i).2.1 : Fin N → R), (fun i => (V N ω i).2.2 : Fin N → ℝ))))) =
      (P.map (C N)).prod ((unifs N).prod ((Measure.pi fun _ : Fin N => ν).prod (unifs N))) := by
    intro N
    have hf : Measurable fun v : Fin N → ℝ × R × ℝ => ((fun i => (v i).1 : Fin N → ℝ),
        ((fun i => (v i).2.1 : Fin N → R), (fun i => (v i).2.2 : Fin N → ℝ))) :=
      (measurable_part measurable_fst).prodMk
        ((measurable_part (measurable_fst.comp measurable_snd)).prodMk
          (measurable_part (measurable_snd.comp measurable_snd)))
    have h1 := law_right (h.meas N) (hV N) (hind N) hf
    rw [map_triple] at h1
    exact h1
  have s1 := fun N => law_split (h.meas N) (hA N) ((hR N).prodMk (hB N)) (hvol N)
  -- resampling before the move
  have a1 : Approx P (fun N ω => prepared static (C N ω) (V N ω)) π :=
    h.resample (D := fun _ => {_c | static}) (fun N => MeasurableSet.const static) hA
      fun N => (s1 N).1
  -- the move
  have hmp : ∀ N, Measurable fun z : (Fin N → X × ℝ) × (Fin N → ℝ) =>
      resampleIf {_c | static} z.1 z.2 := fun N =>
    measurable_resampleIf (MeasurableSet.const static)
  have s2 : ∀ N, P.map (fun ω => (prepared static (C N ω) (V N ω),
      ((fun i => (V N ω i).2.1 : Fin N → R), (fun i => (V N ω i).2.2 : Fin N → ℝ)))) =
      (P.map fun ω => prepared static (C N ω) (V N ω)).prod
        ((Measure.pi fun _ : Fin N => ν).prod (unifs N)) := fun N =>
    law_left ((h.meas N).prodMk (hA N)) ((hR N).prodMk (hB N)) (s1 N).2 (hmp N)
  have s3 := fun N => law_split (a1.meas N) (hR N) (hB N) (s2 N)
  have a2 := a1.pair hR fun N => (s3 N).1
  have hm : Measurable fun z : X × R => mv z.2 z.1 := hs.hmv.comp measurable_swap
  have hΓ : Measurable fun z : X × R => G z.1 (mv z.2 z.1) := hs.hG.comp (measurable_fst.prodMk hm)
  have hev : ∫⁻ z, ENNReal.ofReal (G z.1 (mv z.2 z.1)) ∂(π.prod ν) = evidenceOf κ ℓ π := by
    have := evidence_eq hs π (F := fun _ => 1) measurable_const
    simpa [evidenceOf] using this
  have a3 := (a2.reweight hΓ (fun _ => hs.nonneg _ _) (by rw [hev]; exact hZ)
    (by rw [hev]; exact hZ')).map hm
  rw [hev] at a3
  have htarget : ((evidenceOf κ ℓ π)⁻¹ • (π.prod ν).withDensity fun z =>
      ENNReal.ofReal (G z.1 (mv z.2 z.1))).map (fun z : X × R => mv z.2 z.1) =
      bayesStep κ ℓ π := by
    refine Measure.ext_of_lintegral _ fun F hF => ?_
    unfold bayesStep
    have hFm : Measurable fun z : X × R => F (mv z.2 z.1) := hF.comp hm
    rw [lintegral_map hF hm, lintegral_smul_measure, lintegral_smul_measure,
      lintegral_withDensity_eq_lintegral_mul _ hΓ.ennreal_ofReal hFm,
      lintegral_withDensity_eq_lintegral_mul _ hs.hℓ hF]
    congr 1
    exact evidence_eq hs π hF
  rw [htarget] at a3
  have s4 : ∀ N, P.map (fun ω => (advanced mv G (prepared static (C N ω) (V N ω))
      (fun i => (V N ω i).2.1), (fun i => (V N ω i).2.2 : Fin N → ℝ))) =
      (P.map fun ω => advanced mv G (prepared static (C N ω) (V N ω)) fun i => (V N ω i).2.1).prod
        (unifs N) := fun N =>
    law_left ((a1.meas N).prodMk (hR N)) (hB N) (s3 N).2 (measurable_advanced hs.hmv hs.hG)
  refine ⟨?_, ?_⟩
  · have a4 : Approx P (fun N ω => advanced mv G (prepared static (C N ω) (V N ω))
        fun i => (V N ω i).2.1) (bayesStep κ ℓ π) := a3
    have a5 := a4.resample (D := fun N => degenerate dynamic (threshold N))
      (fun N => measurableSet_degenerate dynamic (threshold N)) hB s4
    unfold BFL.filterStep
    exact a5
  · have a6 := a2.positive (Γ := fun z : X × R => G z.1 (mv z.2 z.1)) hΓ
      (fun z => hs.nonneg z.1 (mv z.2 z.1)) (by rw [hev]; exact hZ)
    simp only at a6
    exact a6

/-- Independent draws with equal weights. -/
theorem approx_initial {x : Nat → Ω → X} {r : Nat → Nat → Ω → R} {μ : Measure X}
    {ν : Nat → Measure R} (h : IndependentDraws P x r μ ν) :
    Approx P (fun N ω (i : Fin N) => (x i ω, 1 / (N : ℝ))) μ := by
  have hμ : IsProbabilityMeasure μ := by
    rw [← h.law_x 0]
    exact Measure.isProbabilityMeasure_map (h.measurable_x 0).aemeasurable
  have a0 : Approx P (fun N _ (_ : Fin N) => ((), 1 / (N : ℝ))) (Measure.dirac ()) := by
    have hsum : ∀ N : ℕ, 0 < N → ∑ _i : Fin N, 1 / (N : ℝ) = 1 := by
      intro N hN
      have : (0 : ℝ) < N := by exact_mod_cast hN
      simp [this.ne']
    refine ⟨inferInstance, fun _ => measurable_const, fun N _ _ => by positivity, ?_, ?_, ?_, ?_⟩
    · intro N ω
      rcases Nat.eq_zero_or_pos N with rfl | hN
      · simp
      · exact (hsum N hN).le
    · refine Rare.empty.mono ?_
      filter_upwards [eventually_gt_atTop 0] with N hN ω hω
      exact hω (hsum N hN)
    · intro ε hε
      have ht : ∀ᶠ N : ℕ in atTop, 1 / (N : ℝ) < ε :=
        (tendsto_order.1 tendsto_one_div_atTop_nhds_zero_nat).2 ε hε
      refine Rare.empty.mono ?_
      filter_upwards [ht] with N hN
      rintro ω ⟨i, hi⟩
      exact absurd hi (not_le.2 hN)
    · intro φ hφ a ha
      rw [lintegral_dirac' _ hφ] at ha
      refine Rare.empty.mono ?_
      filter_upwards [eventually_gt_atTop 0] with N hN ω hω
      have hω' : a ≤ wsum (fun _ : Fin N => ((), 1 / (N : ℝ))) φ := hω
      have e : wsum (fun _ : Fin N => ((), 1 / (N : ℝ))) φ =
          wsum (fun _ : Fin N => ((), 1 / (N : ℝ))) (fun _ => φ ()) := rfl
      rw [e, wsum_const (fun _ => by positivity), hsum N hN, ENNReal.ofReal_one, one_mul] at hω'
      exact absurd hω' (not_le.2 ha)
  have hx : ∀ N, Measurable fun ω (i : Fin N) => x i ω := fun N =>
    measurable_pi_lambda _ fun i => h.measurable_x i
  have a1 := a0.pair hx (ν := μ) (by
    intro N
    rw [← map_initial h N]
    refine (indepFun_iff_map_prod_eq_prod_map_map measurable_const.aemeasurable
      (hx N).aemeasurable).1 (indepFun_const_left _ _))
  have a2 := a1.map measurable_snd
  rw [Measure.map_snd_prod, measure_univ, one_smul] at a2
  exact a2

end BFL
