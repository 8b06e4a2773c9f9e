import Verif.Lemmas.LastingStep

/-!
# Runs of any length of a particle filter with resampling
-/

set_option linter.unusedSectionVars false

namespace BFL.Props

open MeasureTheory ProbabilityTheory Filter Spec MCPdf ParticleFilter
open scoped ENNReal Topology

variable {R X MV Ω : Type} [MeasurableSpace X] [MeasurableSpace R] [MeasurableSpace Ω]
  {dflt : X} {period : Nat} {P : Measure Ω} [IsProbabilityMeasure P] {N : Nat}

theorem bayesStep_prob {κ : Kernel X X} [IsMarkovKernel κ] {L : X → ℝ} (hL : Measurable L) {b B : ℝ} (hb : 0 < b)
    (hLb : ∀ y, b ≤ L y ∧ L y ≤ B) {π : Measure X} [IsProbabilityMeasure π] :
    IsProbabilityMeasure (bayesStep κ (fun y => ENNReal.ofReal (L y)) π) := by
  obtain ⟨_, z2, z3, _⟩ := integral_bayesStep hL hb hLb (κ := κ) (π := π) (f := fun _ => 0) measurable_const (C := 0)
    (by simp)
  refine ⟨?_⟩
  unfold bayesStep
  rw [Measure.smul_apply, withDensity_apply _ MeasurableSet.univ, Measure.restrict_univ, smul_eq_mul]
  exact ENNReal.inv_mul_cancel z2 z3

section exact

variable {κ : Nat → Kernel X X} [∀ t, IsMarkovKernel (κ t)] {L : Nat → X → ℝ} (hL : ∀ t, Measurable (L t))
  {b B : Nat → ℝ} (hLb : ∀ t, 0 < b t ∧ ∀ y, b t ≤ L t y ∧ L t y ≤ B t) {μ : Measure X} [IsProbabilityMeasure μ]

include hL hLb

theorem exactFilter_prob : ∀ t, IsProbabilityMeasure (exactFilter κ (fun t y => ENNReal.ofReal (L t y)) μ t)
  | 0 => ‹_›
  | t + 1 => by
    have := exactFilter_prob t
    exact bayesStep_prob (hL t) (hLb t).1 (hLb t).2

/-- The exact mean seen from an earlier update. -/
theorem exact_ratio {σ : ℝ} (hσ : 0 < σ) (hσ1 : σ < 1) {T : Nat} (hκ : ∀ t < T, MovesAlike (κ t) σ) [Nonempty X]
    {φ : X → ℝ} (hφ : Measurable φ) (hφ1 : ∀ x, |φ x| ≤ 1) : ∀ k ≤ T,
    ∫ y, φ y ∂(exactFilter κ (fun t y => ENNReal.ofReal (L t y)) μ T) =
      (∫ y, backward κ L T φ k y ∂(exactFilter κ (fun t y => ENNReal.ofReal (L t y)) μ (T - k))) /
        ∫ y, backward κ L T (fun _ => 1) k y ∂(exactFilter κ (fun t y => ENNReal.ofReal (L t y)) μ (T - k)) := by
  intro k
  induction k with
  | zero =>
    intro _
    have := exactFilter_prob (κ := κ) hL hLb (μ := μ) T
    simp [backward]
  | succ k ih =>
    intro hk
    have hp := exactFilter_prob (κ := κ) hL hLb (μ := μ) (T - (k + 1))
    obtain ⟨m, M, hi, hB, _⟩ := backward_bounds hσ hσ1 hκ hL (fun t _ => hLb t) hφ hφ1 k (by omega)
    have e : T - k = T - (k + 1) + 1 := by omega
    rw [ih (by omega), e, exactFilter]
    obtain ⟨z1, _, _, z4, z5⟩ := integral_bayesStep (hL (T - (k + 1))) (hLb _).1 (hLb _).2 (κ := κ (T - (k + 1)))
      (π := exactFilter κ (fun t y => ENNReal.ofReal (L t y)) μ (T - (k + 1))) hB.mF (hB.absF hσ)
    obtain ⟨_, _, _, _, y5⟩ := integral_bayesStep (hL (T - (k + 1))) (hLb _).1 (hLb _).2 (κ := κ (T - (k + 1)))
      (π := exactFilter κ (fun t y => ENNReal.ofReal (L t y)) μ (T - (k + 1))) hB.mH (hB.absH hσ)
    rw [z5, y5, z4, div_div_div_cancel_right₀ (by have := (hLb (T - (k + 1))).1; linarith)]
    rfl

end exact

theorem measurable_ratioOf {F H : X → ℝ} (hF : Measurable F) (hH : Measurable H) :
    Measurable fun c : Fin N → X × ℝ => ratioOf c F H := (measurable_sumOver hF).div (measurable_sumOver hH)

theorem lasting_resampling {x : Nat → Ω → X} {ρ : Nat → Nat → Ω → ℝ × R × ℝ} {μ : Measure X}
    {ν : Nat → Measure R} [∀ t, IsProbabilityMeasure (ν t)]
    (h : IndependentDraws P x ρ μ fun t => ((volume : Measure ℝ).restrict (Set.Ioc 0 1)).prod
      ((ν t).prod ((volume : Measure ℝ).restrict (Set.Ioc 0 1))))
    {step : Noise R ℝ → UpdateCall R X MV ℝ → ParticleFilter R X ℝ →
      Outcome (Bool × ParticleFilter R X ℝ)} {good : ParticleFilter R X ℝ → Prop}
    {c : Nat → UpdateCall R X MV ℝ} {κ : Nat → Kernel X X} [∀ t, IsMarkovKernel (κ t)] {L : Nat → X → ℝ} {T : Nat}
    {threshold : ℝ} {b B : Nat → ℝ} {r σ : ℝ} (hr : 1 ≤ r) (hσ : 0 < σ) (hσ1 : σ < 1) (hκ : ∀ t, MovesAlike (κ t) σ)
    (hL : ∀ t, Measurable (L t)) (hLb : ∀ t, 0 < b t ∧ ∀ y, b t ≤ L t y ∧ L t y ≤ B t)
    (hc : ∀ t, ∃ mv G, StepLaw mv G (ν t) (κ t) (fun y => ENNReal.ofReal (L t y)) ∧
      StepRuns kthRoot step period threshold good (c t) mv G ∧ ∀ a y, 0 < G a y ∧ G a y ≤ r * b t)
    (hN : 0 < N) {s : ℝ} (hs : 1 ≤ s)
    (heven : KeepsEven period threshold (fun t => (c t).sys.isSome = true) (fun t => (c t).meas.isSome = true) T N s)
    {prior : Ω → MCPdf ℝ X} {f : Ω → ParticleFilter R X ℝ}
    {q : Option (Proposal R X ℝ)}
    (hprior : ∀ ω, Holds (prior ω) ((List.range N).map fun i => (x i ω, 1 / (N : ℝ))))
    (hf : ∀ ω, ParticleFilter.make dflt (prior ω) q period threshold .multinomial =
      .ok (f ω)) (hgood : ∀ g : ParticleFilter R X ℝ, g.proposal = q → good g)
    {φ : X → ℝ} (hφ : Measurable φ) (hb : ∀ y, |φ y| ≤ 1) {ε : ℝ} (hε : 0 < ε) :
    P {ω | ¬ ∃ f' est, ParticleFilter.run step
        ((List.range T).map fun t => (⟨fun i => (ρ t i ω).2.1, fun i => (ρ t i ω).1,
          fun i => (ρ t i ω).2.2⟩, c t)) (f ω) = .ok (true, f') ∧ Holds f'.postGet est ∧
        |averageOver φ est - ∫ y, φ y ∂(exactFilter κ (fun t y => ENNReal.ofReal (L t y)) μ T)| < ε} ≤
      ENNReal.ofReal (lastingConstant r s σ ^ 2 / (ε ^ 2 * N)) := by
  choose mv G hstep using hc
  have hmv := fun t => (hstep t).1.hmv
  have hG := fun t => (hstep t).1.hG
  have hX : Nonempty X := ⟨dflt⟩
  have hμ : IsProbabilityMeasure μ := by
    rw [← h.law_x 0]
    exact Measure.isProbabilityMeasure_map (h.measurable_x 0).aemeasurable
  have hu1 : IsProbabilityMeasure ((volume : Measure ℝ).restrict (Set.Ioc (0 : ℝ) 1)) := ⟨by simp⟩
  have hΦ : ∀ t, Measurable (stepFunction period c mv G threshold N t) := fun t =>
    measurable_filterStep (hmv t) (hG t) _ _ _
  have hinit : Measurable fun (x : Fin N → X) i => (x i, 1 / (N : ℝ)) :=
    measurable_pi_lambda _ fun i => (measurable_pi_apply i).prodMk measurable_const
  have hN' : (0 : ℝ) < N := by exact_mod_cast hN
  have hunit : ∀ᵐ ω ∂P, ∀ t i, (0 < (ρ t i ω).1 ∧ (ρ t i ω).1 ≤ 1) ∧
      (0 < (ρ t i ω).2.2 ∧ (ρ t i ω).2.2 ≤ 1) := by
    rw [ae_all_iff]
    intro t
    rw [ae_all_iff]
    intro i
    have hu : IsProbabilityMeasure ((volume : Measure ℝ).restrict (Set.Ioc (0 : ℝ) 1)) :=
      ⟨by simp⟩
    have hin : ∀ᵐ u ∂((volume : Measure ℝ).restrict (Set.Ioc (0 : ℝ) 1)), 0 < u ∧ u ≤ 1 :=
      ae_restrict_mem measurableSet_Ioc
    have e1 : P.map (fun ω => (ρ t i ω).1) = (volume : Measure ℝ).restrict (Set.Ioc 0 1) := by
      have := congrArg (fun m => Measure.map Prod.fst m) (h.law_r t i)
      beta_reduce at this
      rw [Measure.map_map measurable_fst (h.measurable_r t i), Measure.map_fst_prod, measure_univ,
        one_smul] at this
      exact this
    have e2 : P.map (fun ω => (ρ t i ω).2.2) = (volume : Measure ℝ).restrict (Set.Ioc 0 1) := by
      have := congrArg (fun m => Measure.map (Prod.snd ∘ Prod.snd) m) (h.law_r t i)
      beta_reduce at this
      rw [Measure.map_map (measurable_snd.comp measurable_snd) (h.measurable_r t i),
        ← Measure.map_map measurable_snd measurable_snd, Measure.map_snd_prod, measure_univ,
        one_smul, Measure.map_snd_prod, measure_univ, one_smul] at this
      exact this
    rw [← e1] at hin
    have i1 := ae_of_ae_map (measurable_fst.comp (h.measurable_r t i)).aemeasurable hin
    rw [e1, ← e2] at hin
    have i2 := ae_of_ae_map
      ((measurable_snd.comp measurable_snd).comp (h.measurable_r t i)).aemeasurable hin
    filter_upwards [i1, i2] with ω j1 j2
    exact ⟨j1, j2⟩
  obtain ⟨C, hC⟩ : ∃ C : Nat → Ω → Fin N → X × ℝ,
    C = fun t => particlesAt period c mv G (fun _ => threshold) x ρ t N := ⟨_, rfl⟩
  have hC0 : ∀ ω i, C 0 ω i = (x i ω, 1 / (N : ℝ)) := by
    intro ω i; rw [hC]; rfl
  have hCs : ∀ t ω, C (t + 1) ω = filterStep ((c t).sys.isSome = true ∧ 0 < ticks c t ∧ period ∣ ticks c t)
      ((c t).meas.isSome = true) threshold (mv t) (G t) (C t ω, fun i => ρ t i ω) := by
    intro t ω; rw [hC]; rfl
  have hCm : ∀ t, Measurable (C t) := by
    intro t; rw [hC]; exact (driven_law h hΦ hinit t).1
  have h1s : 1 / (N : ℝ) ≤ s / N := div_le_div_of_nonneg_right hs hN'.le
  have hsq0 : ∀ ω, ∑ i, (C 0 ω i).2 ^ 2 ≤ s / N := by
    intro ω
    simp only [hC0, Finset.sum_const, Finset.card_univ, Fintype.card_fin, nsmul_eq_mul]
    refine le_trans (le_of_eq ?_) h1s
    field_simp
  obtain ⟨A, hA⟩ : ∃ A, A = ∫ y, φ y ∂(exactFilter κ (fun t y => ENNReal.ofReal (L t y)) μ T) := ⟨_, rfl⟩
  obtain ⟨K, hK⟩ : ∃ K, K = 2 * r * (1 + √s) + 1 := ⟨_, rfl⟩
  have hK0 : 0 ≤ K := by rw [hK]; positivity
  have hτ : 0 < 1 - σ := by linarith
  have hback := backward_bounds hσ hσ1 (fun t _ => hκ t) hL (fun t _ => hLb t) hφ hb (T := T)
  have key : ∀ t ≤ T, (∀ ω i, 0 ≤ (C t ω i).2) ∧ (∀ ω, ∑ i, (C t ω i).2 = 1) ∧
      eLpNorm (fun ω => ratioOf (C t ω) (backward κ L T φ (T - t)) (backward κ L T (fun _ => 1) (T - t)) - A) 2 P ≤
        ENNReal.ofReal (2 / σ * (1 + K * (1 - σ) ^ (T - t) / σ) / √N) ∧
      ((N : ℝ) ≤ s * threshold ∧ (∀ t < T, (c t).meas.isSome = true) → ∀ ω, ∑ i, (C t ω i).2 ^ 2 ≤ s / N) ∧
      ∀ ω, (∀ t i, (0 < (ρ t i ω).1 ∧ (ρ t i ω).1 ≤ 1) ∧ (0 < (ρ t i ω).2.2 ∧ (ρ t i ω).2.2 ≤ 1)) →
        ∃ f', ParticleFilter.run step
        ((List.range t).map fun t => (⟨fun i => (ρ t i ω).2.1, fun i => (ρ t i ω).1,
          fun i => (ρ t i ω).2.2⟩, c t)) (f ω) = .ok (true, f') ∧ good f' ∧
        Ready period threshold (ticks c t) f' (List.ofFn (C t ω)) := by
    intro t
    induction t with
    | zero =>
      intro _
      have hn : CloudNear P (C 0) μ (ENNReal.ofReal (1 / √N)) := by
        have : C 0 = fun ω (i : Fin N) => (x i ω, 1 / (N : ℝ)) := by
          funext ω i; exact hC0 ω i
        rw [this]
        exact near_initial h hN
      have htot : ∀ ω, ∑ i, (C 0 ω i).2 = 1 := by
        intro ω
        simp [hC0, hN'.ne']
      refine ⟨hn.nonneg, htot, ?_, fun _ => hsq0, fun ω _ => ?_⟩
      · obtain ⟨m, M, hi, hB, hgap⟩ := hback T le_rfl
        have hd : 0 < M - m := by rw [hgap]; positivity
        have hrat := exact_ratio (κ := κ) hL hLb (μ := μ) hσ hσ1 (fun t _ => hκ t) hφ hb T le_rfl
        rw [Nat.sub_self, exactFilter, ← hA] at hrat
        have iF : Integrable (backward κ L T φ T) μ := integrable_bounded hB.mF (hB.absF hσ)
        have iH : Integrable (backward κ L T (fun _ => 1) T) μ := integrable_bounded hB.mH (hB.absH hσ)
        have hHpos : 0 < ∫ y, backward κ L T (fun _ => 1) T y ∂μ := by
          refine lt_of_lt_of_le (mul_pos hσ hB.hi_pos) ?_
          have e : ∫ _, σ * hi ∂μ = σ * hi := by simp
          rw [← e]
          exact integral_mono (integrable_const _) iH hB.low
        have hAm : m ≤ A := by
          rw [hrat, le_div_iff₀ hHpos, ← integral_const_mul]
          exact integral_mono (iH.const_mul m) iF hB.lower
        have hAM : A ≤ M := by
          rw [hrat, div_le_iff₀ hHpos, ← integral_const_mul]
          exact integral_mono iF (iH.const_mul M) hB.upper
        obtain ⟨F, hF⟩ : ∃ F, F = backward κ L T φ T := ⟨_, rfl⟩
        obtain ⟨H, hH⟩ : ∃ H, H = backward κ L T (fun _ => 1) T := ⟨_, rfl⟩
        rw [← hF, ← hH] at hB hrat
        rw [← hF] at iF
        rw [← hH] at iH hHpos
        rw [Nat.sub_zero, ← hF, ← hH]
        have hz : ∫ y, tilt F H m M hi A y ∂μ = 0 := by
          have e : A * ∫ y, H y ∂μ = ∫ y, F y ∂μ := by rw [hrat]; exact div_mul_cancel₀ _ hHpos.ne'
          unfold tilt
          rw [integral_add (iF.const_mul _) (iH.const_mul _), integral_const_mul, integral_const_mul, ← e]
          ring
        have hcl := hn.close _ (hB.measurable_tilt A) (hB.tilt_le hσ hd hAm hAM)
        rw [hz] at hcl
        simp only [sub_zero] at hcl
        have hms := lintegral_sq_le (by positivity) hcl
        refine eLpNorm_two_le (by positivity) ?_
        calc _ ≤ ∫⁻ ω, ENNReal.ofReal (((M - m) / σ) ^ 2) * ENNReal.ofReal (sumOver (C 0 ω) (tilt F H m M hi A) ^ 2) ∂P := by
              refine lintegral_mono fun ω => ?_
              rw [← ENNReal.ofReal_mul (sq_nonneg _)]
              exact ENNReal.ofReal_le_ofReal (hB.ratio_error hσ hd (hn.nonneg ω) (htot ω) A)
          _ = ENNReal.ofReal (((M - m) / σ) ^ 2) * ∫⁻ ω, ENNReal.ofReal (sumOver (C 0 ω) (tilt F H m M hi A) ^ 2) ∂P :=
              lintegral_const_mul' _ _ ENNReal.ofReal_ne_top
          _ ≤ ENNReal.ofReal (((M - m) / σ) ^ 2) * ENNReal.ofReal ((1 / √N) ^ 2) := by gcongr
          _ ≤ _ := by
              rw [← ENNReal.ofReal_mul (sq_nonneg _), ← mul_pow]
              refine ENNReal.ofReal_le_ofReal (pow_le_pow_left₀ (by positivity) ?_ 2)
              rw [hgap, mul_one_div]
              refine div_le_div_of_nonneg_right ?_ (Real.sqrt_nonneg _)
              have h1 : (1 - σ) ^ T ≤ 1 := pow_le_one₀ hτ.le (by linarith)
              have h2 : 0 ≤ K * (1 - σ) ^ T / σ := by positivity
              rw [mul_div_right_comm]
              exact mul_le_mul_of_nonneg_left (by linarith) (by positivity)
      have hn0 : Normalised ((List.range N).map fun i => (x i ω, 1 / (N : ℝ))) := by
        refine ⟨?_, ?_⟩
        · intro w hw
          simp only [List.map_map, List.mem_map, Function.comp] at hw
          obtain ⟨_, _, rfl⟩ := hw
          positivity
        · simp [List.map_map, Function.comp_def, hN'.ne']
      obtain ⟨k1, k2, _⟩ := pfMake_ready (hprior ω) hn0 (hf ω)
      have e : List.ofFn (C 0 ω) = (List.range N).map fun i => (x i ω, 1 / (N : ℝ)) := by
        apply List.ext_getElem <;> simp [hC0]
      rw [e]
      exact ⟨f ω, rfl, hgood _ k2, k1⟩
    | succ t ih =>
      intro ht
      obtain ⟨n0, n1, a, ev, run⟩ := ih (by omega)
      obtain ⟨hl, hrun, hGB⟩ := hstep t
      have hG0 : ∀ a y, 0 ≤ G t a y := hl.nonneg
      have hd := driven_law h hΦ hinit t
      have hsq : ∀ ω (v : Fin N → ℝ × R × ℝ), ∑ i, (prepared ((c t).sys.isSome = true ∧ 0 < ticks c t ∧ period ∣ ticks c t)
          (C t ω) v i).2 ^ 2 ≤ (√s / √N) ^ 2 := by
        intro ω v
        rw [div_pow, Real.sq_sqrt (by linarith), Real.sq_sqrt hN'.le]
        refine squares_resampleIf (n0 ω) (Or.inr (n1 ω)) h1s (fun hD _ => ?_) _
        rcases heven with ⟨e1, e2⟩ | e1
        · rcases Nat.eq_zero_or_pos t with rfl | ht0
          · exact hsq0 ω
          · refine absurd ?_ hD
            rw [Set.mem_ofPred_eq, ticks_eq e2 t (by omega), e1]
            exact ⟨e2 t (by omega), ht0, one_dvd _⟩
        · exact ev e1 ω
      have hind : P.map (fun ω => (C t ω, fun i : Fin N => ρ t i ω)) =
          (P.map (C t)).prod (Measure.pi fun _ : Fin N => ((volume : Measure ℝ).restrict (Set.Ioc 0 1)).prod
            ((ν t).prod ((volume : Measure ℝ).restrict (Set.Ioc 0 1)))) := by
        rw [hC]; exact hd.2.2
      have htot := fun ω => filterStep_total (fun a y => (hGB a y).1)
        (static := (c t).sys.isSome = true ∧ 0 < ticks c t ∧ period ∣ ticks c t)
        (dynamic := (c t).meas.isSome = true) (threshold := threshold) (mv := mv t) (n0 ω) (n1 ω) (fun i => ρ t i ω)
      refine ⟨fun ω => ?_, fun ω => ?_, ?_, fun e ω => ?_, fun ω hu => ?_⟩
      · rw [hCs]; exact (htot ω).1
      · rw [hCs]; exact (htot ω).2
      · obtain ⟨m, M, hi, hB, hgap⟩ := hback (T - (t + 1)) (by omega)
        have hgd : 0 < M - m := by rw [hgap]; positivity
        have eb : ∀ φ : X → ℝ, backward κ L T φ (T - t) = ahead (κ t) (L t) (backward κ L T φ (T - (t + 1))) := by
          intro φ
          have e1 : T - t = T - (t + 1) + 1 := by omega
          rw [e1, backward]
          have e2 : T - (T - (t + 1) + 1) = t := by omega
          rw [e2]
        rw [eb, eb] at a
        obtain ⟨F, hF⟩ : ∃ F, F = backward κ L T φ (T - (t + 1)) := ⟨_, rfl⟩
        obtain ⟨H, hH⟩ : ∃ H, H = backward κ L T (fun _ => 1) (T - (t + 1)) := ⟨_, rfl⟩
        rw [← hF, ← hH] at hB a
        rw [← hF, ← hH]
        have mA : Measurable fun ω => ratioOf (C t ω) (ahead (κ t) (L t) F) (ahead (κ t) (L t) H) :=
          (measurable_ratioOf (measurable_ahead (hL t) hB.mF) (measurable_ahead (hL t) hB.mH)).comp (hCm t)
        have mN : Measurable fun ω => ratioOf (C (t + 1) ω) F H := (measurable_ratioOf hB.mF hB.mH).comp (hCm (t + 1))
        have k : eLpNorm (fun ω => ratioOf (C (t + 1) ω) F H - ratioOf (C t ω) (ahead (κ t) (L t) F) (ahead (κ t) (L t) H)) 2 P ≤
            ENNReal.ofReal ((M - m) / σ * (K / √N)) := by
          refine eLpNorm_two_le (by positivity) ?_
          simp only [hCs]
          have hFm : Measurable fun z : (Fin N → X × ℝ) × (Fin N → ℝ × R × ℝ) => ENNReal.ofReal
              ((ratioOf (filterStep ((c t).sys.isSome = true ∧ 0 < ticks c t ∧ period ∣ ticks c t)
                ((c t).meas.isSome = true) threshold (mv t) (G t) z) F H -
              ratioOf z.1 (ahead (κ t) (L t) F) (ahead (κ t) (L t) H)) ^ 2) :=
            ((((measurable_ratioOf hB.mF hB.mH).comp (measurable_filterStep (hmv t) (hG t) _ _ _)).sub
              ((measurable_ratioOf (measurable_ahead (hL t) hB.mF) (measurable_ahead (hL t) hB.mH)).comp
                measurable_fst)).pow_const 2).ennreal_ofReal
          refine lintegral_indep (hCm t) hd.2.1 hind hFm fun ω => ?_
          rw [hK]
          exact ratio_step hB hσ hgd (n0 ω) (n1 ω) hl (hL t) (hLb t).1 hr (hLb t).2 hGB _ _ _ (hsq ω)
        have e : (fun ω => ratioOf (C (t + 1) ω) F H - A) =
            (fun ω => ratioOf (C (t + 1) ω) F H - ratioOf (C t ω) (ahead (κ t) (L t) F) (ahead (κ t) (L t) H)) +
            fun ω => ratioOf (C t ω) (ahead (κ t) (L t) F) (ahead (κ t) (L t) H) - A := by
          funext ω
          simp
        rw [e]
        refine (eLpNorm_add_le (mN.sub mA).aestronglyMeasurable (mA.sub_const A).aestronglyMeasurable
          (by norm_num)).trans ((add_le_add k a).trans (le_of_eq ?_))
        rw [← ENNReal.ofReal_add (by positivity) (by positivity)]
        congr 1
        have e1 : T - t = T - (t + 1) + 1 := by omega
        rw [hgap, e1, pow_succ]
        have : √(N : ℝ) ≠ 0 := (Real.sqrt_pos.2 hN').ne'
        field_simp
        ring
      · rw [hCs]
        unfold filterStep
        refine squares_resampleIf (advanced_nonneg hl.nonneg (resampleIf_nonneg (n0 ω) _) _)
          (advanced_total _ _ _ _) h1s (fun hD _ => ?_) _
        refine squares_degenerate (by linarith) hN e.1 (threshold := threshold) fun hc => hD ?_
        exact ⟨e.2 t (by omega), hc.2⟩
      · rw [hCs]
        obtain ⟨j1, j2⟩ := filterStep_alive hl.nonneg (n0 ω) (Or.inr (n1 ω)) (htot ω).2
        obtain ⟨f1, r1, r2, r3⟩ := run ω hu
        obtain ⟨f2, k1, k2, k3⟩ := step_cloud hl.nonneg hrun r3 r2 (v := fun i => ρ t i ω)
          (fun i => (hu t i).1) (fun i => (hu t i).2) Iff.rfl j2
        refine ⟨f2, ?_, k2, k3⟩
        rw [List.range_succ, List.map_append]
        exact run_snoc step (_, c t) k1 _ r1
  obtain ⟨n0, n1, a, _, run⟩ := key T le_rfl
  have er : ∀ ω, ratioOf (C T ω) (backward κ L T φ (T - T)) (backward κ L T (fun _ => 1) (T - T)) = sumOver (C T ω) φ := by
    intro ω
    rw [Nat.sub_self]
    show sumOver (C T ω) φ / sumOver (C T ω) (fun _ => 1) = _
    rw [sumOver_const (n1 ω), div_one]
  simp only [er] at a
  simp only [Nat.sub_self, pow_zero, mul_one] at a
  have ec : 2 / σ * (1 + K / σ) = lastingConstant r s σ := by rw [hK]; rfl
  rw [ec] at a
  have hl0 : 0 ≤ lastingConstant r s σ := by rw [← ec]; positivity
  have mS : AEStronglyMeasurable (fun ω => sumOver (C T ω) φ - A) P :=
    (((measurable_sumOver hφ).comp (hCm T)).sub_const _).aestronglyMeasurable
  have k := mul_meas_ge_le_pow_eLpNorm' P (p := 2) (by norm_num) (by norm_num) mS (ENNReal.ofReal ε)
  rw [ENNReal.toReal_ofNat, ENNReal.rpow_ofNat, ENNReal.rpow_ofNat, ← ENNReal.ofReal_pow hε.le] at k
  have k2 := k.trans (pow_le_pow_left₀ zero_le a 2)
  rw [← ENNReal.ofReal_pow (by positivity), div_pow, Real.sq_sqrt hN'.le, mul_comm,
    ← ENNReal.le_div_iff_mul_le (Or.inl (by rw [Ne, ENNReal.ofReal_eq_zero, not_le]; positivity))
    (Or.inl ENNReal.ofReal_ne_top), ← ENNReal.ofReal_div_of_pos (by positivity), div_div, mul_comm (N : ℝ)] at k2
  rw [← hA]
  have hsub : {ω | ¬ ∃ f' est, ParticleFilter.run step
        ((List.range T).map fun t => (⟨fun i => (ρ t i ω).2.1, fun i => (ρ t i ω).1,
          fun i => (ρ t i ω).2.2⟩, c t)) (f ω) = .ok (true, f') ∧ Holds f'.postGet est ∧
        |averageOver φ est - A| < ε} ⊆
      {ω | ¬ ∀ t i, (0 < (ρ t i ω).1 ∧ (ρ t i ω).1 ≤ 1) ∧ (0 < (ρ t i ω).2.2 ∧ (ρ t i ω).2.2 ≤ 1)} ∪
      {ω | ENNReal.ofReal ε ≤ ‖sumOver (C T ω) φ - A‖ₑ} := by
    intro ω hω
    by_contra hcon
    simp only [Set.mem_union, Set.mem_ofPred_eq, not_or, not_not, not_le] at hcon
    obtain ⟨d1, d2⟩ := hcon
    rw [Real.enorm_eq_ofReal_abs, ENNReal.ofReal_lt_ofReal_iff hε] at d2
    obtain ⟨f1, r1, _, r3⟩ := run ω d1
    refine hω ⟨f1, _, r1, r3.live.samples, ?_⟩
    have e : averageOver φ (List.ofFn (C T ω)) = sumOver (C T ω) φ := by
      unfold averageOver sumOver
      rw [List.map_ofFn, List.sum_ofFn]
      rfl
    rw [e]
    exact d2
  refine (measure_mono hsub).trans ((measure_union_le _ _).trans ?_)
  have h00 : P {ω | ¬ ∀ t i, (0 < (ρ t i ω).1 ∧ (ρ t i ω).1 ≤ 1) ∧
      (0 < (ρ t i ω).2.2 ∧ (ρ t i ω).2.2 ≤ 1)} = 0 := hunit
  rw [h00, zero_add]
  exact k2

end BFL.Props
