import Verif.Lemmas.CloudBound
import Verif.Lemmas.ParticleResampleCloud
import Verif.Spec.ParticleResampleCount

/-!
# Runs of the particle filters with resampling, with a given number of particles
-/

set_option linter.unusedSectionVars false

namespace BFL.Props

open MeasureTheory ProbabilityTheory Filter Spec MCPdf ParticleFilter
open scoped ENNReal Topology

variable {R X MV Ω : Type} [MeasurableSpace X] [MeasurableSpace R] [MeasurableSpace Ω]
  {dflt : X} {period : Nat} {P : Measure Ω} [IsProbabilityMeasure P] {N : Nat}

theorem advanced_total (mv : R → X → X) (G : X → X → ℝ) (c : Fin N → X × ℝ) (v : Fin N → R) :
    ∑ i, (advanced mv G c v i).2 = 0 ∨ ∑ i, (advanced mv G c v i).2 = 1 := by
  unfold advanced
  rw [← Finset.sum_div]
  by_cases h : ∑ j, (c j).2 * G (c j).1 (mv (v j) (c j).1) = 0
  · left; rw [h, div_zero]
  · right; exact div_self h

theorem advanced_nonneg {mv : R → X → X} {G : X → X → ℝ} (hG : ∀ a b, 0 ≤ G a b) {c : Fin N → X × ℝ}
    (h0 : ∀ i, 0 ≤ (c i).2) (v : Fin N → R) (i : Fin N) : 0 ≤ (advanced mv G c v i).2 :=
  div_nonneg (mul_nonneg (h0 i) (hG _ _)) (Finset.sum_nonneg fun j _ => mul_nonneg (h0 j) (hG _ _))

/-- A set with total weight 1 comes from a successful update of such a set. -/
theorem filterStep_alive {mv : R → X → X} {G : X → X → ℝ} (hG : ∀ a b, 0 ≤ G a b) {static dynamic : Prop}
    {threshold : ℝ} {c : Fin N → X × ℝ} {v : Fin N → ℝ × R × ℝ} (h0 : ∀ i, 0 ≤ (c i).2)
    (ht : ∑ i, (c i).2 = 0 ∨ ∑ i, (c i).2 = 1)
    (h : ∑ i, (filterStep static dynamic threshold mv G (c, v) i).2 = 1) :
    ∑ i, (c i).2 = 1 ∧ 0 < ∑ i, (prepared static c v i).2 *
      G (prepared static c v i).1 (mv (v i).2.1 (prepared static c v i).1) := by
  unfold filterStep at h
  rw [resampleIf_total] at h
  have hp0 : ∀ i, 0 ≤ (prepared static c v i).2 := resampleIf_nonneg h0 _
  have hpos : 0 < ∑ i, (prepared static c v i).2 *
      G (prepared static c v i).1 (mv (v i).2.1 (prepared static c v i).1) := by
    refine lt_of_le_of_ne (Finset.sum_nonneg fun i _ => mul_nonneg (hp0 i) (hG _ _)) fun hz => ?_
    unfold advanced at h
    rw [← Finset.sum_div] at h
    simp only at h
    rw [← hz, div_zero] at h
    exact zero_ne_one h
  refine ⟨ht.resolve_left fun hz => ?_, hpos⟩
  have hpt : ∑ i, (prepared static c v i).2 = 0 := by
    unfold prepared
    rw [resampleIf_total, hz]
  rw [Finset.sum_eq_zero fun i _ => by rw [weights_zero hp0 hpt i, zero_mul]] at hpos
  exact lt_irrefl 0 hpos

theorem ticks_eq {c : Nat → UpdateCall R X MV ℝ} {T : Nat} (h : ∀ t < T, (c t).sys.isSome = true) :
    ∀ t ≤ T, ticks c t = t
  | 0, _ => rfl
  | t + 1, ht => by
    rw [ticks, ticks_eq h t (by omega), if_pos (h t (by omega))]

theorem bounded_resampling {x : Nat → Ω → X} {ρ : Nat → Nat → Ω → ℝ × R × ℝ} {μ : Measure X}
    {ν : Nat → Measure R} [∀ t, IsProbabilityMeasure (ν t)]
    (h : IndependentDraws P x ρ μ fun t => ((volume : Measure ℝ).restrict (Set.Ioc 0 1)).prod
      ((ν t).prod ((volume : Measure ℝ).restrict (Set.Ioc 0 1))))
    {step : Noise R ℝ → UpdateCall R X MV ℝ → ParticleFilter R X ℝ →
      Outcome (Bool × ParticleFilter R X ℝ)} {good : ParticleFilter R X ℝ → Prop}
    {c : Nat → UpdateCall R X MV ℝ} {κ : Nat → Kernel X X} {ℓ : Nat → X → ℝ≥0∞} {T : Nat}
    {threshold : ℝ} {B : Nat → ℝ} (hB0 : ∀ t < T, 0 < B t)
    (hc : ∀ t < T, ∃ mv G, StepLaw mv G (ν t) (κ t) (ℓ t) ∧
      StepRuns kthRoot step period threshold good (c t) mv G ∧ ∀ a b, G a b ≤ B t)
    (hp : Possible κ ℓ μ T) (hN : 0 < N) {s : ℝ} (hs : 1 ≤ s)
    (heven : KeepsEven period threshold (fun t => (c t).sys.isSome = true) (fun t => (c t).meas.isSome = true) T N s)
    {prior : Ω → MCPdf ℝ X} {f : Ω → ParticleFilter R X ℝ}
    {q : Option (Proposal R X ℝ)}
    (hprior : ∀ ω, Holds (prior ω) ((List.range N).map fun i => (x i ω, 1 / (N : ℝ))))
    (hf : ∀ ω, ParticleFilter.make dflt (prior ω) q period threshold .multinomial =
      .ok (f ω)) (hgood : ∀ g : ParticleFilter R X ℝ, g.proposal = q → good g)
    {φ : X → ℝ} (hφ : Measurable φ) (hb : ∀ y, |φ y| ≤ 1) {ε : ℝ} (hε : 0 < ε) :
    P {ω | ¬ ∃ f' est, ParticleFilter.run step
        ((List.range T).map fun t => (⟨fun i => (ρ t i ω).2.1, fun i => (ρ t i ω).1,
          fun i => (ρ t i ω).2.2⟩, c t)) (f ω) = .ok (true, f') ∧ Holds f'.postGet est ∧
        |averageOver φ est - ∫ y, φ y ∂(exactFilter κ ℓ μ T)| < ε} ≤
      ENNReal.ofReal (errorConstant (fun t => B t / (evidenceOf (κ t) (ℓ t) (exactFilter κ ℓ μ t)).toReal) s T ^ 2 *
        (1 / ε ^ 2 + 1) / N) := by
  have hall : ∀ t, ∃ (mv : R → X → X) (G : X → X → ℝ), (Measurable fun p : R × X => mv p.1 p.2) ∧
      (Measurable fun p : X × X => G p.1 p.2) ∧
      (t < T → StepLaw mv G (ν t) (κ t) (ℓ t) ∧
        StepRuns kthRoot step period threshold good (c t) mv G ∧ ∀ a b, G a b ≤ B t) := by
    intro t
    by_cases ht : t < T
    · obtain ⟨mv, G, h1, h2⟩ := hc t ht
      exact ⟨mv, G, h1.hmv, h1.hG, fun _ => ⟨h1, h2⟩⟩
    · exact ⟨fun _ a => a, fun _ _ => 1, measurable_snd, measurable_const,
        fun ht' => absurd ht' ht⟩
  choose mv G hmv hG hstep using hall
  have hΦ : ∀ t, Measurable (stepFunction period c mv G threshold N t) := fun t =>
    measurable_filterStep (hmv t) (hG t) _ _ _
  have hinit : Measurable fun (x : Fin N → X) i => (x i, 1 / (N : ℝ)) :=
    measurable_pi_lambda _ fun i => (measurable_pi_apply i).prodMk measurable_const
  have hN' : (0 : ℝ) < N := by exact_mod_cast hN
  have hunit : ∀ᵐ ω ∂P, ∀ t i, (0 < (ρ t i ω).1 ∧ (ρ t i ω).1 ≤ 1) ∧
      (0 < (ρ t i ω).2.2 ∧ (ρ t i ω).2.2 ≤ 1) := by
    rw [ae_all_iff]
    intro t
    rw [ae_all_iff]
    intro i
    have hu : IsProbabilityMeasure ((volume : Measure ℝ).restrict (Set.Ioc (0 : ℝ) 1)) :=
      ⟨by simp⟩
    have hin : ∀ᵐ u ∂((volume : Measure ℝ).restrict (Set.Ioc (0 : ℝ) 1)), 0 < u ∧ u ≤ 1 :=
      ae_restrict_mem measurableSet_Ioc
    have e1 : P.map (fun ω => (ρ t i ω).1) = (volume : Measure ℝ).restrict (Set.Ioc 0 1) := by
      have := congrArg (fun m => Measure.map Prod.fst m) (h.law_r t i)
      beta_reduce at this
      rw [Measure.map_map measurable_fst (h.measurable_r t i), Measure.map_fst_prod, measure_univ,
        one_smul] at this
      exact this
    have e2 : P.map (fun ω => (ρ t i ω).2.2) = (volume : Measure ℝ).restrict (Set.Ioc 0 1) := by
      have := congrArg (fun m => Measure.map (Prod.snd ∘ Prod.snd) m) (h.law_r t i)
      beta_reduce at this
      rw [Measure.map_map (measurable_snd.comp measurable_snd) (h.measurable_r t i),
        ← Measure.map_map measurable_snd measurable_snd, Measure.map_snd_prod, measure_univ,
        one_smul, Measure.map_snd_prod, measure_univ, one_smul] at this
      exact this
    rw [← e1] at hin
    have i1 := ae_of_ae_map (measurable_fst.comp (h.measurable_r t i)).aemeasurable hin
    rw [e1, ← e2] at hin
    have i2 := ae_of_ae_map
      ((measurable_snd.comp measurable_snd).comp (h.measurable_r t i)).aemeasurable hin
    filter_upwards [i1, i2] with ω j1 j2
    exact ⟨j1, j2⟩
  obtain ⟨ratio, hratio⟩ : ∃ ratio : Nat → ℝ, ratio = fun t =>
    B t / (evidenceOf (κ t) (ℓ t) (exactFilter κ ℓ μ t)).toReal := ⟨_, rfl⟩
  rw [← hratio]
  obtain ⟨C, hC⟩ : ∃ C : Nat → Ω → Fin N → X × ℝ,
    C = fun t => particlesAt period c mv G (fun _ => threshold) x ρ t N := ⟨_, rfl⟩
  have hC0 : ∀ ω i, C 0 ω i = (x i ω, 1 / (N : ℝ)) := by
    intro ω i; rw [hC]; rfl
  have hCs : ∀ t ω, C (t + 1) ω = filterStep ((c t).sys.isSome = true ∧ 0 < ticks c t ∧ period ∣ ticks c t)
      ((c t).meas.isSome = true) threshold (mv t) (G t) (C t ω, fun i => ρ t i ω) := by
    intro t ω; rw [hC]; rfl
  have h1s : 1 / (N : ℝ) ≤ s / N := div_le_div_of_nonneg_right hs hN'.le
  have hsq0 : ∀ ω, ∑ i, (C 0 ω i).2 ^ 2 ≤ s / N := by
    intro ω
    simp only [hC0, Finset.sum_const, Finset.card_univ, Fintype.card_fin, nsmul_eq_mul]
    refine le_trans (le_of_eq ?_) h1s
    field_simp
  have key : ∀ t ≤ T, CloudNear P (C t) (exactFilter κ ℓ μ t) (ENNReal.ofReal (errorConstant ratio s t / √N)) ∧
      0 ≤ errorConstant ratio s t ∧
      ((N : ℝ) ≤ s * threshold ∧ (∀ t < T, (c t).meas.isSome = true) → ∀ ω, ∑ i, (C t ω i).2 ^ 2 ≤ s / N) ∧
      ∀ ω, (∀ t i, (0 < (ρ t i ω).1 ∧ (ρ t i ω).1 ≤ 1) ∧ (0 < (ρ t i ω).2.2 ∧ (ρ t i ω).2.2 ≤ 1)) →
        ∑ i, (C t ω i).2 = 1 → ∃ f', ParticleFilter.run step
        ((List.range t).map fun t => (⟨fun i => (ρ t i ω).2.1, fun i => (ρ t i ω).1,
          fun i => (ρ t i ω).2.2⟩, c t)) (f ω) = .ok (true, f') ∧ good f' ∧
        Ready period threshold (ticks c t) f' (List.ofFn (C t ω)) := by
    intro t
    induction t with
    | zero =>
      intro _
      refine ⟨?_, zero_le_one, fun _ => hsq0, fun ω _ _ => ?_⟩
      · have : C 0 = fun ω (i : Fin N) => (x i ω, 1 / (N : ℝ)) := by
          funext ω i; exact hC0 ω i
        rw [this]
        exact near_initial h hN
      have hn0 : Normalised ((List.range N).map fun i => (x i ω, 1 / (N : ℝ))) := by
        refine ⟨?_, ?_⟩
        · intro w hw
          simp only [List.map_map, List.mem_map, Function.comp] at hw
          obtain ⟨_, _, rfl⟩ := hw
          positivity
        · simp [List.map_map, Function.comp_def, hN'.ne']
      obtain ⟨k1, k2, _⟩ := pfMake_ready (hprior ω) hn0 (hf ω)
      have e : List.ofFn (C 0 ω) = (List.range N).map fun i => (x i ω, 1 / (N : ℝ)) := by
        apply List.ext_getElem <;> simp [hC0]
      rw [e]
      exact ⟨f ω, rfl, hgood _ k2, k1⟩
    | succ t ih =>
      intro ht
      obtain ⟨a, k0, ev, run⟩ := ih (by omega)
      obtain ⟨hl, hr, hGB⟩ := hstep t (by omega)
      have hd := driven_law h hΦ hinit t
      have hsq : ∀ ω, ∑ i, (prepared ((c t).sys.isSome = true ∧ 0 < ticks c t ∧ period ∣ ticks c t)
          (C t ω) (fun i : Fin N => ρ t i ω) i).2 ^ 2 ≤ (√s / √N) ^ 2 := by
        intro ω
        rw [div_pow, Real.sq_sqrt (by linarith), Real.sq_sqrt hN'.le]
        refine squares_resampleIf (a.nonneg ω) (a.total ω) h1s (fun hD _ => ?_) _
        rcases heven with ⟨e1, e2⟩ | e1
        · rcases Nat.eq_zero_or_pos t with rfl | ht0
          · exact hsq0 ω
          · refine absurd ?_ hD
            rw [Set.mem_ofPred_eq, ticks_eq e2 t (by omega), e1]
            exact ⟨e2 t (by omega), ht0, one_dvd _⟩
        · exact ev e1 ω
      have hind : P.map (fun ω => (C t ω, fun i : Fin N => ρ t i ω)) =
          (P.map (C t)).prod (Measure.pi fun _ : Fin N => ((volume : Measure ℝ).restrict (Set.Ioc 0 1)).prod
            ((ν t).prod ((volume : Measure ℝ).restrict (Set.Ioc 0 1)))) := by
        rw [hC]; exact hd.2.2
      have st := a.filterStep hd.2.1 hind hl (hp t (by omega)).1 (hp t (by omega)).2
        ((c t).sys.isSome = true ∧ 0 < ticks c t ∧ period ∣ ticks c t)
        ((c t).meas.isSome = true) threshold hGB (hB0 t (by omega)) (by positivity) hsq
      have hr0 : 0 ≤ ratio t := by
        rw [hratio]
        exact div_nonneg (hB0 t (by omega)).le ENNReal.toReal_nonneg
      have hk1 : 0 ≤ errorConstant ratio s (t + 1) := by
        unfold errorConstant
        positivity
      refine ⟨?_, hk1, fun e ω => ?_, fun ω hu h1 => ?_⟩
      · have e0 : C (t + 1) = fun ω => filterStep ((c t).sys.isSome = true ∧ 0 < ticks c t ∧ period ∣ ticks c t)
          ((c t).meas.isSome = true) threshold (mv t) (G t) (C t ω, fun i => ρ t i ω) := by
          funext ω; exact hCs t ω
        rw [e0]
        refine st.mono (le_of_eq ?_)
        have e1 : B t / (evidenceOf (κ t) (ℓ t) (exactFilter κ ℓ μ t)).toReal = ratio t := by
          rw [hratio]
        rw [e1, ← ENNReal.ofReal_add (by positivity) (by positivity),
          ← ENNReal.ofReal_add (by positivity) (by positivity),
          ← ENNReal.ofReal_mul (by positivity), ← ENNReal.ofReal_add (by positivity) (by positivity)]
        congr 1
        rw [errorConstant]
        ring
      · rw [hCs]
        unfold filterStep
        refine squares_resampleIf (advanced_nonneg hl.nonneg (resampleIf_nonneg (a.nonneg ω) _) _)
          (advanced_total _ _ _ _) h1s (fun hD _ => ?_) _
        refine squares_degenerate (by linarith) hN e.1 (threshold := threshold) fun hc => hD ?_
        exact ⟨e.2 t (by omega), hc.2⟩
      · rw [hCs] at h1 ⊢
        obtain ⟨j1, j2⟩ := filterStep_alive hl.nonneg (a.nonneg ω) (a.total ω) h1
        obtain ⟨f1, r1, r2, r3⟩ := run ω hu j1
        obtain ⟨f2, k1, k2, k3⟩ := step_cloud hl.nonneg hr r3 r2 (v := fun i => ρ t i ω)
          (fun i => (hu t i).1) (fun i => (hu t i).2) Iff.rfl j2
        refine ⟨f2, ?_, k2, k3⟩
        rw [List.range_succ, List.map_append]
        exact run_snoc step (_, c t) k1 _ r1
  obtain ⟨a, k0, _, run⟩ := key T le_rfl
  have c1 := a.chebyshev hφ hb hε
  have c2 := a.chebyshev (φ := fun _ => 1) measurable_const (fun _ => by simp) one_pos
  have hprob := a.prob
  have hsub : {ω | ¬ ∃ f' est, ParticleFilter.run step
        ((List.range T).map fun t => (⟨fun i => (ρ t i ω).2.1, fun i => (ρ t i ω).1,
          fun i => (ρ t i ω).2.2⟩, c t)) (f ω) = .ok (true, f') ∧ Holds f'.postGet est ∧
        |averageOver φ est - ∫ y, φ y ∂(exactFilter κ ℓ μ T)| < ε} ⊆
      {ω | ¬ ∀ t i, (0 < (ρ t i ω).1 ∧ (ρ t i ω).1 ≤ 1) ∧ (0 < (ρ t i ω).2.2 ∧ (ρ t i ω).2.2 ≤ 1)} ∪
      ({ω | ε ≤ |sumOver (C T ω) φ - ∫ y, φ y ∂(exactFilter κ ℓ μ T)|} ∪
       {ω | 1 ≤ |sumOver (C T ω) (fun _ => 1) - ∫ _, 1 ∂(exactFilter κ ℓ μ T)|}) := by
    intro ω hω
    by_contra hcon
    simp only [Set.mem_union, Set.mem_ofPred_eq, not_or, not_not, not_le] at hcon
    obtain ⟨d1, d2, d3⟩ := hcon
    have hone : ∑ i, (C T ω i).2 = 1 := by
      refine (a.total ω).resolve_left fun hz => ?_
      unfold sumOver at d3
      simp [hz] at d3
    obtain ⟨f1, r1, _, r3⟩ := run ω d1 hone
    refine hω ⟨f1, _, r1, r3.live.samples, ?_⟩
    have e : averageOver φ (List.ofFn (C T ω)) = sumOver (C T ω) φ := by
      unfold averageOver sumOver
      rw [List.map_ofFn, List.sum_ofFn]
      rfl
    rw [e]
    exact d2
  have hk : (ENNReal.ofReal (errorConstant ratio s T / √N)) ^ 2 =
      ENNReal.ofReal (errorConstant ratio s T ^ 2 / N) := by
    rw [← ENNReal.ofReal_pow (by positivity), div_pow, Real.sq_sqrt hN'.le]
  rw [hk] at c1 c2
  rw [← ENNReal.ofReal_div_of_pos (by positivity)] at c1 c2
  refine (measure_mono hsub).trans ((measure_union_le _ _).trans ?_)
  have h00 : P {ω | ¬ ∀ t i, (0 < (ρ t i ω).1 ∧ (ρ t i ω).1 ≤ 1) ∧
      (0 < (ρ t i ω).2.2 ∧ (ρ t i ω).2.2 ≤ 1)} = 0 := hunit
  rw [h00, zero_add]
  refine ((measure_union_le _ _).trans (add_le_add c1 c2)).trans (le_of_eq ?_)
  rw [← ENNReal.ofReal_add (by positivity) (by positivity)]
  congr 1
  field_simp

end BFL.Props
