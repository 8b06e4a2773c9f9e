import Verif.Lemmas.CloudFilter
import Verif.Lemmas.ParticleResampleRun

/-!
# Runs of the particle filters with resampling, on random particle sets
-/

set_option linter.unusedSectionVars false

namespace BFL.Props

open MeasureTheory ProbabilityTheory Filter Spec MCPdf ParticleFilter
open scoped ENNReal Topology

variable {R X MV Ω : Type} [MeasurableSpace X] [MeasurableSpace R] [MeasurableSpace Ω]
  {dflt : X} {period : Nat} {P : Measure Ω} [IsProbabilityMeasure P]

theorem isRoot_kthRoot : IsRoot kthRoot := ⟨kthRoot_bounds, kthRoot_pos⟩

theorem selectors_eq (us : Nat → ℝ) {N : Nat} (i : Fin N) :
    selectors kthRoot us N i = orderedVec (fun i : Fin N => us i) i := by
  rw [← orderedVec_apply]
  unfold selectors
  congr 1
  apply List.ext_getElem <;> simp

theorem resampledIf_eq {N : Nat} {c : Fin N → X × ℝ} (h0 : ∀ i, 0 ≤ (c i).2)
    (h1 : ∑ i, (c i).2 = 1) {on : Prop} {D : Set (Fin N → X × ℝ)} (hD : c ∈ D ↔ on)
    {us : Nat → ℝ} (hus : Uniforms us) {ps' : List (X × ℝ)}
    (h : ResampledIf on (selectors kthRoot us N) (List.ofFn c) ps') :
    ps' = List.ofFn (resampleIf D c fun i => us i) := by
  unfold resampleIf
  by_cases ho : on
  · rw [if_pos ⟨hD.2 ho, h1⟩]
    obtain ⟨hl, hi⟩ := h.1 ho
    have hl' : ps'.length = N := by rw [hl]; simp
    apply List.ext_getElem
    · simp [hl']
    · intro i i1 i2
      have hiN : i < N := hl' ▸ i1
      obtain ⟨j, hj, hinv, he⟩ := hi i i1
      have hjN : j < N := by simpa using hj
      have hw : (List.ofFn c).map Prod.snd = weightsOf c := by
        rw [List.map_ofFn]
        rfl
      rw [hw, selectors_eq us ⟨i, hiN⟩] at hinv
      have hs := sel_eq (weightsOf_dist h0 h1).1 hinv
      have hp := pick_eq h0 h1 (orderedVec_unit (u := fun i : Fin N => us i) (fun i => hus i)
        ⟨i, hiN⟩) ⟨i, hiN⟩
      rw [hs] at hp
      have hp' : pick c (orderedVec (fun i : Fin N => us i) ⟨i, hiN⟩) ⟨i, hiN⟩ = ⟨j, hjN⟩ :=
        Fin.ext hp
      rw [he]
      simp [resampled, hp']
  · rw [if_neg fun hc => ho (hD.1 hc.1)]
    exact h.2 ho

theorem advanceTotal_ofFn {N : Nat} (mv : R → X → X) (G : X → X → ℝ) (c : Fin N → X × ℝ)
    (ρ : Nat → R) : advanceTotal mv G ρ (List.ofFn c) =
      ∑ i, (c i).2 * G (c i).1 (mv (ρ i) (c i).1) := by
  unfold advanceTotal
  rw [← List.sum_ofFn]
  congr 1
  apply List.ext_getElem <;> simp

theorem advance_ofFn {N : Nat} (mv : R → X → X) (G : X → X → ℝ) (c : Fin N → X × ℝ)
    (ρ : Nat → R) : advance mv G ρ (List.ofFn c) = List.ofFn (advanced mv G c fun i => ρ i) := by
  unfold advance
  rw [advanceTotal_ofFn]
  apply List.ext_getElem <;> simp [advanced]

theorem effectiveSize_ofFn {N : Nat} (c : Fin N → X × ℝ) :
    effectiveSize (List.ofFn c) = 1 / ∑ i, (c i).2 ^ 2 := by
  unfold effectiveSize
  rw [List.map_ofFn, List.sum_ofFn]
  rfl

theorem normalised_ofFn {N : Nat} {c : Fin N → X × ℝ} (h : Normalised (List.ofFn c)) :
    (∀ i, 0 ≤ (c i).2) ∧ ∑ i, (c i).2 = 1 := by
  unfold Normalised at h
  rw [List.map_ofFn] at h
  refine ⟨fun i => h.1 _ ?_, ?_⟩
  · rw [List.mem_ofFn]; exact ⟨i, rfl⟩
  · rw [← h.2, List.sum_ofFn]
    rfl

/-- One update with resampling on a particle set with `N` members. -/
theorem step_cloud {step : Noise R ℝ → UpdateCall R X MV ℝ → ParticleFilter R X ℝ →
      Outcome (Bool × ParticleFilter R X ℝ)} {threshold : ℝ} {good : ParticleFilter R X ℝ → Prop}
    {c : UpdateCall R X MV ℝ} {mv : R → X → X} {G : X → X → ℝ} (hG0 : ∀ a b, 0 ≤ G a b)
    (hok : StepRuns kthRoot step period threshold good c mv G) {N n : Nat}
    {s : Fin N → X × ℝ} {f : ParticleFilter R X ℝ}
    (hr : Ready period threshold n f (List.ofFn s)) (hg : good f) {v : Nat → ℝ × R × ℝ}
    (hus : Uniforms fun i => (v i).1) (hud : Uniforms fun i => (v i).2.2) {static : Prop}
    (hst : static ↔ c.sys.isSome = true ∧ 0 < n ∧ period ∣ n)
    (hpos : 0 < ∑ i, (prepared static s (fun i => v i) i).2 *
      G (prepared static s (fun i => v i) i).1
        (mv (v i).2.1 (prepared static s (fun i => v i) i).1)) :
    ∃ f', step ⟨fun i => (v i).2.1, fun i => (v i).1, fun i => (v i).2.2⟩ c f = .ok (true, f') ∧
      good f' ∧ Ready period threshold (n + if c.sys.isSome = true then 1 else 0) f'
        (List.ofFn (filterStep static (c.meas.isSome = true) threshold mv G
          (s, fun i => v i))) := by
  obtain ⟨h0, h1⟩ := normalised_ofFn hr.live.dist
  obtain ⟨ps1, k1, k2⟩ := hok (noise := ⟨fun i => (v i).2.1, fun i => (v i).1, fun i => (v i).2.2⟩)
    hr hg hus hud
  rw [List.length_ofFn] at k1 k2
  have e1 : ps1 = List.ofFn (prepared static s fun i => v i) :=
    resampledIf_eq h0 h1 (D := {_c | static}) hst hus k1
  rw [e1, advanceTotal_ofFn, advance_ofFn] at k2
  obtain ⟨f', ps2, l1, l2, l3, l4⟩ := k2 hpos
  have hq0 : ∀ i, 0 ≤ (prepared static s (fun i => v i) i).2 := resampleIf_nonneg h0 _
  have hadv : (∀ i, 0 ≤ (advanced mv G (prepared static s fun i => v i)
        (fun i : Fin N => (v i).2.1) i).2) ∧
      ∑ i, (advanced mv G (prepared static s fun i => v i) (fun i : Fin N => (v i).2.1) i).2 =
        1 := by
    refine ⟨fun i => div_nonneg (mul_nonneg (hq0 i) (hG0 _ _)) hpos.le, ?_⟩
    unfold advanced
    rw [← Finset.sum_div]
    exact div_self hpos.ne'
  have e2 : ps2 = List.ofFn (filterStep static (c.meas.isSome = true) threshold mv G
      (s, fun i => v i)) :=
    resampledIf_eq hadv.1 hadv.2 (D := degenerate (c.meas.isSome = true) threshold) (by
      unfold degenerate
      rw [effectiveSize_ofFn]
      exact Iff.rfl) hud l4
  rw [e2] at l3
  exact ⟨f', l1, l2, l3⟩

/-- Number of updates with a system model among the first `t`. -/
def ticks (c : Nat → UpdateCall R X MV ℝ) : Nat → Nat
  | 0 => 0
  | t + 1 => ticks c t + if (c t).sys.isSome = true then 1 else 0

/-- The update number `t` as a function of particle set and random inputs. -/
noncomputable def stepFunction (period : Nat) (c : Nat → UpdateCall R X MV ℝ)
    (mv : Nat → R → X → X) (G : Nat → X → X → ℝ) (threshold : ℝ) (N t : Nat)
    (z : (Fin N → X × ℝ) × (Fin N → ℝ × R × ℝ)) : Fin N → X × ℝ :=
  filterStep ((c t).sys.isSome = true ∧ 0 < ticks c t ∧ period ∣ ticks c t)
    ((c t).meas.isSome = true) threshold (mv t) (G t) z

/-- The particles after `t` updates. -/
noncomputable def particlesAt (period : Nat) (c : Nat → UpdateCall R X MV ℝ)
    (mv : Nat → R → X → X) (G : Nat → X → X → ℝ) (threshold : Nat → ℝ) (x : Nat → Ω → X)
    (ρ : Nat → Nat → Ω → ℝ × R × ℝ) (t N : Nat) : Ω → Fin N → X × ℝ :=
  driven (stepFunction period c mv G (threshold N) N) (fun x i => (x i, 1 / (N : ℝ))) x ρ t

/-- The updates succeed and leave averages near the exact ones, for finitely many functions at once. -/
theorem converges_resampling_all {ι : Type} [Finite ι] {x : Nat → Ω → X} {ρ : Nat → Nat → Ω → ℝ × R × ℝ} {μ : Measure X}
    {ν : Nat → Measure R} [∀ t, IsProbabilityMeasure (ν t)]
    (h : IndependentDraws P x ρ μ fun t => ((volume : Measure ℝ).restrict (Set.Ioc 0 1)).prod
      ((ν t).prod ((volume : Measure ℝ).restrict (Set.Ioc 0 1))))
    {step : Noise R ℝ → UpdateCall R X MV ℝ → ParticleFilter R X ℝ →
      Outcome (Bool × ParticleFilter R X ℝ)} {good : ParticleFilter R X ℝ → Prop}
    {c : Nat → UpdateCall R X MV ℝ} {κ : Nat → Kernel X X} {ℓ : Nat → X → ℝ≥0∞} {T : Nat}
    {threshold : Nat → ℝ}
    (hc : ∀ t < T, ∃ mv G, StepLaw mv G (ν t) (κ t) (ℓ t) ∧
      ∀ N, StepRuns kthRoot step period (threshold N) good (c t) mv G)
    (hp : Possible κ ℓ μ T)
    {prior : Nat → Ω → MCPdf ℝ X} {f : Nat → Ω → ParticleFilter R X ℝ}
    {q : Option (Proposal R X ℝ)}
    (hprior : ∀ N ω, 0 < N → Holds (prior N ω) ((List.range N).map fun i => (x i ω, 1 / (N : ℝ))))
    (hf : ∀ N ω, 0 < N → ParticleFilter.make dflt (prior N ω) q period (threshold N) .multinomial =
      .ok (f N ω)) (hgood : ∀ g : ParticleFilter R X ℝ, g.proposal = q → good g)
    {φ : ι → X → ℝ} (hφ : ∀ k, Measurable (φ k)) (hint : ∀ k, Integrable (φ k) (exactFilter κ ℓ μ T)) {ε : ℝ}
    (hε : 0 < ε) :
    Rare P fun N => {ω | ¬ ∃ f' est, ParticleFilter.run step
        ((List.range T).map fun t => (⟨fun i => (ρ t i ω).2.1, fun i => (ρ t i ω).1,
          fun i => (ρ t i ω).2.2⟩, c t)) (f N ω) = .ok (true, f') ∧ Holds f'.postGet est ∧
        MCPdf.Good f'.postGet (est.map Prod.snd) ∧
        ∀ k, |averageOver (φ k) est - ∫ y, φ k y ∂(exactFilter κ ℓ μ T)| < ε} := by
  have hall : ∀ t, ∃ (mv : R → X → X) (G : X → X → ℝ), (Measurable fun p : R × X => mv p.1 p.2) ∧
      (Measurable fun p : X × X => G p.1 p.2) ∧
      (t < T → StepLaw mv G (ν t) (κ t) (ℓ t) ∧
        ∀ N, StepRuns kthRoot step period (threshold N) good (c t) mv G) := by
    intro t
    by_cases ht : t < T
    · obtain ⟨mv, G, h1, h2⟩ := hc t ht
      exact ⟨mv, G, h1.hmv, h1.hG, fun _ => ⟨h1, h2⟩⟩
    · exact ⟨fun _ a => a, fun _ _ => 1, measurable_snd, measurable_const,
        fun ht' => absurd ht' ht⟩
  choose mv G hmv hG hstep using hall
  have hΦ : ∀ N t, Measurable (stepFunction period c mv G (threshold N) N t) := fun N t =>
    measurable_filterStep (hmv t) (hG t) _ _ _
  have hinit : ∀ N : Nat, Measurable fun (x : Fin N → X) i => (x i, 1 / (N : ℝ)) := fun N =>
    measurable_pi_lambda _ fun i => (measurable_pi_apply i).prodMk measurable_const
  -- the uniform numbers
  have hunit : ∀ᵐ ω ∂P, ∀ t i, (0 < (ρ t i ω).1 ∧ (ρ t i ω).1 ≤ 1) ∧
      (0 < (ρ t i ω).2.2 ∧ (ρ t i ω).2.2 ≤ 1) := by
    rw [ae_all_iff]
    intro t
    rw [ae_all_iff]
    intro i
    have hu : IsProbabilityMeasure ((volume : Measure ℝ).restrict (Set.Ioc (0 : ℝ) 1)) :=
      ⟨by simp⟩
    have hin : ∀ᵐ u ∂((volume : Measure ℝ).restrict (Set.Ioc (0 : ℝ) 1)), 0 < u ∧ u ≤ 1 :=
      ae_restrict_mem measurableSet_Ioc
    have e1 : P.map (fun ω => (ρ t i ω).1) = (volume : Measure ℝ).restrict (Set.Ioc 0 1) := by
      have := congrArg (fun m => Measure.map Prod.fst m) (h.law_r t i)
      beta_reduce at this
      rw [Measure.map_map measurable_fst (h.measurable_r t i), Measure.map_fst_prod, measure_univ,
        one_smul] at this
      exact this
    have e2 : P.map (fun ω => (ρ t i ω).2.2) = (volume : Measure ℝ).restrict (Set.Ioc 0 1) := by
      have := congrArg (fun m => Measure.map (Prod.snd ∘ Prod.snd) m) (h.law_r t i)
      beta_reduce at this
      rw [Measure.map_map (measurable_snd.comp measurable_snd) (h.measurable_r t i),
        ← Measure.map_map measurable_snd measurable_snd, Measure.map_snd_prod, measure_univ,
        one_smul, Measure.map_snd_prod, measure_univ, one_smul] at this
      exact this
    rw [← e1] at hin
    have i1 := ae_of_ae_map (measurable_fst.comp (h.measurable_r t i)).aemeasurable hin
    rw [e1, ← e2] at hin
    have i2 := ae_of_ae_map
      ((measurable_snd.comp measurable_snd).comp (h.measurable_r t i)).aemeasurable hin
    filter_upwards [i1, i2] with ω j1 j2
    exact ⟨j1, j2⟩
  have hnull : Rare P fun _ => {ω | ¬ ∀ t i, (0 < (ρ t i ω).1 ∧ (ρ t i ω).1 ≤ 1) ∧
      (0 < (ρ t i ω).2.2 ∧ (ρ t i ω).2.2 ≤ 1)} := Rare.of_ae fun _ => hunit
  have key : ∀ t ≤ T, Approx P (fun N => particlesAt period c mv G threshold x ρ t N)
        (exactFilter κ ℓ μ t) ∧
      Rare P fun N => {ω | ¬ ∃ f', ParticleFilter.run step
        ((List.range t).map fun t => (⟨fun i => (ρ t i ω).2.1, fun i => (ρ t i ω).1,
          fun i => (ρ t i ω).2.2⟩, c t)) (f N ω) = .ok (true, f') ∧ good f' ∧
        Ready period (threshold N) (ticks c t) f'
          (List.ofFn (particlesAt period c mv G threshold x ρ t N ω))} := by
    intro t
    induction t with
    | zero =>
      intro _
      refine ⟨approx_initial h, Rare.empty.mono ?_⟩
      filter_upwards [eventually_gt_atTop 0] with N hN ω hω
      apply hω
      have hn0 : Normalised ((List.range N).map fun i => (x i ω, 1 / (N : ℝ))) := by
        have hN' : (N : ℝ) ≠ 0 := by exact_mod_cast hN.ne'
        refine ⟨?_, ?_⟩
        · intro w hw
          simp only [List.map_map, List.mem_map, Function.comp] at hw
          obtain ⟨_, _, rfl⟩ := hw
          positivity
        · simp [List.map_map, Function.comp_def, hN']
      obtain ⟨k1, k2, _⟩ := pfMake_ready (hprior N ω hN) hn0 (hf N ω hN)
      have e : List.ofFn (particlesAt period c mv G threshold x ρ 0 N ω) =
          (List.range N).map fun i => (x i ω, 1 / (N : ℝ)) := by
        apply List.ext_getElem <;> simp [particlesAt, driven]
      rw [e]
      exact ⟨f N ω, rfl, hgood _ k2, k1⟩
    | succ t ih =>
      intro ht
      obtain ⟨a, b⟩ := ih (by omega)
      obtain ⟨hl, hr⟩ := hstep t (by omega)
      have hd := fun N => driven_law h (hΦ N) (hinit N) t
      obtain ⟨s1, s2⟩ := a.filterStep (V := fun N ω (i : Fin N) => ρ t i ω) (fun N => (hd N).2.1)
        (fun N => (hd N).2.2) hl (hp t (by omega)).1 (hp t (by omega)).2
        ((c t).sys.isSome = true ∧ 0 < ticks c t ∧ period ∣ ticks c t)
        ((c t).meas.isSome = true) threshold
      refine ⟨s1, ((b.union s2).union hnull).mono (Eventually.of_forall fun N ω hω => ?_)⟩
      by_contra hcon
      simp only [Set.mem_union, Set.mem_ofPred_eq, not_or, not_not] at hcon
      obtain ⟨⟨⟨f1, r1, r2, r3⟩, c2⟩, c3⟩ := hcon
      apply hω
      obtain ⟨f2, k1, k2, k3⟩ := step_cloud hl.nonneg (hr N) r3 r2 (v := fun i => ρ t i ω)
        (fun i => (c3 t i).1) (fun i => (c3 t i).2) Iff.rfl c2
      refine ⟨f2, ?_, k2, k3⟩
      rw [List.range_succ, List.map_append]
      exact run_snoc step (_, c t) k1 _ r1
  obtain ⟨a, b⟩ := key T le_rfl
  refine (b.union (Rare.iUnion fun k => a.average (hφ k) (hint k) hε)).mono
    (Eventually.of_forall fun N ω hω => ?_)
  by_contra hcon
  rw [Set.mem_union, not_or] at hcon
  obtain ⟨c1, c2⟩ := hcon
  simp only [Set.mem_ofPred_eq, not_not] at c1
  simp only [Set.mem_iUnion, not_exists, Set.mem_ofPred_eq, not_le] at c2
  obtain ⟨f1, r1, _, r3⟩ := c1
  refine hω ⟨f1, _, r1, r3.live.samples, r3.live.good, fun k => ?_⟩
  have e : averageOver (φ k) (List.ofFn (particlesAt period c mv G threshold x ρ T N ω)) =
      ∑ i, (particlesAt period c mv G threshold x ρ T N ω i).2 *
        φ k (particlesAt period c mv G threshold x ρ T N ω i).1 := by
    unfold averageOver
    rw [List.map_ofFn, List.sum_ofFn]
    rfl
  rw [e]
  exact c2 k

theorem converges_resampling {x : Nat → Ω → X} {ρ : Nat → Nat → Ω → ℝ × R × ℝ} {μ : Measure X}
    {ν : Nat → Measure R} [∀ t, IsProbabilityMeasure (ν t)]
    (h : IndependentDraws P x ρ μ fun t => ((volume : Measure ℝ).restrict (Set.Ioc 0 1)).prod
      ((ν t).prod ((volume : Measure ℝ).restrict (Set.Ioc 0 1))))
    {step : Noise R ℝ → UpdateCall R X MV ℝ → ParticleFilter R X ℝ →
      Outcome (Bool × ParticleFilter R X ℝ)} {good : ParticleFilter R X ℝ → Prop}
    {c : Nat → UpdateCall R X MV ℝ} {κ : Nat → Kernel X X} {ℓ : Nat → X → ℝ≥0∞} {T : Nat}
    {threshold : Nat → ℝ}
    (hc : ∀ t < T, ∃ mv G, StepLaw mv G (ν t) (κ t) (ℓ t) ∧
      ∀ N, StepRuns kthRoot step period (threshold N) good (c t) mv G)
    (hp : Possible κ ℓ μ T)
    {prior : Nat → Ω → MCPdf ℝ X} {f : Nat → Ω → ParticleFilter R X ℝ}
    {q : Option (Proposal R X ℝ)}
    (hprior : ∀ N ω, 0 < N → Holds (prior N ω) ((List.range N).map fun i => (x i ω, 1 / (N : ℝ))))
    (hf : ∀ N ω, 0 < N → ParticleFilter.make dflt (prior N ω) q period (threshold N) .multinomial =
      .ok (f N ω)) (hgood : ∀ g : ParticleFilter R X ℝ, g.proposal = q → good g)
    {φ : X → ℝ} (hφ : Measurable φ) (hint : Integrable φ (exactFilter κ ℓ μ T)) {ε : ℝ}
    (hε : 0 < ε) :
    Rare P fun N => {ω | ¬ ∃ f' est, ParticleFilter.run step
        ((List.range T).map fun t => (⟨fun i => (ρ t i ω).2.1, fun i => (ρ t i ω).1,
          fun i => (ρ t i ω).2.2⟩, c t)) (f N ω) = .ok (true, f') ∧ Holds f'.postGet est ∧
        |averageOver φ est - ∫ y, φ y ∂(exactFilter κ ℓ μ T)| < ε} := by
  refine (converges_resampling_all h hc hp hprior hf hgood (φ := fun _ : Unit => φ) (fun _ => hφ)
    (fun _ => hint) hε).mono (Eventually.of_forall fun N ω hω hcon => hω ?_)
  obtain ⟨f', est, h1, h2, _, h4⟩ := hcon
  exact ⟨f', est, h1, h2, h4 ()⟩

end BFL.Props
