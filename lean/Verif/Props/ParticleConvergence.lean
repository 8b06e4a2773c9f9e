import Verif.Lemmas.ParticleRun

/-!
# C75: the particle filters converge to the exact Bayes filter
-/

set_option linter.unusedSectionVars false

namespace BFL.Props

open MeasureTheory ProbabilityTheory Filter Spec MCPdf ParticleFilter
open scoped ENNReal Topology

variable {R X MV Ω : Type} [MeasurableSpace X] [MeasurableSpace R] [MeasurableSpace Ω]
  {dflt : X} {root : Nat → ℝ → ℝ} {period : Nat} {threshold : ℝ}
  {P : Measure Ω} [IsProbabilityMeasure P] {x : Nat → Ω → X} {r : Nat → Nat → Ω → R}
  {μ : Measure X} {ν : Nat → Measure R}

/-- Moves and weights of one step have the effect of the kernel and the likelihood. -/
structure StepLaw (mv : R → X → X) (G : X → X → ℝ) (ν : Measure R) (κ : Kernel X X)
    (ℓ : X → ℝ≥0∞) : Prop where
  hmv : Measurable fun p : R × X => mv p.1 p.2
  hG : Measurable fun p : X × X => G p.1 p.2
  nonneg : ∀ a b, 0 ≤ G a b
  hℓ : Measurable ℓ
  law : ∀ a (F : X → ℝ≥0∞), Measurable F →
    ∫⁻ ρ, ENNReal.ofReal (G a (mv ρ a)) * F (mv ρ a) ∂ν = ∫⁻ y, ℓ y * F y ∂(κ a)

theorem converges_of_steps (h : IndependentDraws P x r μ ν)
    {step : Noise R ℝ → UpdateCall R X MV ℝ → ParticleFilter R X ℝ →
      Outcome (Bool × ParticleFilter R X ℝ)} {good : ParticleFilter R X ℝ → Prop}
    {c : Nat → UpdateCall R X MV ℝ} {κ : Nat → Kernel X X} {ℓ : Nat → X → ℝ≥0∞} {T : Nat}
    (hc : ∀ t < T, ∃ mv G, StepLaw mv G (ν t) (κ t) (ℓ t) ∧
      StepOK step period threshold good (c t) mv G)
    (hp : Possible κ ℓ μ T) {us vs : Nat → Nat → ℝ} (hus : ∀ t, Uniforms (us t))
    (hvs : ∀ t, Uniforms (vs t)) (hper : period = 0 ∨ T ≤ period)
    {prior : Nat → Ω → MCPdf ℝ X} {f : Nat → Ω → ParticleFilter R X ℝ}
    {q : Option (Proposal R X ℝ)}
    (hprior : ∀ N ω, 0 < N → Holds (prior N ω) ((List.range N).map fun i => (x i ω, 1 / (N : ℝ))))
    (hf : ∀ N ω, 0 < N → ParticleFilter.make dflt (prior N ω) q period threshold .multinomial =
      .ok (f N ω)) (hgood : ∀ g : ParticleFilter R X ℝ, g.proposal = q → good g)
    {φ : X → ℝ} (hφ : Measurable φ) (hint : Integrable φ (exactFilter κ ℓ μ T)) :
    ∀ᵐ ω ∂P, ∃ est : Nat → List (X × ℝ),
      (∀ᶠ N : Nat in atTop, ∃ f', ParticleFilter.run step
          ((List.range T).map fun t => (⟨fun i => r t i ω, us t, vs t⟩, c t)) (f N ω) =
            .ok (true, f') ∧ Holds f'.postGet (est N)) ∧
      Tendsto (fun N => averageOver φ (est N)) atTop (𝓝 (∫ y, φ y ∂(exactFilter κ ℓ μ T))) := by
  have hν : ∀ t, SFinite (ν t) := by
    intro t
    rw [← h.law_r t 0]
    infer_instance
  have hall : ∀ t, ∃ (mv : R → X → X) (G : X → X → ℝ), (Measurable fun p : R × X => mv p.1 p.2) ∧
      (Measurable fun p : X × X => G p.1 p.2) ∧ (∀ a b, 0 ≤ G a b) ∧
      (t < T → StepLaw mv G (ν t) (κ t) (ℓ t) ∧
        StepOK step period threshold good (c t) mv G) := by
    intro t
    by_cases ht : t < T
    · obtain ⟨mv, G, h1, h2⟩ := hc t ht
      exact ⟨mv, G, h1.hmv, h1.hG, h1.nonneg, fun _ => ⟨h1, h2⟩⟩
    · exact ⟨fun _ a => a, fun _ _ => 1, measurable_snd, measurable_const,
        fun _ _ => zero_le_one, fun ht' => absurd ht' ht⟩
  choose mv G hmv hG hG0 hstep using hall
  have hconv := traj_converges h hmv hG hG0 (T := T) (κ := κ) (ℓ := ℓ)
    (fun t ht => (hstep t ht).1.hℓ) (fun t ht => (hstep t ht).1.law) hp hφ hint
  filter_upwards [hconv] with ω hω
  obtain ⟨h1, h2⟩ := hω
  refine ⟨fun N => cloudAt (fun i => pstate mv G x r i T ω) N, ?_, ?_⟩
  · filter_upwards [h1, eventually_gt_atTop 0] with N hN hN0
    have e0 : (List.range N).map (fun i => (x i ω, 1 / (N : ℝ))) =
        cloudAt (fun i => (x i ω, 1)) N := by
      simp [cloudAt]
    have hn0 : Normalised ((List.range N).map fun i => (x i ω, 1 / (N : ℝ))) := by
      have hN' : (N : ℝ) ≠ 0 := by exact_mod_cast hN0.ne'
      refine ⟨?_, ?_⟩
      · intro w hw
        simp only [List.map_map, List.mem_map, Function.comp] at hw
        obtain ⟨_, _, rfl⟩ := hw
        positivity
      · simp [List.map_map, Function.comp_def, hN']
    obtain ⟨k1, k2, _⟩ := pfMake_ready (hprior N ω hN0) hn0 (hf N ω hN0)
    rw [e0] at k1
    obtain ⟨f', n', l1, _, _, l4⟩ := run_ok (noise := fun t => ⟨fun i => r t i ω, us t, vs t⟩)
      hG0 (fun t ht => (hstep t ht).2) (fun t => ⟨hus t, hvs t⟩) hper k1 (hgood _ k2) hN T le_rfl
    exact ⟨f', l1, l4.live.samples⟩
  · simp only [average_cloudAt]
    exact h2

/-- One update of the particle filter with proposal `q`: for random inputs with law `ν`, the models
have the transition kernel `κ` and the likelihood `ℓ`. A measurement of a full update must not take
sensor parameters (`C26_sensor_false`); an update without a measurement needs a proposal that draws
from the system model itself (`C75_prediction_false`). -/
inductive UpdatesBy (q : Proposal R X ℝ) :
    UpdateCall R X MV ℝ → Measure R → Kernel X X → (X → ℝ≥0∞) → Prop
  | full {m : SysModel R X ℝ} {mm : Model X MV ℝ} {u s : X} {z : MV} {Tr Q : X → X → X → ℝ}
      {L : MV → X → X → ℝ} {draw : R → X → X} {base : Measure X} {ν : Measure R} {κ : Kernel X X}
      (hm : IsTransition m Tr) (hq : IsProposal q m Q) (hl : IsLikelihood mm L)
      (hs : ¬ WithSensor mm) (hd : ∀ r x prev, q.draw r (argsFor m x u) prev = .ok (draw r x))
      (measurable_draw : Measurable fun p : R × X => draw p.1 p.2)
      (measurable_Tr : Measurable fun p : X × X => Tr p.1 u p.2)
      (measurable_Q : Measurable fun p : X × X => Q p.1 u p.2)
      (measurable_L : Measurable fun y => L z y s)
      (proposal : ∀ x, ν.map (fun r => draw r x) =
        base.withDensity fun y => ENNReal.ofReal (Q x u y))
      (system : ∀ x, κ x = base.withDensity fun y => ENNReal.ofReal (Tr x u y))
      (support : ∀ x y, 0 < L z y s → 0 < Tr x u y → 0 < Q x u y) :
      UpdatesBy q ⟨some m, u, some mm, z, s⟩ ν κ fun y => ENNReal.ofReal (L z y s)
  | measurement {mm : Model X MV ℝ} {L : MV → X → X → ℝ} {ν : Measure R} [IsProbabilityMeasure ν]
      (u s : X) (z : MV) (hl : IsLikelihood mm L) (measurable_L : Measurable fun y => L z y s) :
      UpdatesBy q ⟨none, u, some mm, z, s⟩ ν Kernel.id fun y => ENNReal.ofReal (L z y s)
  | system {m : SysModel R X ℝ} {u : X} {Tr Q : X → X → X → ℝ} {draw : R → X → X}
      {base : Measure X} {ν : Measure R} {κ : Kernel X X} (s : X) (z : MV)
      (hm : IsTransition m Tr) (hq : IsProposal q m Q)
      (hd : ∀ r x prev, q.draw r (argsFor m x u) prev = .ok (draw r x))
      (measurable_draw : Measurable fun p : R × X => draw p.1 p.2)
      (proposal : ∀ x, ν.map (fun r => draw r x) =
        base.withDensity fun y => ENNReal.ofReal (Tr x u y))
      (system : ∀ x, κ x = base.withDensity fun y => ENNReal.ofReal (Tr x u y)) :
      UpdatesBy q ⟨some m, u, none, z, s⟩ ν κ fun _ => 1

/-- One update of the bootstrap filter. `κ` is the law of what the system model draws. -/
inductive BootUpdatesBy : UpdateCall R X MV ℝ → Measure R → Kernel X X → (X → ℝ≥0∞) → Prop
  | full {m : SysModel R X ℝ} {mm : Model X MV ℝ} {u s : X} {z : MV} {Tr : X → X → X → ℝ}
      {L : MV → X → X → ℝ} {draw : R → X → X} {ν : Measure R} {κ : Kernel X X}
      (hm : IsTransition m Tr) (hl : IsLikelihood mm L)
      (total : ∀ r x u prev, ∃ y, m.draw r (argsFor m x u) prev = .ok y)
      (hd : ∀ r x prev, m.draw r (argsFor m x u) prev = .ok (draw r x))
      (measurable_draw : Measurable fun p : R × X => draw p.1 p.2)
      (measurable_L : Measurable fun y => L z y s)
      (system : ∀ x, κ x = ν.map (fun r => draw r x)) :
      BootUpdatesBy ⟨some m, u, some mm, z, s⟩ ν κ fun y => ENNReal.ofReal (L z y s)
  | measurement {mm : Model X MV ℝ} {L : MV → X → X → ℝ} {ν : Measure R} [IsProbabilityMeasure ν]
      (u s : X) (z : MV) (hl : IsLikelihood mm L) (measurable_L : Measurable fun y => L z y s) :
      BootUpdatesBy ⟨none, u, some mm, z, s⟩ ν Kernel.id fun y => ENNReal.ofReal (L z y s)
  | system {m : SysModel R X ℝ} {u : X} {Tr : X → X → X → ℝ} {draw : R → X → X} {ν : Measure R}
      {κ : Kernel X X} (s : X) (z : MV) (hm : IsTransition m Tr)
      (total : ∀ r x u prev, ∃ y, m.draw r (argsFor m x u) prev = .ok y)
      (hd : ∀ r x prev, m.draw r (argsFor m x u) prev = .ok (draw r x))
      (measurable_draw : Measurable fun p : R × X => draw p.1 p.2)
      (system : ∀ x, κ x = ν.map (fun r => draw r x)) :
      BootUpdatesBy ⟨some m, u, none, z, s⟩ ν κ fun _ => 1

theorem stepLaw_measurement {L : X → ℝ} (h0 : ∀ y, 0 ≤ L y) (hL : Measurable L) (ν : Measure R)
    [IsProbabilityMeasure ν] :
    StepLaw (fun _ a => a) (fun _ y => L y) ν Kernel.id fun y => ENNReal.ofReal (L y) := by
  refine ⟨measurable_snd, hL.comp measurable_snd, fun _ b => h0 b, hL.ennreal_ofReal, ?_⟩
  intro a F hF
  have hLF : Measurable fun y => ENNReal.ofReal (L y) * F y := hL.ennreal_ofReal.mul hF
  rw [Kernel.id_apply, lintegral_dirac' _ hLF, lintegral_const,
    measure_univ, mul_one]

theorem stepLaw_boot {draw : R → X → X} {L : X → ℝ} {ℓ : X → ℝ≥0∞} (h0 : ∀ y, 0 ≤ L y)
    (hL : Measurable L) (hℓ : ∀ y, ℓ y = ENNReal.ofReal (L y)) {ν : Measure R} {κ : Kernel X X}
    (hdraw : Measurable fun p : R × X => draw p.1 p.2)
    (hκ : ∀ x, κ x = ν.map (fun r => draw r x)) :
    StepLaw draw (fun _ y => L y) ν κ ℓ := by
  obtain rfl : ℓ = fun y => ENNReal.ofReal (L y) := funext hℓ
  refine ⟨hdraw, hL.comp measurable_snd, fun _ b => h0 b, hL.ennreal_ofReal, ?_⟩
  intro a F hF
  have hd : Measurable fun ρ => draw ρ a := hdraw.comp (measurable_id.prodMk measurable_const)
  have hLF : Measurable fun y => ENNReal.ofReal (L y) * F y := hL.ennreal_ofReal.mul hF
  rw [hκ, lintegral_map hLF hd]

theorem stepLaw_full {draw : R → X → X} {L : X → ℝ} {Tr Q : X → X → ℝ} (h0 : ∀ y, 0 ≤ L y)
    (hT0 : ∀ x y, 0 ≤ Tr x y) (hQ0 : ∀ x y, 0 ≤ Q x y)
    (hL : Measurable L) (hT : Measurable fun p : X × X => Tr p.1 p.2)
    (hQ : Measurable fun p : X × X => Q p.1 p.2) {ν : Measure R} {κ : Kernel X X}
    {base : Measure X} (hdraw : Measurable fun p : R × X => draw p.1 p.2)
    (hprop : ∀ x, ν.map (fun r => draw r x) = base.withDensity fun y => ENNReal.ofReal (Q x y))
    (hsys : ∀ x, κ x = base.withDensity fun y => ENNReal.ofReal (Tr x y))
    (hsup : ∀ x y, 0 < L y → 0 < Tr x y → 0 < Q x y) :
    StepLaw draw (fun x y => importance (L y) (Tr x y) (Q x y)) ν κ
      fun y => ENNReal.ofReal (L y) := by
  have hG : Measurable fun p : X × X => importance (L p.2) (Tr p.1 p.2) (Q p.1 p.2) := by
    unfold importance
    exact Measurable.ite (hQ (measurableSet_singleton 0)) measurable_const
      ((hL.comp measurable_snd).mul (hT.div hQ))
  have hnn : ∀ a b, 0 ≤ importance (L b) (Tr a b) (Q a b) := by
    intro a b
    unfold importance
    split
    · exact le_rfl
    · exact mul_nonneg (h0 _) (div_nonneg (hT0 _ _) (hQ0 _ _))
  refine ⟨hdraw, hG, hnn, hL.ennreal_ofReal, ?_⟩
  intro a F hF
  have hd : Measurable fun ρ => draw ρ a := hdraw.comp (measurable_id.prodMk measurable_const)
  have hGa : Measurable fun y => importance (L y) (Tr a y) (Q a y) := hG.comp measurable_prodMk_left
  have hTa : Measurable fun y => Tr a y := hT.comp measurable_prodMk_left
  have hQa : Measurable fun y => Q a y := hQ.comp measurable_prodMk_left
  have hLF : Measurable fun y => ENNReal.ofReal (L y) * F y := hL.ennreal_ofReal.mul hF
  have hGF : Measurable fun y => ENNReal.ofReal (importance (L y) (Tr a y) (Q a y)) * F y :=
    hGa.ennreal_ofReal.mul hF
  have e1 : ∫⁻ ρ, ENNReal.ofReal (importance (L (draw ρ a)) (Tr a (draw ρ a)) (Q a (draw ρ a))) *
        F (draw ρ a) ∂ν =
      ∫⁻ y, ENNReal.ofReal (importance (L y) (Tr a y) (Q a y)) * F y
        ∂(ν.map fun ρ => draw ρ a) := by
    rw [lintegral_map hGF hd]
  rw [e1, hprop, hsys,
    lintegral_withDensity_eq_lintegral_mul _ hQa.ennreal_ofReal hGF,
    lintegral_withDensity_eq_lintegral_mul _ hTa.ennreal_ofReal hLF]
  apply lintegral_congr
  intro y
  simp only [Pi.mul_apply]
  rw [← mul_assoc, ← mul_assoc, ← ENNReal.ofReal_mul (hQ0 _ _), ← ENNReal.ofReal_mul (hT0 _ _)]
  congr 2
  unfold importance
  split
  · rename_i hq
    rw [mul_zero]
    by_contra hne
    have hne' := Ne.symm hne
    rw [mul_ne_zero_iff] at hne'
    exact absurd hq (hsup a y (lt_of_le_of_ne (h0 y) hne'.2.symm)
      (lt_of_le_of_ne (hT0 a y) hne'.1.symm)).ne'
  · rename_i hq
    field_simp

/-- Particle filter with any proposal: the more particles, the closer the estimates are to the exact
Bayes filter. The particles are drawn independently from the prior, the filter makes any sequence of
updates, and it does not resample (at most `period` updates, or threshold at most 1). Almost surely,
from some number of particles on all updates succeed, and the posterior average of `φ` tends to its
exact conditional expectation. -/
theorem C75_particleFilter (hroot : IsRoot root) (h : IndependentDraws P x r μ ν)
    {q : Proposal R X ℝ} {c : Nat → UpdateCall R X MV ℝ} {κ : Nat → Kernel X X}
    {ℓ : Nat → X → ℝ≥0∞} {T : Nat} (hc : ∀ t < T, UpdatesBy q (c t) (ν t) (κ t) (ℓ t))
    (hp : Possible κ ℓ μ T) {us vs : Nat → Nat → ℝ} (hus : ∀ t, Uniforms (us t))
    (hvs : ∀ t, Uniforms (vs t)) (ht : threshold ≤ 1) (hper : period = 0 ∨ T ≤ period)
    {prior : Nat → Ω → MCPdf ℝ X} {f : Nat → Ω → ParticleFilter R X ℝ}
    (hprior : ∀ N ω, 0 < N → Holds (prior N ω) ((List.range N).map fun i => (x i ω, 1 / (N : ℝ))))
    (hf : ∀ N ω, 0 < N → ParticleFilter.make dflt (prior N ω) (some q) period threshold
      .multinomial = .ok (f N ω))
    {φ : X → ℝ} (hφ : Measurable φ) (hint : Integrable φ (exactFilter κ ℓ μ T)) :
    ∀ᵐ ω ∂P, ∃ est : Nat → List (X × ℝ),
      (∀ᶠ N : Nat in atTop, ∃ f', ParticleFilter.run (ParticleFilter.update dflt root)
          ((List.range T).map fun t => (⟨fun i => r t i ω, us t, vs t⟩, c t)) (f N ω) =
            .ok (true, f') ∧ Holds f'.postGet (est N)) ∧
      Tendsto (fun N => averageOver φ (est N)) atTop (𝓝 (∫ y, φ y ∂(exactFilter κ ℓ μ T))) := by
  refine converges_of_steps h (good := fun f => f.proposal = some q) (fun t htT => ?_) hp hus hvs
    hper hprior hf (fun _ hg => hg) hφ hint
  have hct := hc t htT
  generalize c t = ct at hct
  generalize hν : ν t = νt at hct
  generalize κ t = κt at hct
  generalize ℓ t = ℓt at hct
  cases hct with
  | full hm hq hl hs hd md mT mQ mL hpr hsy hsu =>
    exact ⟨_, _, stepLaw_full (fun _ => hl.nonneg _ _ _)
      (fun _ _ => by obtain ⟨p, _, hp⟩ := hm; exact (hp _ _ _).1)
      (fun _ _ => (hq.density _ _ _).1) mL mT mQ md hpr hsy hsu,
      pf_full hroot ht hm hq hl hs hd _ _⟩
  | measurement u s z hl mL =>
    exact ⟨_, _, stepLaw_measurement (fun _ => hl.nonneg _ _ _) mL _,
      pf_measurement hroot ht hl u s z q⟩
  | system s z hm hq hd md hpr hsy =>
    exact ⟨_, _, stepLaw_boot (L := fun _ => 1) (fun _ => zero_le_one) measurable_const
      (fun _ => by simp) md (fun x => (hsy x).trans (hpr x).symm),
      pf_system hroot hm hq hd s z⟩

/-- Bootstrap filter: the same, with or without sensor parameters, for every sequence of updates. -/
theorem C75_bootstrap (hroot : IsRoot root) (h : IndependentDraws P x r μ ν)
    {c : Nat → UpdateCall R X MV ℝ} {κ : Nat → Kernel X X} {ℓ : Nat → X → ℝ≥0∞} {T : Nat}
    (hc : ∀ t < T, BootUpdatesBy (c t) (ν t) (κ t) (ℓ t))
    (hp : Possible κ ℓ μ T) {us vs : Nat → Nat → ℝ} (hus : ∀ t, Uniforms (us t))
    (hvs : ∀ t, Uniforms (vs t)) (ht : threshold ≤ 1) (hper : period = 0 ∨ T ≤ period)
    {prior : Nat → Ω → MCPdf ℝ X} {f : Nat → Ω → ParticleFilter R X ℝ}
    (hprior : ∀ N ω, 0 < N → Holds (prior N ω) ((List.range N).map fun i => (x i ω, 1 / (N : ℝ))))
    (hf : ∀ N ω, 0 < N → ParticleFilter.make dflt (prior N ω) none period threshold
      .multinomial = .ok (f N ω))
    {φ : X → ℝ} (hφ : Measurable φ) (hint : Integrable φ (exactFilter κ ℓ μ T)) :
    ∀ᵐ ω ∂P, ∃ est : Nat → List (X × ℝ),
      (∀ᶠ N : Nat in atTop, ∃ f', ParticleFilter.run (ParticleFilter.bootUpdate dflt root)
          ((List.range T).map fun t => (⟨fun i => r t i ω, us t, vs t⟩, c t)) (f N ω) =
            .ok (true, f') ∧ Holds f'.postGet (est N)) ∧
      Tendsto (fun N => averageOver φ (est N)) atTop (𝓝 (∫ y, φ y ∂(exactFilter κ ℓ μ T))) := by
  refine converges_of_steps h (good := fun _ => True) (fun t htT => ?_) hp hus hvs
    hper hprior hf (fun _ _ => trivial) hφ hint
  have hct := hc t htT
  generalize c t = ct at hct
  generalize ν t = νt at hct
  generalize κ t = κt at hct
  generalize ℓ t = ℓt at hct
  cases hct with
  | full hm hl hto hd md mL hsy =>
    exact ⟨_, _, stepLaw_boot (fun _ => hl.nonneg _ _ _) mL (fun _ => rfl) md hsy,
      boot_full hroot ht hm hto hd hl _ _⟩
  | measurement u s z hl mL =>
    exact ⟨_, _, stepLaw_measurement (fun _ => hl.nonneg _ _ _) mL _,
      boot_measurement hroot ht hl u s z⟩
  | system s z hm hto hd md hsy =>
    exact ⟨_, _, stepLaw_boot (L := fun _ => 1) (fun _ => zero_le_one) measurable_const
      (fun _ => by simp) md hsy, boot_system hroot hm hto hd s z⟩

end BFL.Props
