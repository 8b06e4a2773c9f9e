import Verif.Lemmas.WrongStart
import Verif.Props.Lasting

/-!
# C124: a wrong prior and wrong early readings do no lasting harm to the particle filters
-/

set_option linter.unusedSectionVars false

namespace BFL.Props

open MeasureTheory ProbabilityTheory Filter Spec MCPdf ParticleFilter
open scoped ENNReal Topology

variable {R X MV Ω : Type} [MeasurableSpace X] [MeasurableSpace R] [MeasurableSpace Ω]
  {dflt : X} {period : Nat} {threshold : ℝ} {P : Measure Ω} [IsProbabilityMeasure P]
  {x : Nat → Ω → X} {ρ : Nat → Nat → Ω → ℝ × R × ℝ} {μ : Measure X} {ν : Nat → Measure R}

theorem BootUpdatesBy.measurable {c : UpdateCall R X MV ℝ} {νt : Measure R} {κ : Kernel X X} {ℓ : X → ℝ≥0∞}
    (h : BootUpdatesBy c νt κ ℓ) : Measurable ℓ := by
  cases h with
  | full _ _ _ _ _ mL _ => exact mL.ennreal_ofReal
  | measurement _ _ _ _ mL => exact mL.ennreal_ofReal
  | system => exact measurable_const

theorem UpdatesBy.measurable {q : Proposal R X ℝ} {c : UpdateCall R X MV ℝ} {νt : Measure R} {κ : Kernel X X}
    {ℓ : X → ℝ≥0∞} (h : UpdatesBy q c νt κ ℓ) : Measurable ℓ := by
  cases h with
  | full _ _ _ _ _ _ _ _ mL _ _ _ => exact mL.ennreal_ofReal
  | measurement _ _ _ _ mL => exact mL.ennreal_ofReal
  | system => exact measurable_const

/-- **C124, bootstrap filter.** Let `π` be the true distribution of the state after `S` updates, and let the filter have
been started with another prior `μ` and have processed other readings until then. After `T` more updates the error is
at most `2 (1 - σ)ᵀ + ε`, with the probability of C123. -/
theorem C124_bootstrap [∀ t, IsProbabilityMeasure (ν t)]
    (h : IndependentDraws P x ρ μ fun t => Spec.uniform.prod ((ν t).prod Spec.uniform))
    {c : Nat → UpdateCall R X MV ℝ} {κ : Nat → Kernel X X} [∀ t, IsMarkovKernel (κ t)] {ℓ : Nat → X → ℝ≥0∞}
    (hc : ∀ t, BootUpdatesBy (c t) (ν t) (κ t) (ℓ t)) {b : Nat → ℝ} {r σ : ℝ} (hr : 1 ≤ r) (hσ : 0 < σ) (hσ1 : σ < 1)
    (hκ : ∀ t, MovesAlike (κ t) σ)
    (hℓ : ∀ t, 0 < b t ∧ ∀ y, ENNReal.ofReal (b t) ≤ ℓ t y ∧ ℓ t y ≤ ENNReal.ofReal (r * b t))
    {N : Nat} (hN : 0 < N) {s : ℝ} (hs : 1 ≤ s) {S T : Nat}
    (heven : KeepsEven period threshold (fun t => (c t).sys.isSome = true)
      (fun t => (c t).meas.isSome = true) (S + T) N s)
    {prior : Ω → MCPdf ℝ X} {f : Ω → ParticleFilter R X ℝ}
    (hprior : ∀ ω, Holds (prior ω) ((List.range N).map fun i => (x i ω, 1 / (N : ℝ))))
    (hf : ∀ ω, ParticleFilter.make dflt (prior ω) none period threshold .multinomial = .ok (f ω))
    {π : Measure X} [IsProbabilityMeasure π]
    {φ : X → ℝ} (hφ : Measurable φ) (hb : ∀ y, |φ y| ≤ 1) {ε : ℝ} (hε : 0 < ε) :
    P {ω | ¬ ∃ f' est, ParticleFilter.run (ParticleFilter.bootUpdate dflt kthRoot)
          ((List.range (S + T)).map fun t => (inputs fun i => ρ t i ω, c t)) (f ω) = .ok (true, f') ∧
        Holds f'.postGet est ∧
        |averageOver φ est - ∫ y, φ y ∂(exactFilter (fun t => κ (S + t)) (fun t => ℓ (S + t)) π T)| <
          2 * (1 - σ) ^ T + ε} ≤
      ENNReal.ofReal (lastingConstant r s σ ^ 2 / (ε ^ 2 * N)) := by
  have hμ : IsProbabilityMeasure μ := by
    rw [← h.law_x 0]
    exact Measure.isProbabilityMeasure_map (h.measurable_x 0).aemeasurable
  have hX : Nonempty X := ⟨dflt⟩
  have hd := exact_forgets (fun t => (hc t).measurable) hℓ hσ hσ1 hκ hφ hb S T (μ := μ) (π := π)
  refine (measure_mono ?_).trans (C123_lasting h hc hr hσ hσ1 hκ hℓ hN hs heven hprior hf hφ hb hε)
  intro ω hω hgood
  refine hω ?_
  obtain ⟨f', est, r1, r2, r3⟩ := hgood
  refine ⟨f', est, r1, r2, ?_⟩
  have := abs_sub_le (averageOver φ est) (∫ y, φ y ∂(exactFilter κ ℓ μ (S + T)))
    (∫ y, φ y ∂(exactFilter (fun t => κ (S + t)) (fun t => ℓ (S + t)) π T))
  linarith

/-- **C124, particle filter with any proposal.** The same, with the conditions and the constant of
`C123_particleFilter`. -/
theorem C124_particleFilter [∀ t, IsProbabilityMeasure (ν t)]
    (h : IndependentDraws P x ρ μ fun t => Spec.uniform.prod ((ν t).prod Spec.uniform))
    {q : Proposal R X ℝ} {c : Nat → UpdateCall R X MV ℝ} {κ : Nat → Kernel X X} [∀ t, IsMarkovKernel (κ t)]
    {ℓ : Nat → X → ℝ≥0∞} (hc : ∀ t, UpdatesBy q (c t) (ν t) (κ t) (ℓ t)) {b B : Nat → ℝ} {r σ : ℝ} (hr : 1 ≤ r)
    (hσ : 0 < σ) (hσ1 : σ < 1) (hκ : ∀ t, MovesAlike (κ t) σ)
    (hℓ : ∀ t, 0 < b t ∧ ∀ y, ENNReal.ofReal (b t) ≤ ℓ t y ∧ ℓ t y ≤ ENNReal.ofReal (B t))
    (hG : ∀ t, PositiveDensities q (c t) ∧ FactorsBelow q (c t) (r * b t))
    {N : Nat} (hN : 0 < N) {s : ℝ} (hs : 1 ≤ s) {S T : Nat}
    (heven : KeepsEven period threshold (fun t => (c t).sys.isSome = true)
      (fun t => (c t).meas.isSome = true) (S + T) N s)
    {prior : Ω → MCPdf ℝ X} {f : Ω → ParticleFilter R X ℝ}
    (hprior : ∀ ω, Holds (prior ω) ((List.range N).map fun i => (x i ω, 1 / (N : ℝ))))
    (hf : ∀ ω, ParticleFilter.make dflt (prior ω) (some q) period threshold .multinomial = .ok (f ω))
    {π : Measure X} [IsProbabilityMeasure π]
    {φ : X → ℝ} (hφ : Measurable φ) (hb : ∀ y, |φ y| ≤ 1) {ε : ℝ} (hε : 0 < ε) :
    P {ω | ¬ ∃ f' est, ParticleFilter.run (ParticleFilter.update dflt kthRoot)
          ((List.range (S + T)).map fun t => (inputs fun i => ρ t i ω, c t)) (f ω) = .ok (true, f') ∧
        Holds f'.postGet est ∧
        |averageOver φ est - ∫ y, φ y ∂(exactFilter (fun t => κ (S + t)) (fun t => ℓ (S + t)) π T)| <
          2 * (1 - σ) ^ T + ε} ≤
      ENNReal.ofReal (lastingConstant r s σ ^ 2 / (ε ^ 2 * N)) := by
  have hμ : IsProbabilityMeasure μ := by
    rw [← h.law_x 0]
    exact Measure.isProbabilityMeasure_map (h.measurable_x 0).aemeasurable
  have hX : Nonempty X := ⟨dflt⟩
  have hd := exact_forgets (fun t => (hc t).measurable) hℓ hσ hσ1 hκ hφ hb S T (μ := μ) (π := π)
  refine (measure_mono ?_).trans (C123_particleFilter h hc hr hσ hσ1 hκ hℓ hG hN hs heven hprior hf hφ hb hε)
  intro ω hω hgood
  refine hω ?_
  obtain ⟨f', est, r1, r2, r3⟩ := hgood
  refine ⟨f', est, r1, r2, ?_⟩
  have := abs_sub_le (averageOver φ est) (∫ y, φ y ∂(exactFilter κ ℓ μ (S + T)))
    (∫ y, φ y ∂(exactFilter (fun t => κ (S + t)) (fun t => ℓ (S + t)) π T))
  linarith

/-! ### Example: the state that stays with probability 3/4 -/

/-- The state and the sensor of C123. The filter believes at first that the state is true with probability 3/4, and the
first `S` readings may be wrong; in fact the state is false after `S` updates. With 10⁹ particles and resampling at
every update the error is at most 1/10 + 2 (2/3)ᵀ after `T` more updates, except with a probability of 0.6 per cent. -/
example (readings : Nat → Bool) (S T : Nat) : ∃ f : (Nat ⊕ Nat × Nat → ℝ × Bool × ℝ) → ParticleFilter Bool Bool ℝ,
    Steady.triples {ω | ¬ ∃ f' est, ParticleFilter.run (ParticleFilter.bootUpdate false kthRoot)
        ((List.range (S + T)).map fun t => (inputs fun i => ω (.inr (t, i)),
          ⟨some Steady.sys, true, some Toss.meas, readings t, true⟩)) (f ω) = .ok (true, f') ∧
      Holds f'.postGet est ∧ |averageOver Toss.heads est - ∫ y, Toss.heads y ∂(exactFilter (fun _ => Steady.κ)
        (fun t y => ENNReal.ofReal (Toss.lik (readings (S + t)) y)) (Measure.dirac false) T)| <
          2 * (2 / 3) ^ T + 1 / 10} ≤ ENNReal.ofReal (6 / 1000) := by
  obtain ⟨prior, f, h1, h2⟩ := Toss.filters_triples none (period := 1) (threshold := fun _ => 0) (by norm_num)
  refine ⟨f (10 ^ 9), ?_⟩
  have h := C124_bootstrap (MV := Bool) (dflt := false) Steady.draws_triples
    (c := fun t => ⟨some Steady.sys, true, some Toss.meas, readings t, true⟩) (κ := fun _ => Steady.κ)
    (ℓ := fun t y => ENNReal.ofReal (Toss.lik (readings t) y))
    (fun t => BootUpdatesBy.full (draw := Steady.go) Steady.sys_isTransition Toss.meas_isLikelihood
      (fun r x u _ => ⟨Steady.go r x, rfl⟩) (fun _ _ _ => rfl) Measurable.of_discrete Measurable.of_discrete Steady.κ_eq)
    (b := fun _ => 1 / 4) (r := 3) (σ := 1 / 3) (by norm_num) (by norm_num) (by norm_num) (fun _ => Steady.movesAlike)
    (fun t => ⟨by norm_num, fun y => ⟨ENNReal.ofReal_le_ofReal (by unfold Toss.lik; split <;> norm_num),
      ENNReal.ofReal_le_ofReal (by unfold Toss.lik; split <;> norm_num)⟩⟩)
    (N := 10 ^ 9) (by norm_num) (s := 1) le_rfl (S := S) (T := T)
    (Or.inl ⟨rfl, fun _ _ => rfl⟩) (fun ω => h1 _ ω (by norm_num)) (fun ω => h2 _ ω (by norm_num))
    (π := Measure.dirac false) (φ := Toss.heads) Measurable.of_discrete Toss.heads_le (ε := 1 / 10) (by norm_num)
  have e : (1 : ℝ) - 1 / 3 = 2 / 3 := by norm_num
  rw [e] at h
  refine h.trans (ENNReal.ofReal_le_ofReal ?_)
  simp only [lastingConstant, Real.sqrt_one]
  norm_num

/-- The same with particles drawn by tossing a fair coin. -/
example (readings : Nat → Bool) (S T : Nat) : ∃ f : (Nat ⊕ Nat × Nat → ℝ × Bool × ℝ) → ParticleFilter Bool Bool ℝ,
    Toss.triples {ω | ¬ ∃ f' est, ParticleFilter.run (ParticleFilter.update false kthRoot)
        ((List.range (S + T)).map fun t => (inputs fun i => ω (.inr (t, i)),
          ⟨some Steady.sys, true, some Toss.meas, readings t, true⟩)) (f ω) = .ok (true, f') ∧
      Holds f'.postGet est ∧ |averageOver Toss.heads est - ∫ y, Toss.heads y ∂(exactFilter (fun _ => Steady.κ)
        (fun t y => ENNReal.ofReal (Toss.lik (readings (S + t)) y)) (Measure.dirac false) T)| <
          2 * (2 / 3) ^ T + 1 / 10} ≤ ENNReal.ofReal (13 / 1000) := by
  obtain ⟨prior, f, h1, h2⟩ := Toss.filters_triples (some Toss.prop) (period := 1) (threshold := fun _ => 0) (by norm_num)
  refine ⟨f (10 ^ 9), ?_⟩
  have h := C124_particleFilter (MV := Bool) (dflt := false) Toss.draws_triples (q := Toss.prop)
    (c := fun t => ⟨some Steady.sys, true, some Toss.meas, readings t, true⟩) (κ := fun _ => Steady.κ)
    (ℓ := fun t y => ENNReal.ofReal (Toss.lik (readings t) y))
    (fun t => UpdatesBy.full (draw := fun r _ => r) (base := Measure.count) Steady.sys_isTransition
      Steady.isProposal Toss.meas_isLikelihood (by simp [WithSensor, Toss.meas]) (fun _ _ _ => rfl)
      measurable_fst Measurable.of_discrete Measurable.of_discrete Measurable.of_discrete
      (fun _ => Measure.map_id) (fun _ => rfl) (fun _ _ _ _ => by norm_num))
    (b := fun _ => 1 / 4) (B := fun _ => 3 / 4) (r := 9 / 2) (σ := 1 / 3) (by norm_num) (by norm_num) (by norm_num)
    (fun _ => Steady.movesAlike)
    (fun t => ⟨by norm_num, fun y => ⟨ENNReal.ofReal_le_ofReal (by unfold Toss.lik; split <;> norm_num),
      ENNReal.ofReal_le_ofReal (by unfold Toss.lik; split <;> norm_num)⟩⟩)
    (fun t => Steady.factors (readings t))
    (N := 10 ^ 9) (by norm_num) (s := 1) le_rfl (S := S) (T := T)
    (Or.inl ⟨rfl, fun _ _ => rfl⟩) (fun ω => h1 _ ω (by norm_num)) (fun ω => h2 _ ω (by norm_num))
    (π := Measure.dirac false) (φ := Toss.heads) Measurable.of_discrete Toss.heads_le (ε := 1 / 10) (by norm_num)
  have e : (1 : ℝ) - 1 / 3 = 2 / 3 := by norm_num
  rw [e] at h
  refine h.trans (ENNReal.ofReal_le_ofReal ?_)
  simp only [lastingConstant, Real.sqrt_one]
  norm_num

/-! ### A state that never moves -/

/-- **C124, without moves the prior counts for ever.** If the state never moves and all particles start at `y`, they
stay there, whatever the readings say, as long as they are not impossible at `y`. -/
theorem C124_static {m : SysModel R X ℝ} {Tr : X → X → X → ℝ} (hm : IsTransition m Tr)
    (hd : ∀ r x u prev, m.draw r (argsFor m x u) prev = .ok x) {mm : Model X MV ℝ} {L : MV → X → X → ℝ}
    (hl : IsLikelihood mm L) (u s : X) (z : Nat → MV) {y : X} (hpos : ∀ t, 0 < L (z t) y s)
    {noise : Nat → Noise R ℝ} (hu : ∀ t, Uniforms (noise t).static ∧ Uniforms (noise t).dynamic)
    {prior : MCPdf ℝ X} {ps : List (X × ℝ)} (hp : Holds prior ps) (hn : Normalised ps) (ha : ∀ a ∈ ps, a.1 = y)
    {f : ParticleFilter R X ℝ} (hf : ParticleFilter.make dflt prior none period threshold .multinomial = .ok f) (T : Nat) :
    ∃ f' est, ParticleFilter.run (ParticleFilter.bootUpdate dflt kthRoot)
        ((List.range T).map fun t => (noise t, (⟨some m, u, some mm, z t, s⟩ : UpdateCall R X MV ℝ))) f = .ok (true, f') ∧
      Holds f'.postGet est ∧ Normalised est ∧ ∀ a ∈ est, a.1 = y := by
  obtain ⟨k1, _, _⟩ := pfMake_ready hp hn hf
  obtain ⟨f', est, n, r1, _, r3, r4⟩ := all_at_run (step := ParticleFilter.bootUpdate dflt kthRoot)
    (good := fun _ => True) (c := fun t => ⟨some m, u, some mm, z t, s⟩) (mv := fun _ _ a => a)
    (G := fun t _ y => L (z t) y s)
    (fun t => runs_boot_full isRoot_kthRoot hm (fun r x u prev => ⟨x, hd r x u prev⟩) (fun r x prev => hd r x u prev) hl s
      (z t)) (fun _ _ => rfl) hpos hu trivial k1 ha T
  exact ⟨f', est, r1, r3.live.samples, r3.live.dist, r4⟩

namespace Steady

open Toss

/-- Probabilities after `T` readings `true`, if the state never moves and both values were equally likely. -/
noncomputable def after (T : Nat) (y : Bool) : ℝ := if y then 3 ^ T / (3 ^ T + 1) else 1 / (3 ^ T + 1)

theorem after_nonneg (T : Nat) (y : Bool) : 0 ≤ after T y := by unfold after; split <;> positivity

theorem exact_after : ∀ T, exactFilter (fun _ => Kernel.id) (fun _ y => ENNReal.ofReal (lik true y)) coin T =
    Toss.dist (after T)
  | 0 => by
    rw [exactFilter]
    unfold coin
    congr 1
    funext y
    cases y <;> norm_num [after]
  | T + 1 => by
    rw [exactFilter, exact_after T]
    unfold bayesStep evidenceOf
    have e : (Toss.dist (after T)).bind (Kernel.id : Kernel Bool Bool) = Toss.dist (after T) := Measure.id_comp
    have hp : (0 : ℝ) < 3 ^ T + 1 := by positivity
    have hs : (0 : ℝ) < after T true * lik true true + after T false * lik true false := by
      have e : after T true * lik true true + after T false * lik true false = (3 * 3 ^ T + 1) / (4 * (3 ^ T + 1)) := by
        simp only [after, lik]
        norm_num
        field_simp
      rw [e]
      positivity
    rw [e, lintegral_dist, ← ENNReal.ofReal_mul (after_nonneg _ _), ← ENNReal.ofReal_mul (after_nonneg _ _),
      ← ENNReal.ofReal_add (mul_nonneg (after_nonneg _ _) (lik_nonneg _ _)) (mul_nonneg (after_nonneg _ _) (lik_nonneg _ _))]
    unfold Toss.dist
    rw [← withDensity_mul _ Measurable.of_discrete Measurable.of_discrete, ← withDensity_smul _ Measurable.of_discrete]
    congr 1
    funext y
    rw [Pi.smul_apply, Pi.mul_apply, smul_eq_mul, ← ENNReal.ofReal_inv_of_pos hs, ← ENNReal.ofReal_mul (after_nonneg _ _),
      ← ENNReal.ofReal_mul (by positivity)]
    congr 1
    have h3 : (3 : ℝ) * 3 ^ T + 1 ≠ 0 := by positivity
    cases y <;> simp only [after, lik, pow_succ] <;> norm_num <;> field_simp

end Steady

/-- **C124, the condition on the moves is needed.** The state never moves; both values were equally likely, and all
readings were `true`, so that the exact probability of `true` after `T` readings is `3ᵀ / (3ᵀ + 1)`. A filter whose
particles were all `false` at first reports the probability 0 for ever, however many particles it has. -/
theorem C124_moves_needed {N : Nat} (hN : 0 < N) {noise : Nat → Noise Bool ℝ}
    (hu : ∀ t, Uniforms (noise t).static ∧ Uniforms (noise t).dynamic) {prior : MCPdf ℝ Bool}
    (hp : Holds prior (List.replicate N (false, 1 / (N : ℝ)))) {f : ParticleFilter Bool Bool ℝ}
    (hf : ParticleFilter.make false prior none period threshold .multinomial = .ok f) (T : Nat) :
    ∃ f' est, ParticleFilter.run (ParticleFilter.bootUpdate false kthRoot) ((List.range T).map fun t =>
        (noise t, (⟨some Steady.stay, true, some Toss.meas, true, true⟩ : UpdateCall Bool Bool Bool ℝ))) f = .ok (true, f') ∧
      Holds f'.postGet est ∧ averageOver Toss.heads est = 0 ∧
      ∫ y, Toss.heads y ∂(exactFilter (fun _ => Kernel.id) (fun _ y => ENNReal.ofReal (Toss.lik true y)) Toss.coin T) =
        3 ^ T / (3 ^ T + 1) := by
  have hN' : (0 : ℝ) < N := by exact_mod_cast hN
  obtain ⟨f', est, h1, h2, _, h4⟩ := C124_static (MV := Bool) (dflt := false) Steady.stay_isTransition
    (fun _ _ _ _ => rfl) Toss.meas_isLikelihood true true (fun _ => true) (y := false) (fun _ => by norm_num [Toss.lik]) hu hp
    (by
      refine ⟨?_, ?_⟩
      · intro w hw
        simp only [List.map_replicate, List.mem_replicate] at hw
        rw [hw.2]
        positivity
      · rw [List.map_replicate, List.sum_replicate, nsmul_eq_mul, mul_one_div_cancel hN'.ne'])
    (fun a ha => by rw [(List.mem_replicate.1 ha).2]) hf T
  refine ⟨f', est, h1, h2, ?_, ?_⟩
  · unfold averageOver
    refine List.sum_eq_zero fun v hv => ?_
    obtain ⟨a, ha, rfl⟩ := List.mem_map.1 hv
    rw [h4 a ha]
    norm_num [Toss.heads]
  · rw [Steady.exact_after, (Toss.integral_dist (Steady.after_nonneg T) _).2]
    norm_num [Steady.after, Toss.heads]

/-- A hundred particles that are all false, resampling at every update, ten readings `true`: the filter reports 0, the
exact probability of `true` is 59049/59050. -/
example : ∃ f f' : ParticleFilter Bool Bool ℝ, ∃ est, ParticleFilter.run (ParticleFilter.bootUpdate false kthRoot)
      ((List.range 10).map fun _ => (⟨fun _ => true, fun _ => 1, fun _ => 1⟩,
        (⟨some Steady.stay, true, some Toss.meas, true, true⟩ : UpdateCall Bool Bool Bool ℝ))) f = .ok (true, f') ∧
    Holds f'.postGet est ∧ averageOver Toss.heads est = 0 ∧
    ∫ y, Toss.heads y ∂(exactFilter (fun _ => Kernel.id) (fun _ y => ENNReal.ofReal (Toss.lik true y)) Toss.coin 10) =
      59049 / 59050 := by
  obtain ⟨prior, f, h1, h2⟩ := Toss.filters_triples none (period := 1) (threshold := fun _ => 0) (by norm_num)
  have hp := h1 100 (fun _ => (1, false, 1)) (by norm_num)
  have e : ((List.range 100).map fun _ => (false, 1 / ((100 : Nat) : ℝ))) = List.replicate 100 (false, 1 / ((100 : Nat) : ℝ)) := by
    rw [List.map_const', List.length_range]
  rw [e] at hp
  obtain ⟨f', est, k1, k2, k3, k4⟩ := C124_moves_needed (N := 100) (by norm_num)
    (noise := fun _ => ⟨fun _ => true, fun _ => 1, fun _ => 1⟩) (fun _ => ⟨fun _ => by norm_num, fun _ => by norm_num⟩) hp
    (h2 100 (fun _ => (1, false, 1)) (by norm_num)) 10
  exact ⟨_, f', est, k1, k2, k3, by rw [k4]; norm_num⟩

end BFL.Props
