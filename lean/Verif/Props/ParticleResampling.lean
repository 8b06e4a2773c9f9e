import Verif.Lemmas.ParticleResampleCloud
import Verif.Spec.Resampling

/-!
# C76: the particle filters converge to the exact Bayes filter also if they resample
-/

set_option linter.unusedSectionVars false

namespace BFL.Props

open MeasureTheory ProbabilityTheory Filter Spec MCPdf ParticleFilter
open scoped ENNReal Topology

variable {R X MV Ω : Type} [MeasurableSpace X] [MeasurableSpace R] [MeasurableSpace Ω]
  {dflt : X} {period : Nat} {threshold : Nat → ℝ} {P : Measure Ω} [IsProbabilityMeasure P]
  {x : Nat → Ω → X} {ρ : Nat → Nat → Ω → ℝ × R × ℝ} {μ : Measure X} {ν : Nat → Measure R}

/-- The random inputs of one update: for every particle a uniform number for resampling before the
move, the input of the move, and a uniform number for resampling after the measurement. -/
def inputs (v : Nat → ℝ × R × ℝ) : Noise R ℝ where
  prop := fun i => (v i).2.1
  static := fun i => (v i).1
  dynamic := fun i => (v i).2.2

theorem uniform_eq : Spec.uniform = (volume : Measure ℝ).restrict (Set.Ioc 0 1) :=
  Measure.restrict_congr_set Ico_ae_eq_Ioc

theorem runsBy_updates {q : Proposal R X ℝ} {c : UpdateCall R X MV ℝ} {ν : Measure R} {κ : Kernel X X}
    {ℓ : X → ℝ≥0∞} (hc : UpdatesBy q c ν κ ℓ) :
    ∃ mv G, StepLaw mv G ν κ ℓ ∧ ∀ N, StepRuns kthRoot (ParticleFilter.update dflt kthRoot) period
      (threshold N) (fun f => f.proposal = some q) c mv G := by
  cases hc with
  | full hm hq hl hs hd md mT mQ mL hpr hsy hsu =>
    exact ⟨_, _, stepLaw_full (fun _ => hl.nonneg _ _ _)
      (fun _ _ => by obtain ⟨p, _, hp⟩ := hm; exact (hp _ _ _).1)
      (fun _ _ => (hq.density _ _ _).1) mL mT mQ md hpr hsy hsu,
      fun _ => runs_full isRoot_kthRoot hm hq hl hs hd _ _⟩
  | measurement u s z hl mL =>
    exact ⟨_, _, stepLaw_measurement (fun _ => hl.nonneg _ _ _) mL _,
      fun _ => runs_measurement isRoot_kthRoot hl u s z q⟩
  | system s z hm hq hd md hpr hsy =>
    exact ⟨_, _, stepLaw_boot (L := fun _ => 1) (fun _ => zero_le_one) measurable_const
      (fun _ => by simp) md (fun x => (hsy x).trans (hpr x).symm),
      fun _ => runs_system isRoot_kthRoot hm hq hd s z⟩

theorem runsBy_bootUpdates {c : UpdateCall R X MV ℝ} {ν : Measure R} {κ : Kernel X X} {ℓ : X → ℝ≥0∞}
    (hc : BootUpdatesBy c ν κ ℓ) :
    ∃ mv G, StepLaw mv G ν κ ℓ ∧ ∀ N, StepRuns kthRoot (ParticleFilter.bootUpdate dflt kthRoot) period
      (threshold N) (fun _ => True) c mv G := by
  cases hc with
  | full hm hl hto hd md mL hsy =>
    exact ⟨_, _, stepLaw_boot (fun _ => hl.nonneg _ _ _) mL (fun _ => rfl) md hsy,
      fun _ => runs_boot_full isRoot_kthRoot hm hto hd hl _ _⟩
  | measurement u s z hl mL =>
    exact ⟨_, _, stepLaw_measurement (fun _ => hl.nonneg _ _ _) mL _,
      fun _ => runs_boot_measurement isRoot_kthRoot hl u s z⟩
  | system s z hm hto hd md hsy =>
    exact ⟨_, _, stepLaw_boot (L := fun _ => 1) (fun _ => zero_le_one) measurable_const
      (fun _ => by simp) md hsy, fun _ => runs_boot_system isRoot_kthRoot hm hto hd s z⟩

/-- Particle filter with any proposal, resampling every `period` updates or when the effective
sample size of `N` particles is below `threshold N`: the probability that the updates all succeed
and leave a posterior average of `φ` closer than `ε` to its exact conditional expectation tends to 1
with the number of particles. -/
theorem C76_particleFilter [∀ t, IsProbabilityMeasure (ν t)]
    (h : IndependentDraws P x ρ μ fun t => Spec.uniform.prod ((ν t).prod Spec.uniform))
    {q : Proposal R X ℝ} {c : Nat → UpdateCall R X MV ℝ} {κ : Nat → Kernel X X}
    {ℓ : Nat → X → ℝ≥0∞} {T : Nat} (hc : ∀ t < T, UpdatesBy q (c t) (ν t) (κ t) (ℓ t))
    (hp : Possible κ ℓ μ T)
    {prior : Nat → Ω → MCPdf ℝ X} {f : Nat → Ω → ParticleFilter R X ℝ}
    (hprior : ∀ N ω, 0 < N → Holds (prior N ω) ((List.range N).map fun i => (x i ω, 1 / (N : ℝ))))
    (hf : ∀ N ω, 0 < N → ParticleFilter.make dflt (prior N ω) (some q) period (threshold N)
      .multinomial = .ok (f N ω))
    {φ : X → ℝ} (hφ : Measurable φ) (hint : Integrable φ (exactFilter κ ℓ μ T)) {ε : ℝ}
    (hε : 0 < ε) :
    Likely P fun N ω => ∃ f' est, ParticleFilter.run (ParticleFilter.update dflt kthRoot)
        ((List.range T).map fun t => (inputs fun i => ρ t i ω, c t)) (f N ω) = .ok (true, f') ∧
      Holds f'.postGet est ∧
      |averageOver φ est - ∫ y, φ y ∂(exactFilter κ ℓ μ T)| < ε := by
  simp only [uniform_eq] at h
  exact converges_resampling h (good := fun f => f.proposal = some q) (fun t htT => runsBy_updates (hc t htT))
    hp hprior hf (fun _ hg => hg) hφ hint hε

/-- Bootstrap filter: the same, with or without sensor parameters. -/
theorem C76_bootstrap [∀ t, IsProbabilityMeasure (ν t)]
    (h : IndependentDraws P x ρ μ fun t => Spec.uniform.prod ((ν t).prod Spec.uniform))
    {c : Nat → UpdateCall R X MV ℝ} {κ : Nat → Kernel X X} {ℓ : Nat → X → ℝ≥0∞} {T : Nat}
    (hc : ∀ t < T, BootUpdatesBy (c t) (ν t) (κ t) (ℓ t)) (hp : Possible κ ℓ μ T)
    {prior : Nat → Ω → MCPdf ℝ X} {f : Nat → Ω → ParticleFilter R X ℝ}
    (hprior : ∀ N ω, 0 < N → Holds (prior N ω) ((List.range N).map fun i => (x i ω, 1 / (N : ℝ))))
    (hf : ∀ N ω, 0 < N → ParticleFilter.make dflt (prior N ω) none period (threshold N)
      .multinomial = .ok (f N ω))
    {φ : X → ℝ} (hφ : Measurable φ) (hint : Integrable φ (exactFilter κ ℓ μ T)) {ε : ℝ}
    (hε : 0 < ε) :
    Likely P fun N ω => ∃ f' est, ParticleFilter.run (ParticleFilter.bootUpdate dflt kthRoot)
        ((List.range T).map fun t => (inputs fun i => ρ t i ω, c t)) (f N ω) = .ok (true, f') ∧
      Holds f'.postGet est ∧
      |averageOver φ est - ∫ y, φ y ∂(exactFilter κ ℓ μ T)| < ε := by
  simp only [uniform_eq] at h
  exact converges_resampling h (good := fun _ => True) (fun t htT => runsBy_bootUpdates (hc t htT))
    hp hprior hf (fun _ _ => trivial) hφ hint hε

end BFL.Props
