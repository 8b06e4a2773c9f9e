import Verif.Lemmas.MixtureCloud
import Verif.Props.ParticleResamplingToss
import Verif.Props.LinearParticleLine

/-!
# C104: mixture filters converge to the exact Bayes filter of the mixture
-/

set_option linter.unusedSectionVars false

namespace BFL.Props

open MeasureTheory ProbabilityTheory Filter Spec MCPdf MixtureParticleFilter
open scoped ENNReal Topology

variable {R X MV Ω : Type} [MeasurableSpace X] [MeasurableSpace R] [MeasurableSpace Ω]
  {dflt : X} {period J : Nat} {threshold : Nat → ℝ} {P : Measure Ω} [IsProbabilityMeasure P]
  {x : Fin J → Nat → Ω → X} {ρ : Nat → Nat → Nat → Ω → ℝ × R × ℝ} {μ : Fin J → Measure X}
  {ν : Nat → Measure R}

theorem mRunsBy_updates {q : Proposal R X ℝ} {c : UpdateCall R X MV ℝ} {ν : Measure R}
    {κ : Kernel X X} {ℓ : X → ℝ≥0∞} (hc : UpdatesBy q c ν κ ℓ) :
    ∃ mv G, StepLaw mv G ν κ ℓ ∧ ∀ N, MStepRuns J kthRoot
      (MixtureParticleFilter.update dflt kthRoot) period (threshold N)
      (fun f => f.proposal = some q) c mv G := by
  cases hc with
  | full hm hq hl hs hd md mT mQ mL hpr hsy hsu =>
    exact ⟨_, _, stepLaw_full (fun _ => hl.nonneg _ _ _)
      (fun _ _ => by obtain ⟨p, _, hp⟩ := hm; exact (hp _ _ _).1)
      (fun _ _ => (hq.density _ _ _).1) mL mT mQ md hpr hsy hsu,
      fun _ => mRuns_full isRoot_kthRoot hm hq hl hs hd _ _⟩
  | measurement u s z hl mL =>
    exact ⟨_, _, stepLaw_measurement (fun _ => hl.nonneg _ _ _) mL _,
      fun _ => mRuns_measurement isRoot_kthRoot hl u s z q⟩
  | system s z hm hq hd md hpr hsy =>
    exact ⟨_, _, stepLaw_boot (L := fun _ => 1) (fun _ => zero_le_one) measurable_const
      (fun _ => by simp) md (fun x => (hsy x).trans (hpr x).symm),
      fun _ => mRuns_system isRoot_kthRoot hm hq hd s z⟩

theorem mRunsBy_bootUpdates {c : UpdateCall R X MV ℝ} {ν : Measure R} {κ : Kernel X X}
    {ℓ : X → ℝ≥0∞} (hc : BootUpdatesBy c ν κ ℓ) :
    ∃ mv G, StepLaw mv G ν κ ℓ ∧ ∀ N, MStepRuns J kthRoot
      (MixtureParticleFilter.bootUpdate dflt kthRoot) period (threshold N) (fun _ => True) c mv G := by
  cases hc with
  | full hm hl hto hd md mL hsy =>
    exact ⟨_, _, stepLaw_boot (fun _ => hl.nonneg _ _ _) mL (fun _ => rfl) md hsy,
      fun _ => mRuns_boot_full isRoot_kthRoot hm hto hd hl _ _⟩
  | measurement u s z hl mL =>
    exact ⟨_, _, stepLaw_measurement (fun _ => hl.nonneg _ _ _) mL _,
      fun _ => mRuns_boot_measurement isRoot_kthRoot hl u s z⟩
  | system s z hm hto hd md hsy =>
    exact ⟨_, _, stepLaw_boot (L := fun _ => 1) (fun _ => zero_le_one) measurable_const
      (fun _ => by simp) md hsy, fun _ => mRuns_boot_system isRoot_kthRoot hm hto hd s z⟩

/-- A mixture a program can hand to a mixture filter: built by public operations from `J` assigned
particle sets, component `k` with weight `w k` and the particles `ps k`. -/
structure MixtureOf (dflt : X) (m : Mixture ℝ (MCPdf ℝ X)) (w : Fin J → ℝ)
    (ps : Fin J → List (X × ℝ)) : Prop where
  built : ∃ dims, Built dims m
  assigned : ∀ p ∈ m.comps, Assigned dflt p
  particles : List.Forall₂ Holds m.comps (List.ofFn ps)
  weights : m.weights = List.ofFn w

theorem MixtureOf.components {m : Mixture ℝ (MCPdf ℝ X)} {w : Fin J → ℝ}
    {ps : Fin J → List (X × ℝ)} (h : MixtureOf dflt m w ps) :
    ∃ cs : Fin J → MCPdf ℝ X, m.comps = List.ofFn cs ∧ ∀ k, Holds (cs k) (ps k) := by
  obtain ⟨hl, hg⟩ := List.forall₂_iff_get.1 h.particles
  have hl' : m.comps.length = J := by rw [hl]; simp
  refine ⟨fun k => m.comps[k.1]'(by rw [hl']; exact k.2), ?_, fun k => ?_⟩
  · apply List.ext_getElem
    · simp [hl']
    · intro i h1 h2
      simp
  · have := hg k.1 (by rw [hl']; exact k.2) (by simp)
    simpa using this

theorem mConverges' [∀ t, IsProbabilityMeasure (ν t)]
    (h : ∀ k : Fin J, IndependentDraws P (x k) (ρ k) (μ k) fun t =>
      Spec.uniform.prod ((ν t).prod Spec.uniform))
    {step : (Nat → Noise R ℝ) → UpdateCall R X MV ℝ → MixtureParticleFilter R X ℝ →
      Outcome (Bool × MixtureParticleFilter R X ℝ)} {good : MixtureParticleFilter R X ℝ → Prop}
    {c : Nat → UpdateCall R X MV ℝ} {κ : Nat → Kernel X X} {ℓ : Nat → X → ℝ≥0∞} {T : Nat}
    (hc : ∀ t < T, ∃ mv G, StepLaw mv G (ν t) (κ t) (ℓ t) ∧
      ∀ N, MStepRuns J kthRoot step period (threshold N) good (c t) mv G)
    (hp : ∀ k, Possible κ ℓ (μ k) T) {w : Fin J → ℝ} (hw1 : ∑ k, w k = 1)
    {prior : Nat → Ω → Mixture ℝ (MCPdf ℝ X)} {f : Nat → Ω → MixtureParticleFilter R X ℝ}
    {q : Option (Proposal R X ℝ)}
    (hprior : ∀ N ω, 0 < N → MixtureOf dflt (prior N ω) w fun k =>
      (List.range N).map fun i => (x k i ω, 1 / (N : ℝ)))
    (hf : ∀ N ω, 0 < N → MixtureParticleFilter.make dflt (prior N ω) q period (threshold N)
      .multinomial = .ok (f N ω))
    (hgood : ∀ g : MixtureParticleFilter R X ℝ, g.proposal = q → good g)
    {φ : X → ℝ} (hφ : Measurable φ) (hint : ∀ k, Integrable φ (exactFilter κ ℓ (μ k) T)) {ε : ℝ}
    (hε : 0 < ε) :
    Likely P fun N ω => ∃ f' pss W, MixtureParticleFilter.run step
        ((List.range T).map fun t => (fun k => inputs fun i => ρ k t i ω, c t)) (f N ω) =
          .ok (true, f') ∧ HoldsAll f' pss ∧ f'.mix.weights = List.ofFn W ∧
        |averageOver φ (flattened f'.mix.weights pss) -
          ∫ y, φ y ∂(exactFilter κ ℓ (mixtureLaw w μ) T)| < ε ∧
        ∀ k : Fin J, |W k - sourceProbability κ ℓ w μ T k| < ε := by
  simp only [uniform_eq] at h
  have hcs : ∀ N ω, ∃ cs : Fin J → MCPdf ℝ X, 0 < N → (prior N ω).comps = List.ofFn cs ∧
      ∀ k, Holds (cs k) ((List.range N).map fun i => (x k i ω, 1 / (N : ℝ))) := by
    intro N ω
    by_cases hN : 0 < N
    · obtain ⟨cs, h1⟩ := (hprior N ω hN).components
      exact ⟨cs, fun _ => h1⟩
    · exact ⟨fun _ => MCPdf.make 0 dflt, fun h => absurd h hN⟩
  choose cs hcs using hcs
  exact mConverges h hc hp hw1 (fun N ω hN => (hprior N ω hN).built)
    (fun N ω hN => (hprior N ω hN).assigned) (fun N ω hN => (hcs N ω hN).1)
    (fun N ω hN => (hcs N ω hN).2) (fun N ω hN => (hprior N ω hN).weights) hf hgood hφ hint hε

/-- **Mixture particle filter with any proposal**, resampling by period or by effective sample size.
The state was drawn from distribution `μ k` with probability `w k`, and component `k` of the prior
holds `N` draws from `μ k`. The probability tends to 1 with `N` that the updates all succeed, that
the average of `φ` over the posterior mixture is closer than `ε` to the exact conditional
expectation, and that every component weight is closer than `ε` to the conditional probability that
the state was drawn from that component. -/
theorem C104_particleFilter [∀ t, IsProbabilityMeasure (ν t)]
    (h : ∀ k : Fin J, IndependentDraws P (x k) (ρ k) (μ k) fun t =>
      Spec.uniform.prod ((ν t).prod Spec.uniform))
    {q : Proposal R X ℝ} {c : Nat → UpdateCall R X MV ℝ} {κ : Nat → Kernel X X}
    {ℓ : Nat → X → ℝ≥0∞} {T : Nat} (hc : ∀ t < T, UpdatesBy q (c t) (ν t) (κ t) (ℓ t))
    (hp : ∀ k, Possible κ ℓ (μ k) T) {w : Fin J → ℝ} (hw1 : ∑ k, w k = 1)
    {prior : Nat → Ω → Mixture ℝ (MCPdf ℝ X)} {f : Nat → Ω → MixtureParticleFilter R X ℝ}
    (hprior : ∀ N ω, 0 < N → MixtureOf dflt (prior N ω) w fun k =>
      (List.range N).map fun i => (x k i ω, 1 / (N : ℝ)))
    (hf : ∀ N ω, 0 < N → MixtureParticleFilter.make dflt (prior N ω) (some q) period (threshold N)
      .multinomial = .ok (f N ω))
    {φ : X → ℝ} (hφ : Measurable φ) (hint : ∀ k, Integrable φ (exactFilter κ ℓ (μ k) T)) {ε : ℝ}
    (hε : 0 < ε) :
    Likely P fun N ω => ∃ f' pss W,
      MixtureParticleFilter.run (MixtureParticleFilter.update dflt kthRoot)
        ((List.range T).map fun t => (fun k => inputs fun i => ρ k t i ω, c t)) (f N ω) =
          .ok (true, f') ∧ HoldsAll f' pss ∧ f'.mix.weights = List.ofFn W ∧
        |averageOver φ (flattened f'.mix.weights pss) -
          ∫ y, φ y ∂(exactFilter κ ℓ (mixtureLaw w μ) T)| < ε ∧
        ∀ k : Fin J, |W k - sourceProbability κ ℓ w μ T k| < ε :=
  mConverges' h (good := fun f => f.proposal = some q) (fun t ht => mRunsBy_updates (hc t ht)) hp hw1
    hprior hf (fun _ hg => hg) hφ hint hε

/-- **Mixture bootstrap filter**: the same, with or without sensor parameters. -/
theorem C104_bootstrap [∀ t, IsProbabilityMeasure (ν t)]
    (h : ∀ k : Fin J, IndependentDraws P (x k) (ρ k) (μ k) fun t =>
      Spec.uniform.prod ((ν t).prod Spec.uniform))
    {c : Nat → UpdateCall R X MV ℝ} {κ : Nat → Kernel X X}
    {ℓ : Nat → X → ℝ≥0∞} {T : Nat} (hc : ∀ t < T, BootUpdatesBy (c t) (ν t) (κ t) (ℓ t))
    (hp : ∀ k, Possible κ ℓ (μ k) T) {w : Fin J → ℝ} (hw1 : ∑ k, w k = 1)
    {prior : Nat → Ω → Mixture ℝ (MCPdf ℝ X)} {f : Nat → Ω → MixtureParticleFilter R X ℝ}
    (hprior : ∀ N ω, 0 < N → MixtureOf dflt (prior N ω) w fun k =>
      (List.range N).map fun i => (x k i ω, 1 / (N : ℝ)))
    (hf : ∀ N ω, 0 < N → MixtureParticleFilter.make dflt (prior N ω) none period (threshold N)
      .multinomial = .ok (f N ω))
    {φ : X → ℝ} (hφ : Measurable φ) (hint : ∀ k, Integrable φ (exactFilter κ ℓ (μ k) T)) {ε : ℝ}
    (hε : 0 < ε) :
    Likely P fun N ω => ∃ f' pss W,
      MixtureParticleFilter.run (MixtureParticleFilter.bootUpdate dflt kthRoot)
        ((List.range T).map fun t => (fun k => inputs fun i => ρ k t i ω, c t)) (f N ω) =
          .ok (true, f') ∧ HoldsAll f' pss ∧ f'.mix.weights = List.ofFn W ∧
        |averageOver φ (flattened f'.mix.weights pss) -
          ∫ y, φ y ∂(exactFilter κ ℓ (mixtureLaw w μ) T)| < ε ∧
        ∀ k : Fin J, |W k - sourceProbability κ ℓ w μ T k| < ε :=
  mConverges' h (good := fun _ => True) (fun t ht => mRunsBy_bootUpdates (hc t ht)) hp hw1
    hprior hf (fun _ _ => trivial) hφ hint hε

/-! ## A concrete case -/

theorem draws_map {X' R' : Type} [MeasurableSpace X'] [MeasurableSpace R'] {x : Nat → Ω → X}
    {r : Nat → Nat → Ω → R} {μ : Measure X} (h : IndependentDraws P x r μ ν) {g : X → X'}
    {g' : R → R'} (hg : Measurable g) (hg' : Measurable g') :
    IndependentDraws P (fun i ω => g (x i ω)) (fun t i ω => g' (r t i ω)) (μ.map g)
      fun t => (ν t).map g' where
  measurable_x := fun i => hg.comp (h.measurable_x i)
  measurable_r := fun t i => hg'.comp (h.measurable_r t i)
  law_x := fun i => by rw [← h.law_x i, Measure.map_map hg (h.measurable_x i)]; rfl
  law_r := fun t i => by rw [← h.law_r t i, Measure.map_map hg' (h.measurable_r t i)]; rfl
  indep := by
    refine iIndep_of_iIndep_of_le h.indep fun k => ?_
    cases k with
    | inl i => exact (hg.comp (comap_measurable (x i))).comap_le
    | inr p => exact (hg'.comp (comap_measurable (r p.1 p.2))).comap_le

/-- Draws for `J` components exist, and all are independent. -/
theorem family_exists (hJ : 0 < J) (μ : Fin J → Measure X) [∀ k, IsProbabilityMeasure (μ k)]
    (ν : Measure R) [IsProbabilityMeasure ν] :
    ∃ (P : Measure (Nat ⊕ Nat × Nat → (Fin J → X) × (Fin J → R))), IsProbabilityMeasure P ∧
      ∀ k : Fin J, IndependentDraws P (fun i ω => (ω (.inl i)).1 k)
        (fun t i ω => (ω (.inr (t, i))).2 ⟨k % J, Nat.mod_lt _ hJ⟩) (μ k) fun _ => ν := by
  obtain ⟨P, hP, h⟩ := draws_exist (Measure.pi μ) fun _ => Measure.pi fun _ : Fin J => ν
  refine ⟨P, hP, fun k => ?_⟩
  have hk : (⟨k % J, Nat.mod_lt _ hJ⟩ : Fin J) = k := Fin.ext (Nat.mod_eq_of_lt k.2)
  rw [hk]
  have := draws_map h (measurable_pi_apply k) (measurable_pi_apply k)
  rw [(measurePreserving_eval μ k).map_eq, (measurePreserving_eval (fun _ : Fin J => ν) k).map_eq]
    at this
  exact this

/-- Mixture filters with 1, 2, 3, … particles per component exist. -/
theorem mixtures_exist (hJ : 0 < J) (dflt : X) (x : Fin J → Nat → Ω → X)
    (q : Option (Proposal R X ℝ))
    (hp : ∀ N, ¬ (period = 0 ∧ threshold N = 0) ∧ ¬ (period ≠ 0 ∧ threshold N ≠ 0)) :
    ∃ (prior : Nat → Ω → Mixture ℝ (MCPdf ℝ X)) (f : Nat → Ω → MixtureParticleFilter R X ℝ),
      (∀ N ω, 0 < N → MixtureOf dflt (prior N ω) (fun _ : Fin J => 1 / (J : ℝ)) fun k =>
        (List.range N).map fun i => (x k i ω, 1 / (N : ℝ))) ∧
      ∀ N ω, 0 < N → MixtureParticleFilter.make dflt (prior N ω) q period (threshold N)
        .multinomial = .ok (f N ω) := by
  have h : ∀ (N : Nat) (ω : Ω), ∃ (prior : Mixture ℝ (MCPdf ℝ X)) (f : MixtureParticleFilter R X ℝ),
      0 < N → MixtureOf dflt prior (fun _ : Fin J => 1 / (J : ℝ)) (fun k =>
        (List.range N).map fun i => (x k i ω, 1 / (N : ℝ))) ∧
      MixtureParticleFilter.make dflt prior q period (threshold N) .multinomial = .ok f := by
    intro N ω
    have hn : ∀ N : Nat, 0 < N → ∀ k,
        Normalised ((List.range N).map fun i => (x k i ω, 1 / (N : ℝ))) := by
      intro N hN0 k
      have hN' : (N : ℝ) ≠ 0 := by exact_mod_cast hN0.ne'
      refine ⟨?_, ?_⟩
      · intro w hw
        simp only [List.map_map, List.mem_map, Function.comp] at hw
        obtain ⟨_, _, rfl⟩ := hw
        positivity
      · simp [List.map_map, Function.comp_def, hN']
    have hsome : ∀ N : Nat, 0 < N → ∃ (prior : Mixture ℝ (MCPdf ℝ X)),
        MixtureOf dflt prior (fun _ : Fin J => 1 / (J : ℝ)) (fun k =>
          (List.range N).map fun i => (x k i ω, 1 / (N : ℝ))) := by
      intro N hN
      choose cs _ h1 h2 _ using fun k => start_exists (R := R) dflt (hn N hN k) q .multinomial (hp N)
      have hne : List.ofFn cs ≠ [] := by
        intro he
        have := congrArg List.length he
        simp at this
        omega
      refine ⟨_, ⟨fun _ => 1, .ofComponents (Mixture.ofComponents_eq hne)⟩, ?_, ?_, ?_⟩
      · intro p hp
        obtain ⟨k, rfl⟩ := List.mem_ofFn.1 hp
        exact h1 k
      · rw [List.forall₂_iff_get]
        refine ⟨by simp, fun i i1 i2 => ?_⟩
        simp only [List.get_eq_getElem, List.getElem_ofFn]
        exact h2 _
      · simp [List.ofFn_const]
    have hmk : ∀ {prior : Mixture ℝ (MCPdf ℝ X)} {N : Nat} {ps : Fin J → List (X × ℝ)},
        MixtureOf dflt prior (fun _ : Fin J => 1 / (J : ℝ)) ps →
        ∃ f : MixtureParticleFilter R X ℝ,
          MixtureParticleFilter.make dflt prior q period (threshold N) .multinomial = .ok f := by
      intro prior N ps hm
      obtain ⟨dims, hb⟩ := hm.built
      obtain ⟨cs, hcs, _⟩ := hm.components
      have hne : prior.comps ≠ [] := by
        rw [hcs]
        intro he
        have := congrArg List.length he
        simp at this
        omega
      unfold MixtureParticleFilter.make
      rw [Mixture.copy_tol hb.tol hne]
      unfold ParticleFilter.policy
      rw [cassert_true (hp N).1, cassert_true (hp N).2]
      exact ⟨_, rfl⟩
    by_cases hN : 0 < N
    · obtain ⟨prior, h1⟩ := hsome N hN
      obtain ⟨f, h2⟩ := hmk (N := N) h1
      exact ⟨prior, f, fun _ => ⟨h1, h2⟩⟩
    · obtain ⟨prior, h1⟩ := hsome 1 one_pos
      obtain ⟨f, h2⟩ := hmk (N := N) h1
      exact ⟨prior, f, fun h => absurd h hN⟩
  choose prior f h using h
  exact ⟨prior, f, fun N ω hN => (h N ω hN).1, fun N ω hN => (h N ω hN).2⟩

namespace Toss

/-- Two hypotheses about the coin: `true` has probability 1/4, or 3/4. -/
noncomputable def guess (k : Fin 2) : Measure Bool := dist (odds (if k = 0 then 1 / 4 else 3 / 4))

instance (k : Fin 2) : IsProbabilityMeasure (guess k) := by
  refine ⟨?_⟩
  unfold guess
  have h0 : (0 : ℝ) ≤ if k = 0 then 1 / 4 else 3 / 4 := by split <;> norm_num
  have h1 : (if k = 0 then 1 / 4 else 3 / 4 : ℝ) ≤ 1 := by split <;> norm_num
  generalize (if k = 0 then 1 / 4 else 3 / 4 : ℝ) = p at *
  have := lintegral_dist (odds p) fun _ => 1
  rw [lintegral_one] at this
  rw [this, mul_one, mul_one, ← ENNReal.ofReal_add (odds_nonneg h0 h1 _) (odds_nonneg h0 h1 _)]
  simp [odds]

/-- One reading `true` of a coin that stays. -/
theorem guess_exact (k : Fin 2) :
    exactFilter (fun _ => Kernel.id) (fun _ y => ENNReal.ofReal (lik true y)) (guess k) 1 =
      dist (odds (if k = 0 then 1 / 2 else 9 / 10)) ∧
    evidenceOf Kernel.id (fun y => ENNReal.ofReal (lik true y)) (guess k) =
      ENNReal.ofReal (if k = 0 then 3 / 8 else 5 / 8) := by
  have h0 : (0 : ℝ) ≤ if k = 0 then 1 / 4 else 3 / 4 := by split <;> norm_num
  have h1 : (if k = 0 then 1 / 4 else 3 / 4 : ℝ) ≤ 1 := by split <;> norm_num
  have a := (bayes_odds h0 h1 (Measure.id_comp (μ := guess k))).2
  have b := (bayes_step (odds_nonneg h0 h1) (by simp [odds]) (Measure.id_comp (μ := guess k))).1
  refine ⟨?_, ?_⟩
  · show bayesStep _ _ (guess k) = _
    rw [a]
    congr 2
    split <;> norm_num
  · rw [b]
    congr 1
    by_cases hk : k = 0 <;> norm_num [odds, hk]

end Toss

open Toss in
/-- `C104_bootstrap` and `C104_particleFilter` on two equally probable hypotheses about a coin, after
one reading `true`: the probability of `true` tends to 3/4, and the weights of the hypotheses to 3/8
and 5/8. -/
example : ∃ (P : Measure (Nat ⊕ Nat × Nat → (Fin 2 → Bool) × (Fin 2 → ℝ × Bool × ℝ)))
    (f g : Nat → (Nat ⊕ Nat × Nat → (Fin 2 → Bool) × (Fin 2 → ℝ × Bool × ℝ)) →
      MixtureParticleFilter Bool Bool ℝ), IsProbabilityMeasure P ∧
    (∀ ε > 0, Likely P fun N ω => ∃ f' pss, ∃ W : Fin 2 → ℝ,
      MixtureParticleFilter.run (MixtureParticleFilter.update false kthRoot)
        [(fun k => inputs fun i => (ω (.inr (0, i))).2 ⟨k % 2, Nat.mod_lt _ two_pos⟩,
          ⟨none, true, some meas, true, true⟩)] (f N ω) = .ok (true, f') ∧ HoldsAll f' pss ∧
      f'.mix.weights = List.ofFn W ∧
      |averageOver heads (flattened f'.mix.weights pss) - 3 / 4| < ε ∧
      |W 0 - 3 / 8| < ε ∧ |W 1 - 5 / 8| < ε) ∧
    ∀ ε > 0, Likely P fun N ω => ∃ f' pss, ∃ W : Fin 2 → ℝ,
      MixtureParticleFilter.run (MixtureParticleFilter.bootUpdate false kthRoot)
        [(fun k => inputs fun i => (ω (.inr (0, i))).2 ⟨k % 2, Nat.mod_lt _ two_pos⟩,
          ⟨none, true, some meas, true, true⟩)] (g N ω) = .ok (true, f') ∧ HoldsAll f' pss ∧
      f'.mix.weights = List.ofFn W ∧
      |averageOver heads (flattened f'.mix.weights pss) - 3 / 4| < ε ∧
      |W 0 - 3 / 8| < ε ∧ |W 1 - 5 / 8| < ε := by
  obtain ⟨P, hP, hd⟩ := family_exists two_pos guess triple
  have hth : ∀ N : Nat, ¬ ((0 : Nat) = 0 ∧ (N : ℝ) + 1 = 0) ∧ ¬ ((0 : Nat) ≠ 0 ∧ (N : ℝ) + 1 ≠ 0) := by
    intro N
    have : (N : ℝ) + 1 ≠ 0 := by positivity
    simp [this]
  obtain ⟨prior, f, h1, h2⟩ := mixtures_exist (R := Bool) two_pos false
    (fun (k : Fin 2) i (ω : Nat ⊕ Nat × Nat → (Fin 2 → Bool) × (Fin 2 → ℝ × Bool × ℝ)) =>
      (ω (.inl i)).1 k) (some prop) hth
  obtain ⟨prior', g, h1', h2'⟩ := mixtures_exist (R := Bool) two_pos false
    (fun (k : Fin 2) i (ω : Nat ⊕ Nat × Nat → (Fin 2 → Bool) × (Fin 2 → ℝ × Bool × ℝ)) =>
      (ω (.inl i)).1 k) none hth
  have hp : ∀ k, Possible (fun _ => Kernel.id) (fun _ y => ENNReal.ofReal (lik true y)) (guess k) 1 := by
    intro k t ht
    obtain rfl : t = 0 := by omega
    show evidenceOf _ _ (guess k) ≠ 0 ∧ evidenceOf _ _ (guess k) ≠ ∞
    rw [(guess_exact k).2]
    refine ⟨?_, ENNReal.ofReal_ne_top⟩
    rw [Ne, ENNReal.ofReal_eq_zero, not_le]
    split <;> norm_num
  have hw1 : ∑ _k : Fin 2, (1 / ((2 : Nat) : ℝ)) = 1 := by norm_num
  have hon : ∀ k : Fin 2, ∀ b, 0 ≤ odds (if k = 0 then 1 / 2 else 9 / 10) b := fun k b =>
    odds_nonneg (by split <;> norm_num) (by split <;> norm_num) b
  have hint : ∀ k, Integrable heads (exactFilter (fun _ => Kernel.id)
      (fun _ y => ENNReal.ofReal (lik true y)) (guess k) 1) := fun k => by
    rw [(guess_exact k).1]
    exact (integral_dist (hon k) heads).1
  have hs : ∀ k, sourceProbability (fun _ => Kernel.id) (fun _ y => ENNReal.ofReal (lik true y))
      (fun _ => 1 / ((2 : Nat) : ℝ)) guess 1 k = if k = 0 then 3 / 8 else 5 / 8 := by
    intro k
    have he : ∀ k : Fin 2, evidenceUpTo (fun _ => Kernel.id) (fun _ y => ENNReal.ofReal (lik true y))
        (guess k) 1 = if k = 0 then 3 / 8 else 5 / 8 := by
      intro k
      simp only [evidenceUpTo, Finset.prod_range_one]
      show (evidenceOf _ _ (guess k)).toReal = _
      rw [(guess_exact k).2, ENNReal.toReal_ofReal]
      split <;> norm_num
    simp only [sourceProbability, he, Fin.sum_univ_two]
    fin_cases k <;> norm_num
  have hi : ∫ y, heads y ∂(exactFilter (fun _ => Kernel.id)
      (fun _ y => ENNReal.ofReal (lik true y)) (mixtureLaw (fun _ => 1 / ((2 : Nat) : ℝ)) guess) 1) =
      3 / 4 := by
    rw [exactFilter_mixtureLaw (fun _ => by norm_num) hw1 (fun _ _ => Measurable.of_discrete) hp 1
      le_rfl, integral_mixtureLaw (fun k => by rw [hs k]; split <;> norm_num) hint,
      Fin.sum_univ_two, hs, hs, (guess_exact 0).1, (guess_exact 1).1,
      (integral_dist (hon 0) heads).2, (integral_dist (hon 1) heads).2]
    norm_num [odds, heads]
  refine ⟨P, f, g, hP, fun ε hε => ?_, fun ε hε => ?_⟩
  · have h := C104_particleFilter (MV := Bool)
      (ρ := fun k t i ω => (ω (.inr (t, i))).2 ⟨k % 2, Nat.mod_lt _ two_pos⟩) hd
      (q := prop) (c := fun _ => ⟨none, true, some meas, true, true⟩) (κ := fun _ => Kernel.id)
      (ℓ := fun _ y => ENNReal.ofReal (lik true y)) (T := 1)
      (fun t _ => UpdatesBy.measurement true true true meas_isLikelihood Measurable.of_discrete)
      hp hw1 h1 h2 (φ := heads) Measurable.of_discrete hint hε
    rw [hi] at h
    refine Rare.mono h (Eventually.of_forall fun N ω hω hcon => hω ?_)
    obtain ⟨f', pss, W, a1, a2, a3, a4, a5⟩ := hcon
    simp only [hs] at a5
    exact ⟨f', pss, W, a1, a2, a3, a4, by simpa using a5 0, by simpa using a5 1⟩
  · have h := C104_bootstrap (MV := Bool)
      (ρ := fun k t i ω => (ω (.inr (t, i))).2 ⟨k % 2, Nat.mod_lt _ two_pos⟩) hd
      (c := fun _ => ⟨none, true, some meas, true, true⟩) (κ := fun _ => Kernel.id)
      (ℓ := fun _ y => ENNReal.ofReal (lik true y)) (T := 1)
      (fun t _ => BootUpdatesBy.measurement true true true meas_isLikelihood Measurable.of_discrete)
      hp hw1 h1' h2' (φ := heads) Measurable.of_discrete hint hε
    rw [hi] at h
    refine Rare.mono h (Eventually.of_forall fun N ω hω hcon => hω ?_)
    obtain ⟨f', pss, W, a1, a2, a3, a4, a5⟩ := hcon
    simp only [hs] at a5
    exact ⟨f', pss, W, a1, a2, a3, a4, by simpa using a5 0, by simpa using a5 1⟩

end BFL.Props
