import Verif.Lemmas.ParticleProgram

/-!
# C118: the example programs with a bootstrap filter
-/

set_option linter.unusedSectionVars false

namespace BFL.Props

open Matrix MeasureTheory ProbabilityTheory Spec ExamplePdfs CompareFilters ParticleFilter
open scoped ENNReal Topology

variable (c : Settings) (be : Backend)

/-- **C118.** With at least one sample the program completes, whatever the random numbers of the robot and of the filter
are (uniform numbers in `(0, 1]`): although the density of its system model cannot be evaluated (it ends the program),
no step of it stops. It prints the mean and covariance of as many particles as it was started with, and a number of
steps that is one too large. -/
theorem C118_completes {root : Nat → ℝ → ℝ} (hroot : IsRoot root) (hv : 0 < c.measVar) (robot : Robot) (u : Fin 2 → ℝ)
    {zs : List (Fin 3 → ℝ)} (hz : zs ≠ []) {noise : Nat → Noise (Fin 3 → ℝ) ℝ}
    (hu : ∀ k, Uniforms (noise k).static ∧ Uniforms (noise k).dynamic) (ds : List ((Fin 3 → ℝ) × (Fin 1 → ℝ))) :
    (∀ p cs y, (ParticleProgram.sysModel c).model.pdf = some p → p.prob cs y = .abort) ∧
    ∃ (r : ParticleProgram.Report) (ps : List ((Fin 3 → ℝ) × ℝ)),
      ParticleProgram.program c be root robot u zs noise ds = .ok r ∧ r.printed = ds.length + 1 ∧
      Normalised ps ∧ ps.length = zs.length ∧ r.mean = (fun i => averageOver (fun y => y i) ps) ∧
      ∀ i j, r.cov i j = averageOver (fun y => y i * y j) ps -
        averageOver (fun y => y i) ps * averageOver (fun y => y j) ps := by
  refine ⟨fun p cs y hp => by cases hp; rfl, ?_⟩
  obtain ⟨mm, hmm, hl⟩ := wall_likelihood c be hv
  obtain ⟨prior, hp, hh⟩ := prior_holds c zs
  have hlen : 0 < zs.length := List.length_pos_iff.2 hz
  obtain ⟨f, hf, hr⟩ := make_program hh (prior_normalised c hz) (threshold := (zs.length : ℝ) / 4) (by positivity)
  obtain ⟨z, hs⟩ := senses_exists robot u ds
  obtain ⟨f', ps, h1, h2, h3⟩ := boot_runs c hroot hv (plain_nonlinear c) (mo := some mm)
    (fun m hm => by cases hm; exact hl) u hu z ds.length 0 0 hr
  have hloop := particle_loop (root := root) c mm u noise z ds 0 robot f (fun t d hd => by
    rw [Nat.zero_add]; exact hs t d hd)
  rw [h1] at hloop
  refine ⟨⟨ds.length + 1, fun i => averageOver (fun y => y i) ps, Matrix.of fun i j =>
    averageOver (fun y => y i * y j) ps - averageOver (fun y => y i) ps * averageOver (fun y => y j) ps⟩, ps, ?_, rfl, h2.live.dist, by simpa using h3, rfl, fun i j => rfl⟩
  simp only [ParticleProgram.program, hmm, hp, hf, Outcome.ok_bind, hloop]
  show (do
    let r ← Settings.particleReport f'.postGet
    return (⟨0 + ds.length + 1, r.1, r.2⟩ : ParticleProgram.Report)) = _
  rw [ready_report h2]
  simp only [Outcome.ok_bind, Outcome.pure_eq, Nat.zero_add]

/-- **C118.** Without samples the program stops at an assertion. -/
theorem C118_no_samples (hv : 0 < c.measVar) (root : Nat → ℝ → ℝ) (robot : Robot) (u : Fin 2 → ℝ)
    (noise : Nat → Noise (Fin 3 → ℝ) ℝ) (ds : List ((Fin 3 → ℝ) × (Fin 1 → ℝ))) (r : ParticleProgram.Report) :
    ParticleProgram.program c be root robot u [] noise ds ≠ .ok r := by
  intro h
  obtain ⟨mm, hmm, -⟩ := wall_likelihood c be hv
  obtain ⟨prior, hp, -⟩ := prior_holds c []
  simp only [ParticleProgram.program, hmm, hp, Outcome.ok_bind, Outcome.bind_eq_ok, ParticleFilter.make] at h
  obtain ⟨f, ⟨_, _, _, _, _, hpol, -⟩, -⟩ := h
  simp [policy, cassert] at hpol

section compare

variable {root : Nat → ℝ → ℝ} (hroot : IsRoot root) (hv : 0 < c.measVar) (hth : c.threshold ≠ 0) (robot : Robot)
  (u : Fin 2 → ℝ) {own : Settings.FilterDraws} (hz : own.prior ≠ [])
  (hu : ∀ k, Uniforms (own.boot k).static ∧ Uniforms (own.boot k).dynamic) (ds : List CompareFilters.Draws)

include hroot hv hth hz hu in
theorem compare_boot (use : Bool) {z : Nat → Fin 1 → ℝ}
    (hs : Senses robot u (ds.map fun d => (d.move, d.reading)) z) :
    ∃ mm prior f f' ps0 ps r, c.measParticle be = .ok mm ∧ IsLikelihood mm (fun z x _ => wallSensor c z x) ∧
      c.priorDiscrete own.prior = .ok prior ∧ ParticleFilter.make 0 prior none 0 c.threshold .multinomial = .ok f ∧
      Ready 0 c.threshold 0 f ps0 ∧ f.run (bootUpdate 0 root) (bootCalls (c.sysParticle be) (if use then some mm else none) u own.boot
        (if use then z else 0) 0 ds.length) = .ok (true, f') ∧ Ready 0 c.threshold ds.length f' ps ∧
      c.program be root use robot u own ds ["bootstrap_filter"] = .ok (.done r) ∧
      r.printed = ds.length + 1 ∧ Settings.particleReport f'.postGet = .ok (r.mean, r.cov) := by
  obtain ⟨mm, hmm, hl⟩ := wall_likelihood c be hv
  obtain ⟨prior, hp, hh⟩ := prior_holds c own.prior
  obtain ⟨f, hf, hr⟩ := make_program hh (prior_normalised c hz) hth
  obtain ⟨recs, f', ps, h1, h2, h3⟩ := compare_loop c be hroot hv hl use u hu z ds 0 0 robot
    (fun t d hd => by rw [Nat.zero_add]; exact hs t d hd) hr
  rw [Nat.zero_add] at h3
  obtain ⟨⟨m, S⟩, hmS⟩ : ∃ x, Settings.particleReport f'.postGet = .ok x := ⟨_, ready_report h3⟩
  refine ⟨mm, prior, f, f', _, ps, ⟨recs, ds.length + 1, m, S⟩, hmm, hl, hp, hf, hr, h2, h3, ?_, rfl, hmS⟩
  have hrep : (c.bootstrap be root own.boot mm u).report f' = .ok (m, S) := hmS
  simp only [Settings.program, parse, hmm, hp, hf, Outcome.ok_bind, estimate, h1, hrep, Outcome.pure_eq]

include hroot hv hth hz hu in
/-- **C118.** The bootstrap filter of the comparison program completes too, with or without readings; of the five
filters it offers only this one and the extended Kalman filter give an answer of their own (C117). -/
theorem C118_compare_completes (use : Bool) : ∃ r,
    c.program be root use robot u own ds ["bootstrap_filter"] = .ok (.done r) ∧ r.printed = ds.length + 1 := by
  obtain ⟨z, hs⟩ := senses_exists robot u (ds.map fun d => (d.move, d.reading))
  obtain ⟨_, _, _, _, _, _, r, -, -, -, -, -, -, -, h, h', -⟩ := compare_boot c be hroot hv hth robot u hz hu ds use hs
  exact ⟨r, h, h'⟩

include hroot hv hz hu in
/-- **C118.** The two programs agree: with the same threshold, robot and random numbers, the comparison program with
readings (whose system model is a Gaussian with a density) and the particle filter program (whose system model can
only be sampled) report the same. -/
theorem C118_same (hc : c.threshold = (own.prior.length : ℝ) / 4) : ∃ r r',
    c.program be root true robot u own ds ["bootstrap_filter"] = .ok (.done r) ∧
    ParticleProgram.program c be root robot u own.prior own.boot (ds.map fun d => (d.move, d.reading)) = .ok r' ∧
    r'.mean = r.mean ∧ r'.cov = r.cov ∧ r'.printed = r.printed := by
  have hlen : 0 < own.prior.length := List.length_pos_iff.2 hz
  have hth : c.threshold ≠ 0 := by rw [hc]; positivity
  obtain ⟨z, hs⟩ := senses_exists robot u (ds.map fun d => (d.move, d.reading))
  obtain ⟨mm, prior, f, f', ps0, ps, r, hmm, hl, hp, hf, hr, h2, h3, h4, h5, h6⟩ :=
    compare_boot c be hroot hv hth robot u hz hu ds true hs
  obtain ⟨g, qs, k1, k2, -⟩ := boot_runs (root := root) c hroot hv (plain_nonlinear c) (mo := some mm)
    (fun m hm => by cases hm; exact hl) u hu z ds.length 0 0 hr
  have hsame : DrawsAlike (c.sysParticle be) (ParticleProgram.sysModel c) := by
    have a := plain_nonlinear c
    have b := plain_analytic c be
    exact ⟨a.draw.trans b.draw.symm, a.without.trans b.without.symm, a.args.trans b.args.symm⟩
  have hrun := run_alike (root := root) hsame (some mm) u own.boot z 0 ds.length (f := f) (f' := f) rfl
  have h2' : f.run (bootUpdate 0 root) (bootCalls (c.sysParticle be) (some mm) u own.boot z 0 ds.length) =
    .ok (true, f') := h2
  rw [h2', k1] at hrun
  have hpost : g.postGet = f'.postGet := hrun.2.post
  have hloop := particle_loop (root := root) c mm u own.boot z (ds.map fun d => (d.move, d.reading)) 0 robot f
    (fun t d hd => by rw [Nat.zero_add]; exact hs t d hd)
  rw [List.length_map, k1] at hloop
  refine ⟨r, ⟨ds.length + 1, r.mean, r.cov⟩, h4, ?_, rfl, rfl, h5.symm⟩
  rw [hc] at hf
  simp only [ParticleProgram.program, hmm, hp, hf, Outcome.ok_bind, hloop]
  show (do
    let r ← Settings.particleReport g.postGet
    return (⟨0 + ds.length + 1, r.1, r.2⟩ : ParticleProgram.Report)) = _
  rw [hpost, h6]
  simp only [Outcome.ok_bind, Outcome.pure_eq, Nat.zero_add]

end compare

section converges

variable (hx : machEps ≤ c.sysX) (hy : machEps ≤ c.sysY) (ht : machEps ≤ c.sysTheta)
  (hpx : machEps ≤ c.priorX) (hpy : machEps ≤ c.priorY) (hpt : machEps ≤ c.priorTheta) (hv : 0 < c.measVar)

include hx hy ht in
/-- The motion of the robot that the programs assume exists as a transition law. -/
theorem C118_moves (u : Fin 2 → ℝ) : ∃ κ : Kernel (Fin 3 → ℝ) (Fin 3 → ℝ), MovesBy c u κ ∧ IsMarkovKernel κ :=
  moves_exists c hx hy ht u

variable {Ω : Type} [MeasurableSpace Ω] {P : Measure Ω} [IsProbabilityMeasure P] {ζ : Nat → Ω → Fin 3 → ℝ}
  {ρ : Nat → Nat → Ω → ℝ × (Fin 3 → ℝ) × ℝ}
  (h : IndependentDraws P ζ ρ (stdNormals 3) fun _ => Spec.uniform.prod ((stdNormals 3).prod Spec.uniform))

include hx hy ht hpx hpy hpt hv h in
/-- **C118.** With many samples the report of the program is the exact answer of its nonlinear problem: the probability
that the mean or the covariance is `ε` or more away from those of the conditional distribution of the state given the
readings of the robot tends to 0. -/
theorem C118_converges {u : Fin 2 → ℝ} {κ : Kernel (Fin 3 → ℝ) (Fin 3 → ℝ)} (hκ : MovesBy c u κ) (robot : Robot)
    (ds : List ((Fin 3 → ℝ) × (Fin 1 → ℝ))) {z : Nat → Fin 1 → ℝ} (hs : Senses robot u ds z) {ε : ℝ} (hε : 0 < ε) :
    Likely P fun N ω => ∃ r, ParticleProgram.program c be kthRoot robot u ((List.range N).map fun i => ζ i ω)
        (fun t => inputs fun i => ρ t i ω) ds = .ok r ∧
      WithinOf ε (exactFilter (fun _ => κ) (fun t x => ENNReal.ofReal (wallSensor c (z t) x)) (priorLaw c) ds.length)
        r.mean r.cov := by
  obtain ⟨mm, hmm, hl⟩ := wall_likelihood c be hv
  have hconv := boot_converges c hx hy ht hpx hpy hpt hv h hκ true hl (plain_nonlinear c) z ds.length
    (threshold := fun N => (N : ℝ) / 4) (fun N hN => by positivity) hε
  refine likely_of hconv (G := fun _ => True) (Filter.Eventually.of_forall fun _ => trivial) ?_
  rintro N ω - - ⟨prior, f, f', μ, S, h1, h2, h3, h4, h5, h6⟩
  refine ⟨⟨ds.length + 1, μ, S⟩, ?_, h5, h6⟩
  have hloop := particle_loop (root := kthRoot) c mm u (fun t => inputs fun i => ρ t i ω) z ds 0 robot f
    (fun t d hd => by rw [Nat.zero_add]; exact hs t d hd)
  have h3' : f.run (bootUpdate 0 kthRoot) (bootCalls (ParticleProgram.sysModel c) (some mm) u
    (fun t => inputs fun i => ρ t i ω) z 0 ds.length) = .ok (true, f') := h3
  rw [h3'] at hloop
  simp only [ParticleProgram.program, hmm, h1, Outcome.ok_bind, List.length_map, List.length_range, h2, hloop]
  show (do
    let r ← Settings.particleReport f'.postGet
    return (⟨0 + ds.length + 1, r.1, r.2⟩ : ParticleProgram.Report)) = _
  rw [h4]
  simp only [Outcome.ok_bind, Outcome.pure_eq, Nat.zero_add]

include hx hy ht hpx hpy hpt hv h in
/-- The comparison program with its bootstrap filter, with or without readings. -/
theorem compare_converges (hth : c.threshold ≠ 0) {u : Fin 2 → ℝ} {κ : Kernel (Fin 3 → ℝ) (Fin 3 → ℝ)}
    (hκ : MovesBy c u κ) (use : Bool) (robot : Robot) (ds : List CompareFilters.Draws) (ek : Nat → EKNoise 3)
    {z : Nat → Fin 1 → ℝ} (hs : Senses robot u (ds.map fun d => (d.move, d.reading)) z) {ε : ℝ} (hε : 0 < ε) :
    Likely P fun N ω => ∃ r, c.program be kthRoot use robot u
        ⟨(List.range N).map fun i => ζ i ω, fun t => inputs fun i => ρ t i ω, ek⟩ ds ["bootstrap_filter"] =
          .ok (.done r) ∧
      WithinOf ε (exactFilter (fun _ => κ) (readingOr c use z) (priorLaw c) ds.length) r.mean r.cov := by
  obtain ⟨mm, hmm, hl⟩ := wall_likelihood c be hv
  have hconv := boot_converges c hx hy ht hpx hpy hpt hv h hκ use hl (plain_analytic c be) z ds.length
    (threshold := fun _ => c.threshold) (fun _ _ => hth) hε
  refine likely_of hconv (uniforms_ae h) ?_
  rintro N ω hN hω ⟨prior, f, f', μ, S, h1, h2, h3, h4, h5, h6⟩
  have hne : (List.range N).map (fun i => ζ i ω) ≠ [] := by
    intro he
    have := congrArg List.length he
    simp only [List.length_map, List.length_range, List.length_nil] at this
    omega
  obtain ⟨mm', prior', g, g', _, ps, r, k1, -, k2, k3, -, k4, -, k5, -, k6⟩ := compare_boot c be isRoot_kthRoot hv hth robot u
    (own := ⟨(List.range N).map fun i => ζ i ω, fun t => inputs fun i => ρ t i ω, ek⟩) hne hω ds use hs
  rw [hmm, Outcome.ok.injEq] at k1
  subst k1
  rw [h1, Outcome.ok.injEq] at k2
  subst k2
  rw [h2, Outcome.ok.injEq] at k3
  subst k3
  rw [h3, Outcome.ok.injEq, Prod.mk.injEq] at k4
  obtain ⟨-, rfl⟩ := k4
  rw [h4, Outcome.ok.injEq, Prod.mk.injEq] at k6
  obtain ⟨rfl, rfl⟩ := k6
  exact ⟨r, k5, h5, h6⟩

include hx hy ht hpx hpy hpt hv h in
/-- **C118.** The bootstrap filter of the comparison program, if the readings are used, has the same limit. -/
theorem C118_compare_converges (hth : c.threshold ≠ 0) {u : Fin 2 → ℝ} {κ : Kernel (Fin 3 → ℝ) (Fin 3 → ℝ)}
    (hκ : MovesBy c u κ) (robot : Robot) (ds : List CompareFilters.Draws) (ek : Nat → EKNoise 3)
    {z : Nat → Fin 1 → ℝ} (hs : Senses robot u (ds.map fun d => (d.move, d.reading)) z) {ε : ℝ} (hε : 0 < ε) :
    Likely P fun N ω => ∃ r, c.program be kthRoot true robot u
        ⟨(List.range N).map fun i => ζ i ω, fun t => inputs fun i => ρ t i ω, ek⟩ ds ["bootstrap_filter"] =
          .ok (.done r) ∧
      WithinOf ε (exactFilter (fun _ => κ) (fun t x => ENNReal.ofReal (wallSensor c (z t) x)) (priorLaw c) ds.length)
        r.mean r.cov :=
  compare_converges c be hx hy ht hpx hpy hpt hv h hth hκ true robot ds ek hs hε

theorem exact_without {κ : Kernel (Fin 3 → ℝ) (Fin 3 → ℝ)} [IsMarkovKernel κ] {μ : Measure (Fin 3 → ℝ)}
    [IsProbabilityMeasure μ] (z : Nat → Fin 1 → ℝ) (T : Nat) :
    exactFilter (fun _ => κ) (readingOr c false z) μ T = movedLaw κ μ T ∧ IsProbabilityMeasure (movedLaw κ μ T) := by
  induction T with
  | zero => exact ⟨rfl, by assumption⟩
  | succ T ih =>
    obtain ⟨h1, h2⟩ := ih
    have h3 : IsProbabilityMeasure ((movedLaw κ μ T).bind κ) := inferInstance
    refine ⟨?_, h3⟩
    have hone : readingOr c false z T = 1 := by
      funext x
      rfl
    show bayesStep κ (readingOr c false z T) (exactFilter (fun _ => κ) (readingOr c false z) μ T) = _
    rw [h1, hone]
    unfold bayesStep evidenceOf
    rw [withDensity_one]
    simp [movedLaw]

include hx hy ht hpx hpy hpt hv h in
/-- **C118.** As shipped (without readings) the bootstrap filter of the comparison program has the limit of the
prior after the moves. -/
theorem C118_compare_shipped (hth : c.threshold ≠ 0) {u : Fin 2 → ℝ} {κ : Kernel (Fin 3 → ℝ) (Fin 3 → ℝ)}
    (hκ : MovesBy c u κ) (robot : Robot) (ds : List CompareFilters.Draws) (ek : Nat → EKNoise 3) {ε : ℝ} (hε : 0 < ε) :
    Likely P fun N ω => ∃ r, c.program be kthRoot false robot u
        ⟨(List.range N).map fun i => ζ i ω, fun t => inputs fun i => ρ t i ω, ek⟩ ds ["bootstrap_filter"] =
          .ok (.done r) ∧ WithinOf ε (movedLaw κ (priorLaw c) ds.length) r.mean r.cov := by
  obtain ⟨z, hs⟩ := senses_exists robot u (ds.map fun d => (d.move, d.reading))
  have hmk : IsMarkovKernel κ :=
    ⟨fun x => by rw [hκ]; exact normalLaw_prob (affine_draw_law 0 (eps_diag hx hy ht)).1⟩
  have hpr : IsProbabilityMeasure (priorLaw c) := normalLaw_prob (affine_draw_law c.priorMu (eps_diag hpx hpy hpt)).1
  have := compare_converges c be hx hy ht hpx hpy hpt hv h hth hκ false robot ds ek hs hε
  rwa [(exact_without c z ds.length).1] at this

end converges

/-! ### The constants of the programs -/

open CompareFixture

/-- The variances of `mobile_robot_wall_cts.h` are distinguishable from zero. -/
theorem cts_variances : machEps ≤ cts.sysX ∧ machEps ≤ cts.sysY ∧ machEps ≤ cts.sysTheta ∧ machEps ≤ cts.priorX ∧
    machEps ≤ cts.priorY ∧ machEps ≤ cts.priorTheta ∧ 0 < cts.measVar := by
  have hpi := Real.two_le_pi
  have he : machEps ≤ (1 / 10000 : ℝ) := by norm_num [machEps]
  refine ⟨?_, ?_, ?_, ?_, ?_, ?_, ?_⟩ <;> simp only [cts]
  · refine he.trans ?_; norm_num
  · refine he.trans ?_; norm_num
  · refine he.trans ?_; nlinarith
  · refine he.trans ?_; norm_num
  · refine he.trans ?_; norm_num
  · refine he.trans ?_; nlinarith
  · norm_num

/-- Uniform numbers that are all 1/2. -/
noncomputable def programHalves : Nat → Noise (Fin 3 → ℝ) ℝ := fun _ => ⟨fun _ => 0, fun _ => 1 / 2, fun _ => 1 / 2⟩

theorem programHalves_uniforms (k : Nat) : Uniforms (programHalves k).static ∧ Uniforms (programHalves k).dynamic :=
  ⟨fun _ => by norm_num [programHalves], fun _ => by norm_num [programHalves]⟩

/-- A run with a thousand samples and a hundred steps. -/
example : ∃ r, ParticleProgram.program cts .eigen kthRoot (robot 0 0) ![1 / 10, 0] (List.replicate 1000 0) programHalves
    (List.replicate 100 (0, 0)) = .ok r ∧ r.printed = 101 := by
  obtain ⟨-, r, ps, h, hp, -⟩ := C118_completes cts .eigen isRoot_kthRoot cts_variances.2.2.2.2.2.2 (robot 0 0)
    ![1 / 10, 0] (zs := List.replicate 1000 0) (List.cons_ne_nil _ _) programHalves_uniforms (List.replicate 100 (0, 0))
  exact ⟨r, h, by rw [hp, List.length_replicate]⟩

example (r : ParticleProgram.Report) : ParticleProgram.program cts .eigen kthRoot (robot 0 0) ![1 / 10, 0] [] programHalves
    [(0, 0)] ≠ .ok r :=
  C118_no_samples cts .eigen cts_variances.2.2.2.2.2.2 _ _ _ _ _ r

/-- The two programs with the same numbers. -/
example (ek : Nat → EKNoise 3) : ∃ r r',
    cts.program .eigen kthRoot true (robot 0 0) ![1 / 10, 0] ⟨List.replicate 1000 0, programHalves, ek⟩
      (List.replicate 100 quiet) ["bootstrap_filter"] = .ok (.done r) ∧
    ParticleProgram.program cts .eigen kthRoot (robot 0 0) ![1 / 10, 0] (List.replicate 1000 0) programHalves
      ((List.replicate 100 quiet).map fun d => (d.move, d.reading)) = .ok r' ∧
    r'.mean = r.mean ∧ r'.cov = r.cov ∧ r'.printed = r.printed :=
  C118_same cts .eigen isRoot_kthRoot cts_variances.2.2.2.2.2.2 (robot 0 0) ![1 / 10, 0]
    (own := ⟨List.replicate 1000 0, programHalves, ek⟩) (List.cons_ne_nil _ _) programHalves_uniforms (List.replicate 100 quiet)
    (by rw [List.length_replicate]; norm_num [cts])

/-- Independent random numbers for the programs exist. -/
theorem program_draws : ∃ (P : Measure (Nat ⊕ Nat × Nat → (Fin 3 → ℝ) × ℝ × (Fin 3 → ℝ) × ℝ)),
    IsProbabilityMeasure P ∧ IndependentDraws P (fun i ω => (ω (.inl i)).1) (fun t i ω => (ω (.inr (t, i))).2)
      (stdNormals 3) fun _ => Spec.uniform.prod ((stdNormals 3).prod Spec.uniform) := by
  have hpu : IsProbabilityMeasure Spec.uniform := ⟨by simp [uniform_eq]⟩
  exact draws_exist (stdNormals 3) fun _ => Spec.uniform.prod ((stdNormals 3).prod Spec.uniform)

/-- The particle filter program as shipped, with its hundred steps and the number of samples going to infinity. -/
example : ∃ (P : Measure (Nat ⊕ Nat × Nat → (Fin 3 → ℝ) × ℝ × (Fin 3 → ℝ) × ℝ)) (κ : Kernel (Fin 3 → ℝ) (Fin 3 → ℝ))
    (z : Nat → Fin 1 → ℝ), IsProbabilityMeasure P ∧ MovesBy cts ![1 / 10, 0] κ ∧
      Senses (robot 0 0) ![1 / 10, 0] (List.replicate 100 (0, 0)) z ∧
      Likely P fun N ω => ∃ r, ParticleProgram.program cts .eigen kthRoot (robot 0 0) ![1 / 10, 0]
          ((List.range N).map fun i => (ω (.inl i)).1) (fun t => inputs fun i => (ω (.inr (t, i))).2)
          (List.replicate 100 (0, 0)) = .ok r ∧
        WithinOf (1 / 1000) (exactFilter (fun _ => κ) (fun t x => ENNReal.ofReal (wallSensor cts (z t) x)) (priorLaw cts)
          100) r.mean r.cov := by
  obtain ⟨P, hP, hd⟩ := program_draws
  obtain ⟨h1, h2, h3, h4, h5, h6, h7⟩ := cts_variances
  obtain ⟨κ, hκ, -⟩ := C118_moves cts h1 h2 h3 ![1 / 10, 0]
  obtain ⟨z, hz⟩ := senses_exists (robot 0 0) ![1 / 10, 0] (List.replicate 100 (0, 0))
  have := C118_converges cts .eigen h1 h2 h3 h4 h5 h6 h7 hd hκ (robot 0 0) _ hz (ε := 1 / 1000) (by norm_num)
  rw [List.length_replicate] at this
  exact ⟨P, κ, z, hP, hκ, hz, this⟩

/-- The comparison program as shipped. -/
example (ek : Nat → EKNoise 3) : ∃ (P : Measure (Nat ⊕ Nat × Nat → (Fin 3 → ℝ) × ℝ × (Fin 3 → ℝ) × ℝ))
    (κ : Kernel (Fin 3 → ℝ) (Fin 3 → ℝ)), IsProbabilityMeasure P ∧ MovesBy cts ![1 / 10, 0] κ ∧
      Likely P fun N ω => ∃ r, cts.program .eigen kthRoot false (robot 0 0) ![1 / 10, 0]
          ⟨(List.range N).map fun i => (ω (.inl i)).1, fun t => inputs fun i => (ω (.inr (t, i))).2, ek⟩
          (List.replicate 100 quiet) ["bootstrap_filter"] = .ok (.done r) ∧
        WithinOf (1 / 1000) (movedLaw κ (priorLaw cts) 100) r.mean r.cov := by
  obtain ⟨P, hP, hd⟩ := program_draws
  obtain ⟨h1, h2, h3, h4, h5, h6, h7⟩ := cts_variances
  obtain ⟨κ, hκ, -⟩ := C118_moves cts h1 h2 h3 ![1 / 10, 0]
  have := C118_compare_shipped cts .eigen h1 h2 h3 h4 h5 h6 h7 hd (by norm_num [cts]) hκ (robot 0 0)
    (List.replicate 100 quiet) ek (ε := 1 / 1000) (by norm_num)
  rw [List.length_replicate] at this
  exact ⟨P, κ, hP, hκ, this⟩

end BFL.Props
