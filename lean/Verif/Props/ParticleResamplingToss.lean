import Verif.Props.ParticleResampling
import Verif.Props.ParticleToss

/-!
# Concrete cases for C76
-/

set_option linter.unusedSectionVars false

namespace BFL.Props

open MeasureTheory ProbabilityTheory Filter Spec MCPdf ParticleFilter
open scoped ENNReal Topology

namespace Toss

instance : IsProbabilityMeasure Spec.uniform := by
  rw [uniform_eq]
  exact ⟨by simp⟩

/-- Law of the inputs of one particle: a uniform number, a fair coin and a uniform number. -/
noncomputable def triple : Measure (ℝ × Bool × ℝ) := Spec.uniform.prod (coin.prod Spec.uniform)

instance : IsProbabilityMeasure triple := by unfold triple; infer_instance

/-- Infinitely many independent triples. -/
noncomputable def triples : Measure (Nat ⊕ Nat × Nat → ℝ × Bool × ℝ) :=
  Measure.infinitePi fun _ => triple

instance : IsProbabilityMeasure triples := by unfold triples; infer_instance

theorem draws_triples : IndependentDraws triples (fun i ω => (ω (.inl i)).2.1)
    (fun t i ω => ω (.inr (t, i))) coin
    fun _ => Spec.uniform.prod (coin.prod Spec.uniform) where
  measurable_x := fun i => (measurable_pi_apply (Sum.inl i)).snd.fst
  measurable_r := fun t i => measurable_pi_apply _
  law_x := fun i => by
    have h1 : triples.map (fun ω => ω (.inl i)) = triple :=
      Measure.infinitePi_map_eval (fun _ => triple) _
    have h2 : (triples.map (fun ω => ω (.inl i))).map (Prod.fst ∘ Prod.snd) =
        triples.map (fun ω => (ω (.inl i)).2.1) :=
      Measure.map_map (measurable_fst.comp measurable_snd) (measurable_pi_apply _)
    rw [← h2, h1, ← Measure.map_map measurable_fst measurable_snd]
    unfold triple
    rw [Measure.map_snd_prod, measure_univ, one_smul, Measure.map_fst_prod, measure_univ, one_smul]
  law_r := fun t i => Measure.infinitePi_map_eval (fun _ => triple) _
  indep := by
    have h : iIndepFun (fun (k : Nat ⊕ Nat × Nat) (ω : Nat ⊕ Nat × Nat → ℝ × Bool × ℝ) => ω k)
        triples :=
      iIndepFun_infinitePi (P := fun _ => triple) (X := fun _ b => b) fun _ => measurable_id
    rw [iIndepFun_iff_iIndep] at h
    refine iIndep_of_iIndep_of_le h fun k => ?_
    cases k with
    | inl i =>
      have h1 : MeasurableSpace.comap (fun ω : Nat ⊕ Nat × Nat → ℝ × Bool × ℝ => (ω (.inl i)).2.1)
          inferInstance = MeasurableSpace.comap
            (fun ω : Nat ⊕ Nat × Nat → ℝ × Bool × ℝ => ω (.inl i))
            (MeasurableSpace.comap (Prod.fst ∘ Prod.snd) inferInstance) := by
        rw [MeasurableSpace.comap_comp]; rfl
      show MeasurableSpace.comap (fun ω : Nat ⊕ Nat × Nat → ℝ × Bool × ℝ => (ω (.inl i)).2.1) _ ≤ _
      rw [h1]
      exact MeasurableSpace.comap_mono
        (measurable_iff_comap_le.1 (measurable_fst.comp measurable_snd))
    | inr p => exact le_rfl

/-- Filters with 1, 2, 3, … particles drawn from the prior exist. -/
theorem filters_triples (q : Option (Proposal Bool Bool ℝ)) {period : Nat} {threshold : Nat → ℝ}
    (hp : ∀ N, ¬ (period = 0 ∧ threshold N = 0) ∧ ¬ (period ≠ 0 ∧ threshold N ≠ 0)) :
    ∃ (prior : Nat → (Nat ⊕ Nat × Nat → ℝ × Bool × ℝ) → MCPdf ℝ Bool)
      (f : Nat → (Nat ⊕ Nat × Nat → ℝ × Bool × ℝ) → ParticleFilter Bool Bool ℝ),
      (∀ N ω, 0 < N →
        Holds (prior N ω) ((List.range N).map fun i => ((ω (.inl i)).2.1, 1 / (N : ℝ)))) ∧
      ∀ N ω, 0 < N → ParticleFilter.make false (prior N ω) q period (threshold N) .multinomial =
        .ok (f N ω) := by
  have h : ∀ (N : Nat) (ω : Nat ⊕ Nat × Nat → ℝ × Bool × ℝ), ∃ (prior : MCPdf ℝ Bool)
      (f : ParticleFilter Bool Bool ℝ), 0 < N →
      Holds prior ((List.range N).map fun i => ((ω (.inl i)).2.1, 1 / (N : ℝ))) ∧
      ParticleFilter.make false prior q period (threshold N) .multinomial = .ok f := by
    intro N ω
    have hn : ∀ N : Nat, 0 < N →
        Normalised ((List.range N).map fun i => ((ω (.inl i)).2.1, 1 / (N : ℝ))) := by
      intro N hN0
      have hN' : (N : ℝ) ≠ 0 := by exact_mod_cast hN0.ne'
      refine ⟨?_, ?_⟩
      · intro w hw
        simp only [List.map_map, List.mem_map, Function.comp] at hw
        obtain ⟨_, _, rfl⟩ := hw
        positivity
      · simp [List.map_map, Function.comp_def, hN']
    by_cases hN : 0 < N
    · obtain ⟨prior, f, _, h2, _, h4, _⟩ := start_exists (R := Bool) false (hn N hN) q .multinomial
        (hp N)
      exact ⟨prior, f, fun _ => ⟨h2, h4⟩⟩
    · obtain ⟨prior, f, _⟩ := start_exists (R := Bool) false (hn 1 one_pos) q .multinomial (hp N)
      exact ⟨prior, f, fun h => absurd h hN⟩
  choose prior f h using h
  exact ⟨prior, f, fun N ω hN => (h N ω hN).1, fun N ω hN => (h N ω hN).2⟩

/-- Bayes' rule on `Bool` for the reading `true`. -/
theorem bayes_step {w : Bool → ℝ} (hw : ∀ b, 0 ≤ w b) (h1 : w true + w false = 1)
    {κ : Kernel Bool Bool} {π : Measure Bool} (hπ : π.bind κ = dist w) :
    evidenceOf κ (fun y => ENNReal.ofReal (lik true y)) π =
      ENNReal.ofReal (w true * (3 / 4) + w false * (1 / 4)) ∧
    bayesStep κ (fun y => ENNReal.ofReal (lik true y)) π =
      dist (fun b => w b * lik true b / (w true * (3 / 4) + w false * (1 / 4))) := by
  have e0 : 0 < w true * (3 / 4) + w false * (1 / 4) := by
    have := hw true
    have := hw false
    linarith
  have hev : evidenceOf κ (fun y => ENNReal.ofReal (lik true y)) π =
      ENNReal.ofReal (w true * (3 / 4) + w false * (1 / 4)) := by
    unfold evidenceOf
    rw [hπ, lintegral_dist, ← ENNReal.ofReal_mul (hw _),
      ← ENNReal.ofReal_mul (hw _), ← ENNReal.ofReal_add
        (mul_nonneg (hw _) (lik_nonneg _ _)) (mul_nonneg (hw _) (lik_nonneg _ _))]
    norm_num [lik]
  refine ⟨hev, ?_⟩
  generalize w true * (3 / 4) + w false * (1 / 4) = e at *
  unfold bayesStep
  rw [hev, hπ]
  apply Measure.ext_of_lintegral
  intro F hF
  rw [lintegral_smul_measure, lintegral_withDensity_eq_lintegral_mul _ Measurable.of_discrete hF,
    lintegral_dist, lintegral_dist, smul_eq_mul, mul_add, Pi.mul_apply, Pi.mul_apply,
    ← ENNReal.ofReal_inv_of_pos e0]
  have he : (0 : ℝ) ≤ e⁻¹ := inv_nonneg.2 e0.le
  have k : ∀ b, ENNReal.ofReal e⁻¹ * (ENNReal.ofReal (w b) * (ENNReal.ofReal (lik true b) * F b)) =
      ENNReal.ofReal (w b * lik true b / e) * F b := by
    intro b
    rw [← mul_assoc, ← mul_assoc, ← ENNReal.ofReal_mul he,
      ← ENNReal.ofReal_mul (mul_nonneg he (hw _))]
    congr 2
    rw [div_eq_inv_mul, mul_assoc]
  rw [k, k]

/-- The probability of `true` is `p`. -/
noncomputable def odds (p : ℝ) (b : Bool) : ℝ := if b then p else 1 - p

theorem odds_nonneg {p : ℝ} (h0 : 0 ≤ p) (h1 : p ≤ 1) (b : Bool) : 0 ≤ odds p b := by
  unfold odds; split <;> linarith

/-- The reading `true` takes the probability `p` to `3 p / (1 + 2 p)`. -/
theorem bayes_odds {p : ℝ} (h0 : 0 ≤ p) (h1 : p ≤ 1) {κ : Kernel Bool Bool} {π : Measure Bool}
    (hπ : π.bind κ = dist (odds p)) :
    (evidenceOf κ (fun y => ENNReal.ofReal (lik true y)) π ≠ 0 ∧
      evidenceOf κ (fun y => ENNReal.ofReal (lik true y)) π ≠ ∞) ∧
    bayesStep κ (fun y => ENNReal.ofReal (lik true y)) π = dist (odds (3 * p / (1 + 2 * p))) := by
  obtain ⟨he, hb⟩ := bayes_step (odds_nonneg h0 h1) (by simp [odds]) hπ
  have hpos : 0 < odds p true * (3 / 4) + odds p false * (1 / 4) := by
    simp only [odds, if_true]
    norm_num
    linarith
  refine ⟨?_, ?_⟩
  · rw [he]
    exact ⟨by simpa using hpos, ENNReal.ofReal_ne_top⟩
  · rw [hb]
    congr 1
    funext b
    have h3 : (1 + 2 * p : ℝ) ≠ 0 := by linarith
    have h4 : p * (3 / 4) + (1 - p) * (1 / 4) = (1 + 2 * p) / 4 := by ring
    cases b
    · simp only [odds, lik, if_true, Bool.false_eq_true, if_false, h4]
      field_simp
      ring
    · simp only [odds, lik, if_true, Bool.false_eq_true, if_false, h4]
      field_simp

theorem coin_eq : coin = dist (odds (1 / 2)) := by
  unfold coin
  congr 1
  funext b
  cases b <;> norm_num [odds]

theorem tr_eq : tr = odds (3 / 4) := by
  funext b
  cases b <;> norm_num [odds, tr]

/-- A state that is thrown anew with probability 3/4, read twice. -/
theorem exact_thrown : Possible (fun _ => Toss.κ) (fun _ y => ENNReal.ofReal (lik true y)) coin 2 ∧
    exactFilter (fun _ => Toss.κ) (fun _ y => ENNReal.ofReal (lik true y)) coin 2 =
      dist (odds (9 / 10)) := by
  have hb : ∀ p : ℝ, 0 ≤ p → p ≤ 1 → (dist (odds p)).bind Toss.κ = dist (odds (3 / 4)) := by
    intro p h0 h1
    have : (⇑Toss.κ : Bool → Measure Bool) = fun _ => dist tr := by
      funext b; exact Kernel.const_apply _ _
    have hu : dist (odds p) Set.univ = 1 := by
      have := lintegral_dist (odds p) fun _ => 1
      rw [lintegral_one] at this
      rw [this, mul_one, mul_one, ← ENNReal.ofReal_add (odds_nonneg h0 h1 _)
        (odds_nonneg h0 h1 _)]
      simp [odds]
    rw [this, Measure.bind_const, hu, one_smul, tr_eq]
  obtain ⟨p0, b0⟩ := bayes_odds (p := 3 / 4) (by norm_num) (by norm_num)
    (hb (1 / 2) (by norm_num) (by norm_num))
  rw [← coin_eq] at p0 b0
  norm_num at b0
  have e1 : exactFilter (fun _ => Toss.κ) (fun _ y => ENNReal.ofReal (lik true y)) coin 1 =
      dist (odds (9 / 10)) := b0
  obtain ⟨p1, b1⟩ := bayes_odds (p := 3 / 4) (by norm_num) (by norm_num)
    (hb (9 / 10) (by norm_num) (by norm_num))
  norm_num at b1
  refine ⟨?_, ?_⟩
  · intro t ht
    obtain rfl | rfl : t = 0 ∨ t = 1 := by omega
    · exact p0
    · rw [e1]; exact p1
  · show bayesStep _ _ (exactFilter _ _ coin 1) = _
    rw [e1]; exact b1

/-- A state that stays, read twice. -/
theorem exact_kept :
    Possible (fun _ => Kernel.id) (fun _ y => ENNReal.ofReal (lik true y)) coin 2 ∧
    exactFilter (fun _ => Kernel.id) (fun _ y => ENNReal.ofReal (lik true y)) coin 2 =
      dist (odds (9 / 10)) := by
  obtain ⟨p0, b0⟩ := bayes_odds (p := 1 / 2) (by norm_num) (by norm_num)
    (Measure.id_comp (μ := dist (odds (1 / 2))))
  rw [← coin_eq] at p0 b0
  norm_num at b0
  have e1 : exactFilter (fun _ => Kernel.id) (fun _ y => ENNReal.ofReal (lik true y)) coin 1 =
      dist (odds (3 / 4)) := b0
  obtain ⟨p1, b1⟩ := bayes_odds (p := 3 / 4) (by norm_num) (by norm_num)
    (Measure.id_comp (μ := dist (odds (3 / 4))))
  norm_num at b1
  refine ⟨?_, ?_⟩
  · intro t ht
    obtain rfl | rfl : t = 0 ∨ t = 1 := by omega
    · exact p0
    · rw [e1]; exact p1
  · show bayesStep _ _ (exactFilter _ _ coin 1) = _
    rw [e1]; exact b1

end Toss

open Toss

/-- `C76_particleFilter` on the fixture, resampling at every update: the proposal throws a fair
coin, the system a biased one, and after two readings `true` the estimates tend to 9/10. -/
example : ∃ f : Nat → (Nat ⊕ Nat × Nat → ℝ × Bool × ℝ) → ParticleFilter Bool Bool ℝ,
    ∀ ε : ℝ, 0 < ε → Likely triples fun N ω => ∃ f' est,
      ParticleFilter.run (ParticleFilter.update false kthRoot)
        [(inputs fun i => ω (.inr (0, i)), ⟨some sys, true, some meas, true, true⟩),
          (inputs fun i => ω (.inr (1, i)), ⟨some sys, true, some meas, true, true⟩)] (f N ω) =
        .ok (true, f') ∧
      Holds f'.postGet est ∧ |averageOver heads est - 9 / 10| < ε := by
  obtain ⟨prior, f, h1, h2⟩ := filters_triples (some prop) (period := 1) (threshold := fun _ => 0)
    (by norm_num)
  refine ⟨f, fun ε hε => ?_⟩
  have hi := integral_dist (odds_nonneg (p := 9 / 10) (by norm_num) (by norm_num)) heads
  have h := C76_particleFilter (MV := Bool) (dflt := false) draws_triples
    (q := prop) (c := fun _ => ⟨some sys, true, some meas, true, true⟩) (κ := fun _ => Toss.κ)
    (ℓ := fun _ y => ENNReal.ofReal (lik true y)) (T := 2)
    (fun t _ => UpdatesBy.full (draw := fun r _ => r) (base := Measure.count) sys_isTransition
      prop_isProposal meas_isLikelihood (by simp [WithSensor, meas]) (fun _ _ _ => rfl)
      measurable_fst Measurable.of_discrete Measurable.of_discrete Measurable.of_discrete
      (fun _ => Measure.map_id) (fun _ => rfl) (fun _ _ _ _ => by norm_num))
    exact_thrown.1 h1 h2 (φ := heads) Measurable.of_discrete
    (by rw [exact_thrown.2]; exact hi.1) hε
  rw [exact_thrown.2, hi.2] at h
  have e : odds (9 / 10) true * heads true + odds (9 / 10) false * heads false = 9 / 10 := by
    norm_num [odds, heads]
  rw [e] at h
  exact h

/-- `C76_bootstrap` on the fixture, resampling whenever the effective sample size is below `N + 1`,
that is after every measurement: a state that stays is read twice. -/
example : ∃ f : Nat → (Nat ⊕ Nat × Nat → ℝ × Bool × ℝ) → ParticleFilter Bool Bool ℝ,
    ∀ ε : ℝ, 0 < ε → Likely triples fun N ω => ∃ f' est,
      ParticleFilter.run (ParticleFilter.bootUpdate false kthRoot)
        [(inputs fun i => ω (.inr (0, i)), ⟨none, true, some meas, true, true⟩),
          (inputs fun i => ω (.inr (1, i)), ⟨none, true, some meas, true, true⟩)] (f N ω) =
        .ok (true, f') ∧
      Holds f'.postGet est ∧ |averageOver heads est - 9 / 10| < ε := by
  obtain ⟨prior, f, h1, h2⟩ := filters_triples none (period := 0)
    (threshold := fun N => (N : ℝ) + 1) (fun N => by
      have : (N : ℝ) + 1 ≠ 0 := by positivity
      simp [this])
  refine ⟨f, fun ε hε => ?_⟩
  have hi := integral_dist (odds_nonneg (p := 9 / 10) (by norm_num) (by norm_num)) heads
  have h := C76_bootstrap (MV := Bool) (dflt := false) draws_triples
    (c := fun _ => ⟨none, true, some meas, true, true⟩) (κ := fun _ => Kernel.id)
    (ℓ := fun _ y => ENNReal.ofReal (lik true y)) (T := 2)
    (fun t _ => BootUpdatesBy.measurement true true true meas_isLikelihood Measurable.of_discrete)
    exact_kept.1 h1 h2 (φ := heads) Measurable.of_discrete
    (by rw [exact_kept.2]; exact hi.1) hε
  rw [exact_kept.2, hi.2] at h
  have e : odds (9 / 10) true * heads true + odds (9 / 10) false * heads false = 9 / 10 := by
    norm_num [odds, heads]
  rw [e] at h
  exact h

end BFL.Props
