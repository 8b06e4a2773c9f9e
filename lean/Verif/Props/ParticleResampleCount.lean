import Verif.Lemmas.ParticleResampleBound
import Verif.Props.ParticleResamplingToss
import Verif.Props.ParticleCount

/-!
# C101: how many particles are enough if the filter resamples

C76 says that the estimates converge. Here the error for a given number `N` of particles is bounded.
-/

set_option linter.unusedSectionVars false

namespace BFL.Props

open MeasureTheory ProbabilityTheory Filter Spec MCPdf ParticleFilter
open scoped ENNReal Topology

variable {R X MV Ω : Type} [MeasurableSpace X] [MeasurableSpace R] [MeasurableSpace Ω]
  {dflt : X} {period : Nat} {threshold : ℝ} {P : Measure Ω} [IsProbabilityMeasure P]
  {x : Nat → Ω → X} {ρ : Nat → Nat → Ω → ℝ × R × ℝ} {μ : Measure X} {ν : Nat → Measure R}

/-- **C101, particle filter with any proposal.** Let the weight factors of update `t` be at most `B t`, and let
resampling keep the weights even up to a factor `s`. If `N` particles are drawn independently from the prior, then the
probability that an update fails or that the estimate of the mean of `φ`, a function between -1 and 1, is wrong by `ε`
or more is at most `k² (1/ε² + 1) / N`, where the constant `k` depends on the number of updates, on `s` and on the
ratios of `B t` to the probability (density) of the measurement `t`, but not on `N`. -/
theorem C101_particleFilter [∀ t, IsProbabilityMeasure (ν t)]
    (h : IndependentDraws P x ρ μ fun t => Spec.uniform.prod ((ν t).prod Spec.uniform))
    {q : Proposal R X ℝ} {c : Nat → UpdateCall R X MV ℝ} {κ : Nat → Kernel X X}
    {ℓ : Nat → X → ℝ≥0∞} {B : Nat → ℝ} {T : Nat} (hc : ∀ t < T, UpdatesBy q (c t) (ν t) (κ t) (ℓ t))
    (hB : ∀ t < T, 0 < B t ∧ FactorsBelow q (c t) (B t)) (hp : Possible κ ℓ μ T)
    {N : Nat} (hN : 0 < N) {s : ℝ} (hs : 1 ≤ s)
    (heven : KeepsEven period threshold (fun t => (c t).sys.isSome = true)
      (fun t => (c t).meas.isSome = true) T N s)
    {prior : Ω → MCPdf ℝ X} {f : Ω → ParticleFilter R X ℝ}
    (hprior : ∀ ω, Holds (prior ω) ((List.range N).map fun i => (x i ω, 1 / (N : ℝ))))
    (hf : ∀ ω, ParticleFilter.make dflt (prior ω) (some q) period threshold .multinomial = .ok (f ω))
    {φ : X → ℝ} (hφ : Measurable φ) (hb : ∀ y, |φ y| ≤ 1) {ε : ℝ} (hε : 0 < ε) :
    P {ω | ¬ ∃ f' est, ParticleFilter.run (ParticleFilter.update dflt kthRoot)
          ((List.range T).map fun t => (inputs fun i => ρ t i ω, c t)) (f ω) = .ok (true, f') ∧
        Holds f'.postGet est ∧ |averageOver φ est - ∫ y, φ y ∂(exactFilter κ ℓ μ T)| < ε} ≤
      ENNReal.ofReal (errorConstant
        (fun t => B t / (evidenceOf (κ t) (ℓ t) (exactFilter κ ℓ μ t)).toReal) s T ^ 2 * (1 / ε ^ 2 + 1) / N) := by
  simp only [uniform_eq] at h
  refine bounded_resampling h (good := fun f => f.proposal = some q) (fun t ht => (hB t ht).1)
    (fun t htT => ?_) hp hN hs heven hprior hf (fun _ hg => hg) hφ hb hε
  have hct := hc t htT
  obtain ⟨hB0, hBt⟩ := hB t htT
  generalize c t = ct at hct hBt
  generalize ν t = νt at hct
  generalize κ t = κt at hct
  generalize ℓ t = ℓt at hct
  cases hct with
  | full hm hq hl hs hd md mT mQ mL hpr hsy hsu =>
    refine ⟨_, _, stepLaw_full (fun _ => hl.nonneg _ _ _)
      (fun _ _ => by obtain ⟨p, _, hp⟩ := hm; exact (hp _ _ _).1)
      (fun _ _ => (hq.density _ _ _).1) mL mT mQ md hpr hsy hsu,
      runs_full isRoot_kthRoot hm hq hl hs hd _ _, fun a b => ?_⟩
    have := hBt _ _ _ hm hq hl a b
    unfold importance
    split
    · exact hB0.le
    · rename_i hne
      rw [← mul_div_assoc, div_le_iff₀ (lt_of_le_of_ne (hq.density a _ b).1 (Ne.symm hne))]
      exact this
  | measurement u s z hl mL =>
    exact ⟨_, _, stepLaw_measurement (fun _ => hl.nonneg _ _ _) mL _,
      runs_measurement isRoot_kthRoot hl u s z q, fun _ b => hBt _ hl b⟩
  | system s z hm hq hd md hpr hsy =>
    exact ⟨_, _, stepLaw_boot (L := fun _ => 1) (fun _ => zero_le_one) measurable_const
      (fun _ => by simp) md (fun x => (hsy x).trans (hpr x).symm),
      runs_system isRoot_kthRoot hm hq hd s z, fun _ _ => hBt⟩

/-- **C101, bootstrap filter.** The same bound, with likelihoods of at most `B t`. -/
theorem C101_bootstrap [∀ t, IsProbabilityMeasure (ν t)]
    (h : IndependentDraws P x ρ μ fun t => Spec.uniform.prod ((ν t).prod Spec.uniform))
    {c : Nat → UpdateCall R X MV ℝ} {κ : Nat → Kernel X X} {ℓ : Nat → X → ℝ≥0∞} {B : Nat → ℝ} {T : Nat}
    (hc : ∀ t < T, BootUpdatesBy (c t) (ν t) (κ t) (ℓ t))
    (hB : ∀ t < T, 0 < B t ∧ ∀ y, ℓ t y ≤ ENNReal.ofReal (B t)) (hp : Possible κ ℓ μ T)
    {N : Nat} (hN : 0 < N) {s : ℝ} (hs : 1 ≤ s)
    (heven : KeepsEven period threshold (fun t => (c t).sys.isSome = true)
      (fun t => (c t).meas.isSome = true) T N s)
    {prior : Ω → MCPdf ℝ X} {f : Ω → ParticleFilter R X ℝ}
    (hprior : ∀ ω, Holds (prior ω) ((List.range N).map fun i => (x i ω, 1 / (N : ℝ))))
    (hf : ∀ ω, ParticleFilter.make dflt (prior ω) none period threshold .multinomial = .ok (f ω))
    {φ : X → ℝ} (hφ : Measurable φ) (hb : ∀ y, |φ y| ≤ 1) {ε : ℝ} (hε : 0 < ε) :
    P {ω | ¬ ∃ f' est, ParticleFilter.run (ParticleFilter.bootUpdate dflt kthRoot)
          ((List.range T).map fun t => (inputs fun i => ρ t i ω, c t)) (f ω) = .ok (true, f') ∧
        Holds f'.postGet est ∧ |averageOver φ est - ∫ y, φ y ∂(exactFilter κ ℓ μ T)| < ε} ≤
      ENNReal.ofReal (errorConstant
        (fun t => B t / (evidenceOf (κ t) (ℓ t) (exactFilter κ ℓ μ t)).toReal) s T ^ 2 * (1 / ε ^ 2 + 1) / N) := by
  simp only [uniform_eq] at h
  refine bounded_resampling h (good := fun _ => True) (fun t ht => (hB t ht).1)
    (fun t htT => ?_) hp hN hs heven hprior hf (fun _ _ => trivial) hφ hb hε
  have hct := hc t htT
  obtain ⟨hB0, hBt⟩ := hB t htT
  generalize c t = ct at hct
  generalize ν t = νt at hct
  generalize κ t = κt at hct
  generalize ℓ t = ℓt at hct hBt
  cases hct with
  | full hm hl hto hd md mL hsy =>
    exact ⟨_, _, stepLaw_boot (fun _ => hl.nonneg _ _ _) mL (fun _ => rfl) md hsy,
      runs_boot_full isRoot_kthRoot hm hto hd hl _ _,
      fun _ b => (ENNReal.ofReal_le_ofReal_iff hB0.le).1 (hBt b)⟩
  | measurement u s z hl mL =>
    exact ⟨_, _, stepLaw_measurement (fun _ => hl.nonneg _ _ _) mL _,
      runs_boot_measurement isRoot_kthRoot hl u s z,
      fun _ b => (ENNReal.ofReal_le_ofReal_iff hB0.le).1 (hBt b)⟩
  | system s z hm hto hd md hsy =>
    refine ⟨_, _, stepLaw_boot (L := fun _ => 1) (fun _ => zero_le_one) measurable_const
      (fun _ => by simp) md hsy, runs_boot_system isRoot_kthRoot hm hto hd s z, fun a b => ?_⟩
    have := hBt a
    rwa [← ENNReal.ofReal_one, ENNReal.ofReal_le_ofReal_iff hB0.le] at this

/-! ### Examples: the coins of C76 -/

open Toss

namespace Toss

theorem heads_le (y : Bool) : |heads y| ≤ 1 := by unfold heads; cases y <;> norm_num

theorem evidence_odds {p : ℝ} (h0 : 0 ≤ p) (h1 : p ≤ 1) {κ : Kernel Bool Bool} {π : Measure Bool}
    (hπ : π.bind κ = dist (odds p)) :
    (evidenceOf κ (fun y => ENNReal.ofReal (lik true y)) π).toReal = (1 + 2 * p) / 4 := by
  rw [(bayes_step (odds_nonneg h0 h1) (by simp [odds]) hπ).1]
  have e : odds p true * (3 / 4) + odds p false * (1 / 4) = (1 + 2 * p) / 4 := by
    simp only [odds, if_true, Bool.false_eq_true, if_false]; ring
  rw [e, ENNReal.toReal_ofReal (by positivity)]

theorem bind_tr {p : ℝ} (h0 : 0 ≤ p) (h1 : p ≤ 1) : (dist (odds p)).bind Toss.κ = dist (odds (3 / 4)) := by
  have : (⇑Toss.κ : Bool → Measure Bool) = fun _ => dist tr := by
    funext b; exact Kernel.const_apply _ _
  have hu : dist (odds p) Set.univ = 1 := by
    have := lintegral_dist (odds p) fun _ => 1
    rw [lintegral_one] at this
    rw [this, mul_one, mul_one, ← ENNReal.ofReal_add (odds_nonneg h0 h1 _) (odds_nonneg h0 h1 _)]
    simp [odds]
  rw [this, Measure.bind_const, hu, one_smul, tr_eq]

end Toss

/-- The particle filter of C76 with the fair-coin proposal, resampling at every update: after two readings with
10⁸ particles, an error of a tenth or more has a probability of less than 0.3 per cent. -/
example : ∃ f : (Nat ⊕ Nat × Nat → ℝ × Bool × ℝ) → ParticleFilter Bool Bool ℝ,
    triples {ω | ¬ ∃ f' est, ParticleFilter.run (ParticleFilter.update false kthRoot)
        [(inputs fun i => ω (.inr (0, i)), ⟨some sys, true, some meas, true, true⟩),
          (inputs fun i => ω (.inr (1, i)), ⟨some sys, true, some meas, true, true⟩)] (f ω) =
        .ok (true, f') ∧
      Holds f'.postGet est ∧ |averageOver heads est - 9 / 10| < 1 / 10} ≤ ENNReal.ofReal (3 / 1000) := by
  obtain ⟨prior, f, h1, h2⟩ := filters_triples (some prop) (period := 1) (threshold := fun _ => 0)
    (by norm_num)
  refine ⟨f (10 ^ 8), ?_⟩
  have hi := integral_dist (odds_nonneg (p := 9 / 10) (by norm_num) (by norm_num)) heads
  have h := C101_particleFilter (MV := Bool) (dflt := false) draws_triples
    (q := prop) (c := fun _ => ⟨some sys, true, some meas, true, true⟩) (κ := fun _ => Toss.κ)
    (ℓ := fun _ y => ENNReal.ofReal (lik true y)) (B := fun _ => 9 / 8) (T := 2)
    (fun t _ => UpdatesBy.full (draw := fun r _ => r) (base := Measure.count) sys_isTransition
      prop_isProposal meas_isLikelihood (by simp [WithSensor, meas]) (fun _ _ _ => rfl)
      measurable_fst Measurable.of_discrete Measurable.of_discrete Measurable.of_discrete
      (fun _ => Measure.map_id) (fun _ => rfl) (fun _ _ _ _ => by norm_num))
    (fun t _ => ⟨by norm_num, Toss.factors _ rfl⟩) exact_thrown.1 (N := 10 ^ 8) (by norm_num) (s := 1) le_rfl
    (Or.inl ⟨rfl, fun _ _ => rfl⟩) (fun ω => h1 _ ω (by norm_num)) (fun ω => h2 _ ω (by norm_num))
    (φ := heads) Measurable.of_discrete heads_le (ε := 1 / 10) (by norm_num)
  have e0 : (evidenceOf Toss.κ (fun y => ENNReal.ofReal (lik true y)) (exactFilter (fun _ => Toss.κ)
      (fun _ y => ENNReal.ofReal (lik true y)) coin 0)).toReal = 5 / 8 := by
    show (evidenceOf Toss.κ _ coin).toReal = _
    rw [evidence_odds (p := 3 / 4) (by norm_num) (by norm_num)
      (by rw [coin_eq]; exact bind_tr (by norm_num) (by norm_num))]
    norm_num
  have e1 : (evidenceOf Toss.κ (fun y => ENNReal.ofReal (lik true y)) (exactFilter (fun _ => Toss.κ)
      (fun _ y => ENNReal.ofReal (lik true y)) coin 1)).toReal = 5 / 8 := by
    show (evidenceOf Toss.κ _ (bayesStep Toss.κ _ coin)).toReal = _
    rw [(bayes_odds (p := 3 / 4) (by norm_num) (by norm_num)
      (by rw [coin_eq]; exact bind_tr (by norm_num) (by norm_num))).2,
      evidence_odds (p := 3 / 4) (by norm_num) (by norm_num) (bind_tr (by norm_num) (by norm_num))]
    norm_num
  rw [exact_thrown.2, hi.2] at h
  have e : odds (9 / 10) true * heads true + odds (9 / 10) false * heads false = 9 / 10 := by
    norm_num [odds, heads]
  rw [e] at h
  refine le_trans h (ENNReal.ofReal_le_ofReal ?_)
  simp only [errorConstant, e0, e1, Real.sqrt_one]
  norm_num

/-- The bootstrap filter of C76 for a state that stays and is read twice, resampling if the effective number of
particles is less than a quarter of their number. -/
example : ∃ f : (Nat ⊕ Nat × Nat → ℝ × Bool × ℝ) → ParticleFilter Bool Bool ℝ,
    triples {ω | ¬ ∃ f' est, ParticleFilter.run (ParticleFilter.bootUpdate false kthRoot)
        [(inputs fun i => ω (.inr (0, i)), ⟨none, true, some meas, true, true⟩),
          (inputs fun i => ω (.inr (1, i)), ⟨none, true, some meas, true, true⟩)] (f ω) =
        .ok (true, f') ∧
      Holds f'.postGet est ∧ |averageOver heads est - 9 / 10| < 1 / 10} ≤ ENNReal.ofReal (2 / 1000) := by
  obtain ⟨prior, f, h1, h2⟩ := filters_triples none (period := 0)
    (threshold := fun N => ((N : ℝ) + 1) / 4) (fun N => by
      have : ((N : ℝ) + 1) / 4 ≠ 0 := by positivity
      simp [this])
  refine ⟨f (10 ^ 8), ?_⟩
  have hi := integral_dist (odds_nonneg (p := 9 / 10) (by norm_num) (by norm_num)) heads
  have h := C101_bootstrap (MV := Bool) (dflt := false) draws_triples
    (c := fun _ => ⟨none, true, some meas, true, true⟩) (κ := fun _ => Kernel.id)
    (ℓ := fun _ y => ENNReal.ofReal (lik true y)) (B := fun _ => 3 / 4) (T := 2)
    (fun t _ => BootUpdatesBy.measurement true true true meas_isLikelihood Measurable.of_discrete)
    (fun t _ => ⟨by norm_num, fun y => ENNReal.ofReal_le_ofReal (Toss.lik_le true y)⟩)
    exact_kept.1 (N := 10 ^ 8) (by norm_num) (s := 4) (by norm_num)
    (Or.inr ⟨by norm_num, fun _ _ => rfl⟩) (fun ω => h1 _ ω (by norm_num)) (fun ω => h2 _ ω (by norm_num))
    (φ := heads) Measurable.of_discrete heads_le (ε := 1 / 10) (by norm_num)
  have e0 : (evidenceOf Kernel.id (fun y => ENNReal.ofReal (lik true y)) (exactFilter (fun _ => Kernel.id)
      (fun _ y => ENNReal.ofReal (lik true y)) coin 0)).toReal = 1 / 2 := by
    show (evidenceOf Kernel.id _ coin).toReal = _
    rw [evidence_odds (p := 1 / 2) (by norm_num) (by norm_num)
      (by rw [coin_eq]; exact Measure.id_comp)]
    norm_num
  have e1 : (evidenceOf Kernel.id (fun y => ENNReal.ofReal (lik true y)) (exactFilter (fun _ => Kernel.id)
      (fun _ y => ENNReal.ofReal (lik true y)) coin 1)).toReal = 5 / 8 := by
    show (evidenceOf Kernel.id _ (bayesStep Kernel.id _ coin)).toReal = _
    rw [(bayes_odds (p := 1 / 2) (by norm_num) (by norm_num)
      (by rw [coin_eq]; exact Measure.id_comp)).2,
      evidence_odds (p := 3 / 4) (by norm_num) (by norm_num) (by
        have : (3 * (1 / 2) / (1 + 2 * (1 / 2)) : ℝ) = 3 / 4 := by norm_num
        rw [this]; exact Measure.id_comp)]
    norm_num
  rw [exact_kept.2, hi.2] at h
  have e : odds (9 / 10) true * heads true + odds (9 / 10) false * heads false = 9 / 10 := by
    norm_num [odds, heads]
  rw [e] at h
  refine le_trans h (ENNReal.ofReal_le_ofReal ?_)
  have hs4 : √(4 : ℝ) = 2 := by
    rw [show (4 : ℝ) = 2 ^ 2 by norm_num, Real.sqrt_sq (by norm_num)]
  simp only [errorConstant, e0, e1, hs4]
  norm_num

end BFL.Props
