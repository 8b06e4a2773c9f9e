import Verif.Lemmas.ParticleCount
import Verif.Props.ParticleToss

/-!
# C100: how many particles are enough

C75 says that the estimates converge. Here the error for a given number `N` of particles is bounded.
-/

set_option linter.unusedSectionVars false

namespace BFL.Props

open MeasureTheory ProbabilityTheory Filter Spec MCPdf ParticleFilter
open scoped ENNReal Topology

variable {R X MV Ω : Type} [MeasurableSpace X] [MeasurableSpace R] [MeasurableSpace Ω]
  {dflt : X} {root : Nat → ℝ → ℝ} {period : Nat} {threshold : ℝ}
  {P : Measure Ω} [IsProbabilityMeasure P] {x : Nat → Ω → X} {r : Nat → Nat → Ω → R}
  {μ : Measure X} {ν : Nat → Measure R}

/-- The weight factors of an update are at most `B`: likelihood times transition density is at most `B` times the
density of the proposal. -/
def FactorsBelow (q : Proposal R X ℝ) (c : UpdateCall R X MV ℝ) (B : ℝ) : Prop :=
  match c.sys, c.meas with
  | some m, some mm => ∀ Tr Q L, IsTransition m Tr → IsProposal q m Q → IsLikelihood mm L →
      ∀ x y, L c.z y c.s * Tr x c.u y ≤ B * Q x c.u y
  | none, some mm => ∀ L, IsLikelihood mm L → ∀ y, L c.z y c.s ≤ B
  | _, none => 1 ≤ B

theorem close_of_steps (h : IndependentDraws P x r μ ν)
    {step : Noise R ℝ → UpdateCall R X MV ℝ → ParticleFilter R X ℝ →
      Outcome (Bool × ParticleFilter R X ℝ)} {good : ParticleFilter R X ℝ → Prop}
    {c : Nat → UpdateCall R X MV ℝ} {κ : Nat → Kernel X X} {ℓ : Nat → X → ℝ≥0∞} {B : Nat → ℝ} {T : Nat}
    (hc : ∀ t < T, ∃ mv G, StepLaw mv G (ν t) (κ t) (ℓ t) ∧
      StepOK step period threshold good (c t) mv G ∧ ∀ a b, G a b ≤ B t)
    (hp : Possible κ ℓ μ T) {us vs : Nat → Nat → ℝ} (hus : ∀ t, Uniforms (us t))
    (hvs : ∀ t, Uniforms (vs t)) (hper : period = 0 ∨ T ≤ period)
    {N : Nat} (hN : 0 < N) {prior : Ω → MCPdf ℝ X} {f : Ω → ParticleFilter R X ℝ}
    {q : Option (Proposal R X ℝ)}
    (hprior : ∀ ω, Holds (prior ω) ((List.range N).map fun i => (x i ω, 1 / (N : ℝ))))
    (hf : ∀ ω, ParticleFilter.make dflt (prior ω) q period threshold .multinomial =
      .ok (f ω)) (hgood : ∀ g : ParticleFilter R X ℝ, g.proposal = q → good g)
    {φ : X → ℝ} (hφ : Measurable φ) (h2 : MemLp φ 2 (exactFilter κ ℓ μ T)) {ε : ℝ} (hε : 0 < ε) :
    P {ω | ¬ ∃ f' est, ParticleFilter.run step
          ((List.range T).map fun t => (⟨fun i => r t i ω, us t, vs t⟩, c t)) (f ω) = .ok (true, f') ∧
        Holds f'.postGet est ∧ |averageOver φ est - ∫ y, φ y ∂(exactFilter κ ℓ μ T)| < ε} ≤
      ENNReal.ofReal (2 * ((∏ t ∈ Finset.range T, B t) / (probabilityOf κ ℓ μ T).toReal) *
        (Var[φ; exactFilter κ ℓ μ T] / ε ^ 2 + 1) / N) := by
  have hν : ∀ t, SFinite (ν t) := by
    intro t
    rw [← h.law_r t 0]
    infer_instance
  have hall : ∀ t, ∃ (mv : R → X → X) (G : X → X → ℝ), (Measurable fun p : R × X => mv p.1 p.2) ∧
      (Measurable fun p : X × X => G p.1 p.2) ∧ (∀ a b, 0 ≤ G a b) ∧
      (t < T → StepLaw mv G (ν t) (κ t) (ℓ t) ∧
        StepOK step period threshold good (c t) mv G ∧ ∀ a b, G a b ≤ B t) := by
    intro t
    by_cases ht : t < T
    · obtain ⟨mv, G, h1, h2⟩ := hc t ht
      exact ⟨mv, G, h1.hmv, h1.hG, h1.nonneg, fun _ => ⟨h1, h2⟩⟩
    · exact ⟨fun _ a => a, fun _ _ => 1, measurable_snd, measurable_const,
        fun _ _ => zero_le_one, fun ht' => absurd ht' ht⟩
  choose mv G hmv hG hG0 hstep using hall
  refine le_trans (measure_mono ?_) (traj_close h hmv hG hG0 (T := T) (κ := κ) (ℓ := ℓ)
    (fun t ht => (hstep t ht).1.hℓ) (fun t ht => (hstep t ht).1.law) hp (fun t ht => (hstep t ht).2.2) hφ h2 hε hN)
  intro ω hω hgoodω
  refine hω ?_
  obtain ⟨hpos, hclose⟩ := hgoodω
  have e0 : (List.range N).map (fun i => (x i ω, 1 / (N : ℝ))) =
      cloudAt (fun i => (x i ω, 1)) N := by
    simp [cloudAt]
  have hn0 : Normalised ((List.range N).map fun i => (x i ω, 1 / (N : ℝ))) := by
    have hN' : (N : ℝ) ≠ 0 := by exact_mod_cast hN.ne'
    refine ⟨?_, ?_⟩
    · intro w hw
      simp only [List.map_map, List.mem_map, Function.comp] at hw
      obtain ⟨_, _, rfl⟩ := hw
      positivity
    · simp [List.map_map, Function.comp_def, hN']
  obtain ⟨k1, k2, _⟩ := pfMake_ready (hprior ω) hn0 (hf ω)
  rw [e0] at k1
  obtain ⟨f', n', l1, _, _, l4⟩ := run_ok (noise := fun t => ⟨fun i => r t i ω, us t, vs t⟩)
    hG0 (fun t ht => (hstep t ht).2.1) (fun t => ⟨hus t, hvs t⟩) hper k1 (hgood _ k2) hpos T le_rfl
  refine ⟨f', _, l1, l4.live.samples, ?_⟩
  rw [average_cloudAt]
  exact hclose

/-- **C100, particle filter with any proposal.** Let the weight factors of update `t` be at most `B t`, let `p` be the
probability (density) of all measurements together and `V` the exact posterior variance of `φ`. If `N` particles are
drawn independently from the prior and the filter does not resample, then the probability that an update fails or that
the estimate of the mean of `φ` is wrong by `ε` or more is at most `2 (∏ B t / p) (V / ε² + 1) / N`. -/
theorem C100_particleFilter (hroot : IsRoot root) (h : IndependentDraws P x r μ ν)
    {q : Proposal R X ℝ} {c : Nat → UpdateCall R X MV ℝ} {κ : Nat → Kernel X X}
    {ℓ : Nat → X → ℝ≥0∞} {B : Nat → ℝ} {T : Nat} (hc : ∀ t < T, UpdatesBy q (c t) (ν t) (κ t) (ℓ t))
    (hB : ∀ t < T, 0 ≤ B t ∧ FactorsBelow q (c t) (B t))
    (hp : Possible κ ℓ μ T) {us vs : Nat → Nat → ℝ} (hus : ∀ t, Uniforms (us t))
    (hvs : ∀ t, Uniforms (vs t)) (ht : threshold ≤ 1) (hper : period = 0 ∨ T ≤ period)
    {N : Nat} (hN : 0 < N) {prior : Ω → MCPdf ℝ X} {f : Ω → ParticleFilter R X ℝ}
    (hprior : ∀ ω, Holds (prior ω) ((List.range N).map fun i => (x i ω, 1 / (N : ℝ))))
    (hf : ∀ ω, ParticleFilter.make dflt (prior ω) (some q) period threshold .multinomial = .ok (f ω))
    {φ : X → ℝ} (hφ : Measurable φ) (h2 : MemLp φ 2 (exactFilter κ ℓ μ T)) {ε : ℝ} (hε : 0 < ε) :
    P {ω | ¬ ∃ f' est, ParticleFilter.run (ParticleFilter.update dflt root)
          ((List.range T).map fun t => (⟨fun i => r t i ω, us t, vs t⟩, c t)) (f ω) = .ok (true, f') ∧
        Holds f'.postGet est ∧ |averageOver φ est - ∫ y, φ y ∂(exactFilter κ ℓ μ T)| < ε} ≤
      ENNReal.ofReal (2 * ((∏ t ∈ Finset.range T, B t) / (probabilityOf κ ℓ μ T).toReal) *
        (Var[φ; exactFilter κ ℓ μ T] / ε ^ 2 + 1) / N) := by
  refine close_of_steps h (good := fun f => f.proposal = some q) (fun t htT => ?_) hp hus hvs
    hper hN hprior hf (fun _ hg => hg) hφ h2 hε
  have hct := hc t htT
  obtain ⟨hB0, hBt⟩ := hB t htT
  generalize c t = ct at hct hBt
  generalize hν : ν t = νt at hct
  generalize κ t = κt at hct
  generalize ℓ t = ℓt at hct
  cases hct with
  | full hm hq hl hs hd md mT mQ mL hpr hsy hsu =>
    refine ⟨_, _, stepLaw_full (fun _ => hl.nonneg _ _ _)
      (fun _ _ => by obtain ⟨p, _, hp⟩ := hm; exact (hp _ _ _).1)
      (fun _ _ => (hq.density _ _ _).1) mL mT mQ md hpr hsy hsu,
      pf_full hroot ht hm hq hl hs hd _ _, fun a b => ?_⟩
    have := hBt _ _ _ hm hq hl a b
    unfold importance
    split
    · exact hB0
    · rename_i hne
      rw [← mul_div_assoc, div_le_iff₀ (lt_of_le_of_ne (hq.density a _ b).1 (Ne.symm hne))]
      exact this
  | measurement u s z hl mL =>
    exact ⟨_, _, stepLaw_measurement (fun _ => hl.nonneg _ _ _) mL _,
      pf_measurement hroot ht hl u s z q, fun _ b => hBt _ hl b⟩
  | system s z hm hq hd md hpr hsy =>
    exact ⟨_, _, stepLaw_boot (L := fun _ => 1) (fun _ => zero_le_one) measurable_const
      (fun _ => by simp) md (fun x => (hsy x).trans (hpr x).symm),
      pf_system hroot hm hq hd s z, fun _ _ => hBt⟩

/-- **C100, bootstrap filter.** The same bound, with likelihoods of at most `B t`. -/
theorem C100_bootstrap (hroot : IsRoot root) (h : IndependentDraws P x r μ ν)
    {c : Nat → UpdateCall R X MV ℝ} {κ : Nat → Kernel X X} {ℓ : Nat → X → ℝ≥0∞} {B : Nat → ℝ} {T : Nat}
    (hc : ∀ t < T, BootUpdatesBy (c t) (ν t) (κ t) (ℓ t))
    (hB : ∀ t < T, 0 ≤ B t ∧ ∀ y, ℓ t y ≤ ENNReal.ofReal (B t))
    (hp : Possible κ ℓ μ T) {us vs : Nat → Nat → ℝ} (hus : ∀ t, Uniforms (us t))
    (hvs : ∀ t, Uniforms (vs t)) (ht : threshold ≤ 1) (hper : period = 0 ∨ T ≤ period)
    {N : Nat} (hN : 0 < N) {prior : Ω → MCPdf ℝ X} {f : Ω → ParticleFilter R X ℝ}
    (hprior : ∀ ω, Holds (prior ω) ((List.range N).map fun i => (x i ω, 1 / (N : ℝ))))
    (hf : ∀ ω, ParticleFilter.make dflt (prior ω) none period threshold .multinomial = .ok (f ω))
    {φ : X → ℝ} (hφ : Measurable φ) (h2 : MemLp φ 2 (exactFilter κ ℓ μ T)) {ε : ℝ} (hε : 0 < ε) :
    P {ω | ¬ ∃ f' est, ParticleFilter.run (ParticleFilter.bootUpdate dflt root)
          ((List.range T).map fun t => (⟨fun i => r t i ω, us t, vs t⟩, c t)) (f ω) = .ok (true, f') ∧
        Holds f'.postGet est ∧ |averageOver φ est - ∫ y, φ y ∂(exactFilter κ ℓ μ T)| < ε} ≤
      ENNReal.ofReal (2 * ((∏ t ∈ Finset.range T, B t) / (probabilityOf κ ℓ μ T).toReal) *
        (Var[φ; exactFilter κ ℓ μ T] / ε ^ 2 + 1) / N) := by
  refine close_of_steps h (good := fun _ => True) (fun t htT => ?_) hp hus hvs
    hper hN hprior hf (fun _ _ => trivial) hφ h2 hε
  have hct := hc t htT
  obtain ⟨hB0, hBt⟩ := hB t htT
  generalize c t = ct at hct
  generalize ν t = νt at hct
  generalize κ t = κt at hct
  generalize ℓ t = ℓt at hct hBt
  cases hct with
  | full hm hl hto hd md mL hsy =>
    exact ⟨_, _, stepLaw_boot (fun _ => hl.nonneg _ _ _) mL (fun _ => rfl) md hsy,
      boot_full hroot ht hm hto hd hl _ _, fun _ b => (ENNReal.ofReal_le_ofReal_iff hB0).1 (hBt b)⟩
  | measurement u s z hl mL =>
    exact ⟨_, _, stepLaw_measurement (fun _ => hl.nonneg _ _ _) mL _,
      boot_measurement hroot ht hl u s z, fun _ b => (ENNReal.ofReal_le_ofReal_iff hB0).1 (hBt b)⟩
  | system s z hm hto hd md hsy =>
    refine ⟨_, _, stepLaw_boot (L := fun _ => 1) (fun _ => zero_le_one) measurable_const
      (fun _ => by simp) md hsy, boot_system hroot hm hto hd s z, fun a b => ?_⟩
    have := hBt a
    rwa [← ENNReal.ofReal_one, ENNReal.ofReal_le_ofReal_iff hB0] at this

/-! ### Example: the biased coin of C75 -/

open Toss

theorem Toss.lik_le (z y : Bool) : lik z y ≤ 3 / 4 := by unfold lik; split <;> norm_num

/-- The fair-coin system of C75: after the reading `true` the exact probability is 3/4. The estimate of a filter with
10000 particles is wrong by a tenth or more with a probability of less than 0.6 per cent. -/
example : ∃ f : (Nat ⊕ Nat × Nat → Bool) → ParticleFilter Bool Bool ℝ,
    coins {ω | ¬ ∃ f' est, ParticleFilter.run (ParticleFilter.bootUpdate false fun _ y => y)
          [(⟨fun i => ω (.inr (0, i)), fun _ => 1, fun _ => 1⟩,
            ⟨some sys, true, some meas, true, true⟩)]
          (f ω) = .ok (true, f') ∧ Holds f'.postGet est ∧ |averageOver heads est - 3 / 4| < 1 / 10} ≤
      ENNReal.ofReal (6 / 1000) := by
  obtain ⟨prior, f, h1, h2⟩ := filters none
  refine ⟨f 10000, ?_⟩
  have he := exact_one (w := fun _ => 1 / 2) (by norm_num) (by norm_num)
  have hnn : ∀ b, (0 : ℝ) ≤ 1 / 2 * lik true b / (1 / 2 * (3 / 4) + 1 / 2 * (1 / 4)) := by
    intro b; cases b <;> norm_num [lik]
  have hfin : IsProbabilityMeasure (dist fun b => 1 / 2 * lik true b / (1 / 2 * (3 / 4) + 1 / 2 * (1 / 4))) := by
    refine ⟨?_⟩
    have := lintegral_dist (fun b => 1 / 2 * lik true b / (1 / 2 * (3 / 4) + 1 / 2 * (1 / 4))) fun _ => 1
    rw [lintegral_one] at this
    rw [this, mul_one, mul_one, ← ENNReal.ofReal_add (hnn _) (hnn _)]
    norm_num [lik]
  have h := C100_bootstrap (MV := Bool) (dflt := false) (root := fun _ y => y) isRoot_id draws
    (c := fun _ => ⟨some sys, true, some meas, true, true⟩)
    (κ := fun _ => Kernel.const Bool (dist fun _ => 1 / 2))
    (ℓ := fun _ y => ENNReal.ofReal (lik true y)) (B := fun _ => 3 / 4) (T := 1)
    (fun t _ => BootUpdatesBy.full (draw := fun r _ => r) sys_isTransition meas_isLikelihood
      (fun r _ _ _ => ⟨r, rfl⟩) (fun _ _ _ => rfl)
      measurable_fst Measurable.of_discrete (fun _ => Measure.map_id.symm))
    (fun t _ => ⟨by norm_num, fun y => ENNReal.ofReal_le_ofReal (Toss.lik_le true y)⟩)
    he.2 uniforms_one uniforms_one zero_le_one (Or.inr (by norm_num)) (N := 10000) (by norm_num)
    (fun ω => h1 10000 ω (by norm_num)) (fun ω => h2 10000 ω (by norm_num))
    (φ := heads) Measurable.of_discrete
    (by rw [he.1]; exact MemLp.of_discrete) (ε := 1 / 10) (by norm_num)
  have hv : Var[heads; exactFilter (fun _ => Kernel.const Bool (dist fun _ => 1 / 2))
      (fun _ y => ENNReal.ofReal (lik true y)) coin 1] = 3 / 16 := by
    rw [he.1, variance_eq_integral Measurable.of_discrete.aemeasurable, (integral_dist hnn heads).2,
      (integral_dist hnn _).2]
    norm_num [heads, lik]
  have hpr : (probabilityOf (fun _ => Kernel.const Bool (dist fun _ => 1 / 2))
      (fun _ y => ENNReal.ofReal (lik true y)) coin 1).toReal = 1 / 2 := by
    simp only [probabilityOf, Finset.prod_range_one, exactFilter]
    unfold evidenceOf
    rw [bind_const, lintegral_dist, ← ENNReal.ofReal_mul (by norm_num),
      ← ENNReal.ofReal_mul (by norm_num), ← ENNReal.ofReal_add (by norm_num [lik]) (by norm_num [lik]),
      ENNReal.toReal_ofReal (by norm_num [lik])]
    norm_num [lik]
  have hm : ∫ y, heads y ∂(exactFilter (fun _ => Kernel.const Bool (dist fun _ => 1 / 2))
      (fun _ y => ENNReal.ofReal (lik true y)) coin 1) = 3 / 4 := by
    rw [he.1, (integral_dist hnn _).2]
    norm_num [heads, lik]
  rw [hv, hpr, hm] at h
  refine le_trans h (ENNReal.ofReal_le_ofReal ?_)
  norm_num

theorem Toss.factors (c : UpdateCall Bool Bool Bool ℝ) (hc : c = ⟨some sys, true, some meas, true, true⟩) :
    FactorsBelow prop c (9 / 8) := by
  subst hc
  intro Tr Q L hTr hQ hL x y
  have e1 : Tr x true y = tr y := by
    obtain ⟨p, hm, h⟩ := hTr
    obtain ⟨hpdf, _⟩ := make_one hm
    obtain rfl : sysPdf = p := Option.some.inj hpdf
    exact (Outcome.ok.inj (h x true y).2).symm
  have e2 : L true y true = lik true y := by
    obtain ⟨p, hm, h⟩ := hL
    obtain ⟨hpdf, _⟩ := make_one hm
    obtain rfl : measPdf = p := Option.some.inj hpdf
    exact (Outcome.ok.inj (h true y true).2).symm
  have e3 : Q x true y = 1 / 2 := (Outcome.ok.inj (hQ.density x true y).2).symm
  show L true y true * Tr x true y ≤ 9 / 8 * Q x true y
  rw [e1, e2, e3]
  cases y <;> norm_num [tr, lik]

/-- The particle filter of C75 with the fair-coin proposal: weight factors of at most 9/8, and the probability of the
reading is 5/8. -/
example : ∃ f : (Nat ⊕ Nat × Nat → Bool) → ParticleFilter Bool Bool ℝ,
    coins {ω | ¬ ∃ f' est, ParticleFilter.run (ParticleFilter.update false fun _ y => y)
          [(⟨fun i => ω (.inr (0, i)), fun _ => 1, fun _ => 1⟩,
            ⟨some sys, true, some meas, true, true⟩)]
          (f ω) = .ok (true, f') ∧ Holds f'.postGet est ∧ |averageOver heads est - 9 / 10| < 1 / 10} ≤
      ENNReal.ofReal (4 / 1000) := by
  obtain ⟨prior, f, h1, h2⟩ := filters (some prop)
  refine ⟨f 10000, ?_⟩
  have he := exact_one (w := tr) tr_nonneg (by norm_num [tr])
  have hnn : ∀ b, 0 ≤ tr b * lik true b / (tr true * (3 / 4) + tr false * (1 / 4)) := by
    intro b; cases b <;> norm_num [tr, lik]
  have hfin : IsProbabilityMeasure (dist fun b => tr b * lik true b / (tr true * (3 / 4) + tr false * (1 / 4))) := by
    refine ⟨?_⟩
    have := lintegral_dist (fun b => tr b * lik true b / (tr true * (3 / 4) + tr false * (1 / 4))) fun _ => 1
    rw [lintegral_one] at this
    rw [this, mul_one, mul_one, ← ENNReal.ofReal_add (hnn _) (hnn _)]
    norm_num [lik, tr]
  have h := C100_particleFilter (MV := Bool) (dflt := false) (root := fun _ y => y) isRoot_id draws
    (q := prop) (c := fun _ => ⟨some sys, true, some meas, true, true⟩)
    (κ := fun _ => Toss.κ)
    (ℓ := fun _ y => ENNReal.ofReal (lik true y)) (B := fun _ => 9 / 8) (T := 1)
    (fun t _ => UpdatesBy.full (draw := fun r _ => r) (base := Measure.count) sys_isTransition
      prop_isProposal meas_isLikelihood (by simp [WithSensor, meas]) (fun _ _ _ => rfl)
      measurable_fst Measurable.of_discrete Measurable.of_discrete Measurable.of_discrete
      (fun _ => Measure.map_id) (fun _ => rfl) (fun _ _ _ _ => by norm_num))
    (fun t _ => ⟨by norm_num, Toss.factors _ rfl⟩)
    he.2 uniforms_one uniforms_one zero_le_one (Or.inr (by norm_num)) (N := 10000) (by norm_num)
    (fun ω => h1 10000 ω (by norm_num)) (fun ω => h2 10000 ω (by norm_num))
    (φ := heads) Measurable.of_discrete
    (by show MemLp heads 2 (exactFilter (fun _ => Kernel.const Bool (dist tr)) _ coin 1)
        rw [he.1]; exact MemLp.of_discrete) (ε := 1 / 10) (by norm_num)
  have hv : Var[heads; exactFilter (fun _ => Toss.κ)
      (fun _ y => ENNReal.ofReal (lik true y)) coin 1] = 9 / 100 := by
    show Var[heads; exactFilter (fun _ => Kernel.const Bool (dist tr)) _ coin 1] = _
    rw [he.1, variance_eq_integral Measurable.of_discrete.aemeasurable, (integral_dist hnn heads).2,
      (integral_dist hnn _).2]
    norm_num [heads, lik, tr]
  have hpr : (probabilityOf (fun _ => Toss.κ)
      (fun _ y => ENNReal.ofReal (lik true y)) coin 1).toReal = 5 / 8 := by
    simp only [probabilityOf, Finset.prod_range_one, exactFilter]
    unfold evidenceOf
    show (∫⁻ y, ENNReal.ofReal (lik true y) ∂(coin.bind (Kernel.const Bool (dist tr)))).toReal = _
    rw [bind_const, lintegral_dist, ← ENNReal.ofReal_mul (tr_nonneg _),
      ← ENNReal.ofReal_mul (tr_nonneg _), ← ENNReal.ofReal_add (by norm_num [lik, tr]) (by norm_num [lik, tr]),
      ENNReal.toReal_ofReal (by norm_num [lik, tr])]
    norm_num [lik, tr]
  have hm : ∫ y, heads y ∂(exactFilter (fun _ => Toss.κ)
      (fun _ y => ENNReal.ofReal (lik true y)) coin 1) = 9 / 10 := by
    show ∫ y, heads y ∂(exactFilter (fun _ => Kernel.const Bool (dist tr)) _ coin 1) = _
    rw [he.1, (integral_dist hnn _).2]
    norm_num [heads, lik, tr]
  rw [hv, hpr, hm] at h
  refine le_trans h (ENNReal.ofReal_le_ofReal ?_)
  norm_num

end BFL.Props
