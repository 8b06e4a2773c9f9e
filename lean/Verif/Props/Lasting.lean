import Verif.Lemmas.LastingRun
import Verif.Lemmas.LastingStuck
import Verif.Props.RoundedParticle
import Verif.Props.ParticleResampleCount

/-!
# C123: long histories need no more particles if the process forgets
-/

set_option linter.unusedSectionVars false

namespace BFL.Props

open MeasureTheory ProbabilityTheory Filter Spec MCPdf ParticleFilter
open scoped ENNReal Topology

variable {R X MV Ω : Type} [MeasurableSpace X] [MeasurableSpace R] [MeasurableSpace Ω]
  {dflt : X} {period : Nat} {threshold : ℝ} {P : Measure Ω} [IsProbabilityMeasure P]
  {x : Nat → Ω → X} {ρ : Nat → Nat → Ω → ℝ × R × ℝ} {μ : Measure X} {ν : Nat → Measure R}

/-- **C123.** The bound on the error of the bootstrap filter does not depend on the number `T` of updates, if the
process moves alike from all states up to a factor `σ` and the likelihoods of a measurement differ by a factor of at
most `r`. -/
theorem C123_lasting [∀ t, IsProbabilityMeasure (ν t)]
    (h : IndependentDraws P x ρ μ fun t => Spec.uniform.prod ((ν t).prod Spec.uniform))
    {c : Nat → UpdateCall R X MV ℝ} {κ : Nat → Kernel X X} [∀ t, IsMarkovKernel (κ t)] {ℓ : Nat → X → ℝ≥0∞}
    (hc : ∀ t, BootUpdatesBy (c t) (ν t) (κ t) (ℓ t)) {b : Nat → ℝ} {r σ : ℝ} (hr : 1 ≤ r) (hσ : 0 < σ) (hσ1 : σ < 1)
    (hκ : ∀ t, MovesAlike (κ t) σ)
    (hℓ : ∀ t, 0 < b t ∧ ∀ y, ENNReal.ofReal (b t) ≤ ℓ t y ∧ ℓ t y ≤ ENNReal.ofReal (r * b t))
    {N : Nat} (hN : 0 < N) {s : ℝ} (hs : 1 ≤ s) {T : Nat}
    (heven : KeepsEven period threshold (fun t => (c t).sys.isSome = true)
      (fun t => (c t).meas.isSome = true) T N s)
    {prior : Ω → MCPdf ℝ X} {f : Ω → ParticleFilter R X ℝ}
    (hprior : ∀ ω, Holds (prior ω) ((List.range N).map fun i => (x i ω, 1 / (N : ℝ))))
    (hf : ∀ ω, ParticleFilter.make dflt (prior ω) none period threshold .multinomial = .ok (f ω))
    {φ : X → ℝ} (hφ : Measurable φ) (hb : ∀ y, |φ y| ≤ 1) {ε : ℝ} (hε : 0 < ε) :
    P {ω | ¬ ∃ f' est, ParticleFilter.run (ParticleFilter.bootUpdate dflt kthRoot)
          ((List.range T).map fun t => (inputs fun i => ρ t i ω, c t)) (f ω) = .ok (true, f') ∧
        Holds f'.postGet est ∧ |averageOver φ est - ∫ y, φ y ∂(exactFilter κ ℓ μ T)| < ε} ≤
      ENNReal.ofReal (lastingConstant r s σ ^ 2 / (ε ^ 2 * N)) := by
  simp only [uniform_eq] at h
  have hstep : ∀ t, Measurable (ℓ t) ∧ ∃ mv G, StepLaw mv G (ν t) (κ t) (ℓ t) ∧
      StepRuns kthRoot (ParticleFilter.bootUpdate dflt kthRoot) period threshold (fun _ => True) (c t) mv G ∧
        ∀ a y, b t ≤ G a y ∧ G a y ≤ r * b t := by
    intro t
    have hct := hc t
    obtain ⟨hb0, hbt⟩ := hℓ t
    have hrb : 0 ≤ r * b t := by positivity
    generalize c t = ct at hct
    generalize ν t = νt at hct
    generalize κ t = κt at hct
    generalize ℓ t = ℓt at hct hbt
    cases hct with
    | full hm hl hto hd md mL hsy =>
      have sl := stepLaw_boot (fun _ => hl.nonneg _ _ _) mL (fun _ => rfl) md hsy
      exact ⟨sl.hℓ, _, _, sl, runs_boot_full isRoot_kthRoot hm hto hd hl _ _, fun _ y =>
        ⟨(ENNReal.ofReal_le_ofReal_iff (hl.nonneg _ _ _)).1 (hbt y).1, (ENNReal.ofReal_le_ofReal_iff hrb).1 (hbt y).2⟩⟩
    | measurement u s z hl mL =>
      have sl := stepLaw_measurement (fun _ => hl.nonneg _ _ _) mL νt
      exact ⟨sl.hℓ, _, _, sl, runs_boot_measurement isRoot_kthRoot hl u s z, fun _ y =>
        ⟨(ENNReal.ofReal_le_ofReal_iff (hl.nonneg _ _ _)).1 (hbt y).1, (ENNReal.ofReal_le_ofReal_iff hrb).1 (hbt y).2⟩⟩
    | system s z hm hto hd md hsy =>
      refine ⟨measurable_const, _, _, stepLaw_boot (L := fun _ => 1) (fun _ => zero_le_one) measurable_const
        (fun _ => by simp) md hsy, runs_boot_system isRoot_kthRoot hm hto hd s z, fun a y => ?_⟩
      have := hbt a
      rwa [← ENNReal.ofReal_one, ENNReal.ofReal_le_ofReal_iff zero_le_one, ENNReal.ofReal_le_ofReal_iff hrb] at this
  obtain ⟨L, hL⟩ : ∃ L : Nat → X → ℝ, L = fun t y => (ℓ t y).toReal := ⟨_, rfl⟩
  have hfin : ∀ t y, ℓ t y ≠ ∞ := fun t y => ne_top_of_le_ne_top ENNReal.ofReal_ne_top ((hℓ t).2 y).2
  have eℓ : ℓ = fun t y => ENNReal.ofReal (L t y) := by
    funext t y
    rw [hL, ENNReal.ofReal_toReal (hfin t y)]
  have mL : ∀ t, Measurable (L t) := by
    intro t
    rw [hL]
    exact (hstep t).1.ennreal_toReal
  have hLb : ∀ t, 0 < b t ∧ ∀ y, b t ≤ L t y ∧ L t y ≤ r * b t := by
    intro t
    obtain ⟨h0, h1⟩ := hℓ t
    refine ⟨h0, fun y => ?_⟩
    rw [hL]
    exact ⟨(ENNReal.ofReal_le_iff_le_toReal (hfin t y)).1 (h1 y).1,
      ENNReal.toReal_le_of_le_ofReal (by positivity) (h1 y).2⟩
  rw [eℓ] at hstep ⊢
  exact lasting_resampling h (good := fun _ => True) hr hσ hσ1 hκ mL hLb
    (fun t => by
      obtain ⟨_, mv, G, h1, h2, h3⟩ := hstep t
      exact ⟨mv, G, h1, h2, fun a y => ⟨(hLb t).1.trans_le (h3 a y).1, (h3 a y).2⟩⟩) hN hs heven hprior hf
    (fun _ _ => trivial) hφ hb hε

/-- The densities of the system and of the proposal are positive, if a measurement is used with them. -/
def PositiveDensities (q : Proposal R X ℝ) (c : UpdateCall R X MV ℝ) : Prop :=
  match c.sys, c.meas with
  | some m, some _ => ∀ Tr Q, IsTransition m Tr → IsProposal q m Q → ∀ x y, 0 < Tr x c.u y ∧ 0 < Q x c.u y
  | _, _ => True

/-- **C123, particle filter with any proposal.** Here `r` bounds the weight factors of an update, divided by the smallest
likelihood `b t` of its measurement. -/
theorem C123_particleFilter [∀ t, IsProbabilityMeasure (ν t)]
    (h : IndependentDraws P x ρ μ fun t => Spec.uniform.prod ((ν t).prod Spec.uniform))
    {q : Proposal R X ℝ} {c : Nat → UpdateCall R X MV ℝ} {κ : Nat → Kernel X X} [∀ t, IsMarkovKernel (κ t)]
    {ℓ : Nat → X → ℝ≥0∞} (hc : ∀ t, UpdatesBy q (c t) (ν t) (κ t) (ℓ t)) {b B : Nat → ℝ} {r σ : ℝ} (hr : 1 ≤ r)
    (hσ : 0 < σ) (hσ1 : σ < 1) (hκ : ∀ t, MovesAlike (κ t) σ)
    (hℓ : ∀ t, 0 < b t ∧ ∀ y, ENNReal.ofReal (b t) ≤ ℓ t y ∧ ℓ t y ≤ ENNReal.ofReal (B t))
    (hG : ∀ t, PositiveDensities q (c t) ∧ FactorsBelow q (c t) (r * b t))
    {N : Nat} (hN : 0 < N) {s : ℝ} (hs : 1 ≤ s) {T : Nat}
    (heven : KeepsEven period threshold (fun t => (c t).sys.isSome = true)
      (fun t => (c t).meas.isSome = true) T N s)
    {prior : Ω → MCPdf ℝ X} {f : Ω → ParticleFilter R X ℝ}
    (hprior : ∀ ω, Holds (prior ω) ((List.range N).map fun i => (x i ω, 1 / (N : ℝ))))
    (hf : ∀ ω, ParticleFilter.make dflt (prior ω) (some q) period threshold .multinomial = .ok (f ω))
    {φ : X → ℝ} (hφ : Measurable φ) (hb : ∀ y, |φ y| ≤ 1) {ε : ℝ} (hε : 0 < ε) :
    P {ω | ¬ ∃ f' est, ParticleFilter.run (ParticleFilter.update dflt kthRoot)
          ((List.range T).map fun t => (inputs fun i => ρ t i ω, c t)) (f ω) = .ok (true, f') ∧
        Holds f'.postGet est ∧ |averageOver φ est - ∫ y, φ y ∂(exactFilter κ ℓ μ T)| < ε} ≤
      ENNReal.ofReal (lastingConstant r s σ ^ 2 / (ε ^ 2 * N)) := by
  simp only [uniform_eq] at h
  have hstep : ∀ t, Measurable (ℓ t) ∧ ∃ mv G, StepLaw mv G (ν t) (κ t) (ℓ t) ∧
      StepRuns kthRoot (ParticleFilter.update dflt kthRoot) period threshold (fun f => f.proposal = some q) (c t) mv G ∧
        ∀ a y, 0 < G a y ∧ G a y ≤ r * b t := by
    intro t
    have hct := hc t
    obtain ⟨hb0, hbt⟩ := hℓ t
    obtain ⟨hpd, hfb⟩ := hG t
    generalize c t = ct at hct hpd hfb
    generalize ν t = νt at hct
    generalize κ t = κt at hct
    generalize ℓ t = ℓt at hct hbt
    have hpos : ∀ {a : ℝ}, ENNReal.ofReal (b t) ≤ ENNReal.ofReal a → 0 < a := fun hle =>
      ENNReal.ofReal_pos.1 (lt_of_lt_of_le (ENNReal.ofReal_pos.2 hb0) hle)
    cases hct with
    | full hm hq hl hs hd md mT mQ mL hpr hsy hsu =>
      have sl := stepLaw_full (fun _ => hl.nonneg _ _ _)
        (fun _ _ => by obtain ⟨p, _, hp⟩ := hm; exact (hp _ _ _).1)
        (fun _ _ => (hq.density _ _ _).1) mL mT mQ md hpr hsy hsu
      refine ⟨sl.hℓ, _, _, sl, runs_full isRoot_kthRoot hm hq hl hs hd _ _, fun a y => ?_⟩
      obtain ⟨p1, p2⟩ := hpd _ _ hm hq a y
      have p3 := hpos (hbt y).1
      unfold importance
      rw [if_neg p2.ne']
      refine ⟨by positivity, ?_⟩
      rw [← mul_div_assoc, div_le_iff₀ p2]
      exact hfb _ _ _ hm hq hl a y
    | measurement u s z hl mL =>
      have sl := stepLaw_measurement (fun _ => hl.nonneg _ _ _) mL νt
      exact ⟨sl.hℓ, _, _, sl, runs_measurement isRoot_kthRoot hl u s z q, fun _ y => ⟨hpos (hbt y).1, hfb _ hl y⟩⟩
    | system s z hm hq hd md hpr hsy =>
      exact ⟨measurable_const, _, _, stepLaw_boot (L := fun _ => 1) (fun _ => zero_le_one) measurable_const
        (fun _ => by simp) md (fun x => (hsy x).trans (hpr x).symm), runs_system isRoot_kthRoot hm hq hd s z,
        fun _ _ => ⟨one_pos, hfb⟩⟩
  obtain ⟨L, hL⟩ : ∃ L : Nat → X → ℝ, L = fun t y => (ℓ t y).toReal := ⟨_, rfl⟩
  have hfin : ∀ t y, ℓ t y ≠ ∞ := fun t y => ne_top_of_le_ne_top ENNReal.ofReal_ne_top ((hℓ t).2 y).2
  have eℓ : ℓ = fun t y => ENNReal.ofReal (L t y) := by
    funext t y
    rw [hL, ENNReal.ofReal_toReal (hfin t y)]
  have mL : ∀ t, Measurable (L t) := by
    intro t
    rw [hL]
    exact (hstep t).1.ennreal_toReal
  have hLb : ∀ t, 0 < b t ∧ ∀ y, b t ≤ L t y ∧ L t y ≤ B t := by
    intro t
    obtain ⟨h0, h1⟩ := hℓ t
    refine ⟨h0, fun y => ?_⟩
    have hB : 0 ≤ B t := (ENNReal.ofReal_pos.1 (lt_of_lt_of_le (ENNReal.ofReal_pos.2 h0) ((h1 y).1.trans (h1 y).2))).le
    rw [hL]
    exact ⟨(ENNReal.ofReal_le_iff_le_toReal (hfin t y)).1 (h1 y).1, ENNReal.toReal_le_of_le_ofReal hB (h1 y).2⟩
  rw [eℓ] at hstep ⊢
  exact lasting_resampling h (good := fun f => f.proposal = some q) hr hσ hσ1 hκ mL hLb (fun t => (hstep t).2) hN hs heven
    hprior hf (fun _ hg => hg) hφ hb hε

/-! ### Example: a state that stays with probability 3/4 -/

namespace Steady

open Toss

/-- Probabilities of the next state. -/
noncomputable def next (x y : Bool) : ℝ := if x = y then 3 / 4 else 1 / 4

/-- The next state from a random number that is `true` with probability 3/4. -/
def go (r x : Bool) : Bool := if r then x else !x

noncomputable def pdf : CondPdf Bool Bool ℝ :=
  ⟨1, fun a y => match a with | [x] => .ok (next x y) | _ => .ub, fun _ => .ok true⟩

noncomputable def sys : SysModel Bool Bool ℝ :=
  ⟨⟨some pdf, some true⟩, fun r a _ => match a with | [x] => .ok (go r x) | _ => .ub⟩

theorem next_nonneg (x y : Bool) : 0 ≤ next x y := by unfold next; split <;> norm_num

theorem sys_isTransition : IsTransition sys fun x _ y => next x y :=
  ⟨pdf, rfl, fun x _ y => ⟨next_nonneg x y, rfl⟩⟩

noncomputable def κ : Kernel Bool Bool := ⟨fun x => dist (next x), Measurable.of_discrete⟩

theorem dist_prob {w : Bool → ℝ} (h0 : ∀ b, 0 ≤ w b) (h1 : w true + w false = 1) : IsProbabilityMeasure (dist w) := by
  refine ⟨?_⟩
  have := lintegral_dist w fun _ => 1
  rw [lintegral_one] at this
  rw [this, mul_one, mul_one, ← ENNReal.ofReal_add (h0 _) (h0 _), h1, ENNReal.ofReal_one]

instance : IsMarkovKernel κ := ⟨fun x => dist_prob (next_nonneg x) (by cases x <;> norm_num [next])⟩

noncomputable def noise : Measure Bool := dist tr

instance : IsProbabilityMeasure noise := dist_prob tr_nonneg (by norm_num [tr])

theorem κ_eq (x : Bool) : κ x = noise.map fun r => go r x := by
  refine Measure.ext_of_lintegral _ fun F hF => ?_
  rw [lintegral_map hF Measurable.of_discrete]
  unfold noise
  show ∫⁻ y, F y ∂(dist (next x)) = _
  rw [lintegral_dist, lintegral_dist]
  cases x <;> norm_num [next, tr, go]
  rw [add_comm]

theorem movesAlike : MovesAlike κ (1 / 3) := by
  refine ⟨dist fun _ => 3 / 4, ?_, fun x => ⟨?_, ?_⟩⟩
  · refine ⟨?_⟩
    have := lintegral_dist (fun _ => 3 / 4) fun _ => 1
    rw [lintegral_one] at this
    rw [this]
    simp
  · show _ ≤ Toss.dist (next x)
    unfold Toss.dist
    rw [← withDensity_smul _ Measurable.of_discrete]
    refine withDensity_mono (Eventually.of_forall fun y => ?_)
    rw [Pi.smul_apply, smul_eq_mul, ← ENNReal.ofReal_mul (by norm_num)]
    refine ENNReal.ofReal_le_ofReal ?_
    unfold next; split <;> norm_num
  · show Toss.dist (next x) ≤ _
    unfold Toss.dist
    refine withDensity_mono (Eventually.of_forall fun y => ENNReal.ofReal_le_ofReal ?_)
    unfold next; split <;> norm_num

noncomputable def triple : Measure (ℝ × Bool × ℝ) := Spec.uniform.prod (noise.prod Spec.uniform)

instance : IsProbabilityMeasure triple := by unfold triple; infer_instance

noncomputable def triples : Measure (Nat ⊕ Nat × Nat → ℝ × Bool × ℝ) := Measure.infinitePi fun _ => triple

instance : IsProbabilityMeasure triples := by unfold triples; infer_instance

theorem draws_triples : IndependentDraws triples (fun i ω => (ω (.inl i)).2.1)
    (fun t i ω => ω (.inr (t, i))) noise
    fun _ => Spec.uniform.prod (noise.prod Spec.uniform) where
  measurable_x := fun i => (measurable_pi_apply (Sum.inl i)).snd.fst
  measurable_r := fun t i => measurable_pi_apply _
  law_x := fun i => by
    have h1 : triples.map (fun ω => ω (.inl i)) = triple :=
      Measure.infinitePi_map_eval (fun _ => triple) _
    have h2 : (triples.map (fun ω => ω (.inl i))).map (Prod.fst ∘ Prod.snd) =
        triples.map (fun ω => (ω (.inl i)).2.1) :=
      Measure.map_map (measurable_fst.comp measurable_snd) (measurable_pi_apply _)
    rw [← h2, h1, ← Measure.map_map measurable_fst measurable_snd]
    unfold triple
    rw [Measure.map_snd_prod, measure_univ, one_smul, Measure.map_fst_prod, measure_univ, one_smul]
  law_r := fun t i => Measure.infinitePi_map_eval (fun _ => triple) _
  indep := by
    have h : iIndepFun (fun (k : Nat ⊕ Nat × Nat) (ω : Nat ⊕ Nat × Nat → ℝ × Bool × ℝ) => ω k)
        triples :=
      iIndepFun_infinitePi (P := fun _ => triple) (X := fun _ b => b) fun _ => measurable_id
    rw [iIndepFun_iff_iIndep] at h
    refine iIndep_of_iIndep_of_le h fun k => ?_
    cases k with
    | inl i =>
      have h1 : MeasurableSpace.comap (fun ω : Nat ⊕ Nat × Nat → ℝ × Bool × ℝ => (ω (.inl i)).2.1)
          inferInstance = MeasurableSpace.comap
            (fun ω : Nat ⊕ Nat × Nat → ℝ × Bool × ℝ => ω (.inl i))
            (MeasurableSpace.comap (Prod.fst ∘ Prod.snd) inferInstance) := by
        rw [MeasurableSpace.comap_comp]; rfl
      show MeasurableSpace.comap (fun ω : Nat ⊕ Nat × Nat → ℝ × Bool × ℝ => (ω (.inl i)).2.1) _ ≤ _
      rw [h1]
      exact MeasurableSpace.comap_mono
        (measurable_iff_comap_le.1 (measurable_fst.comp measurable_snd))
    | inr p => exact le_rfl

end Steady

/-- A state that stays with probability 3/4, and a sensor that is right with probability 3/4. After any number of
readings, whatever they were, with 10⁹ particles and resampling at every update an error of a tenth or more has a
probability of at most 0.6 per cent. -/
example (readings : Nat → Bool) (T : Nat) : ∃ f : (Nat ⊕ Nat × Nat → ℝ × Bool × ℝ) → ParticleFilter Bool Bool ℝ,
    Steady.triples {ω | ¬ ∃ f' est, ParticleFilter.run (ParticleFilter.bootUpdate false kthRoot)
        ((List.range T).map fun t => (inputs fun i => ω (.inr (t, i)),
          ⟨some Steady.sys, true, some Toss.meas, readings t, true⟩)) (f ω) = .ok (true, f') ∧
      Holds f'.postGet est ∧ |averageOver Toss.heads est - ∫ y, Toss.heads y ∂(exactFilter (fun _ => Steady.κ)
        (fun t y => ENNReal.ofReal (Toss.lik (readings t) y)) Steady.noise T)| < 1 / 10} ≤ ENNReal.ofReal (6 / 1000) := by
  obtain ⟨prior, f, h1, h2⟩ := Toss.filters_triples none (period := 1) (threshold := fun _ => 0) (by norm_num)
  refine ⟨f (10 ^ 9), ?_⟩
  have h := C123_lasting (MV := Bool) (dflt := false) Steady.draws_triples
    (c := fun t => ⟨some Steady.sys, true, some Toss.meas, readings t, true⟩) (κ := fun _ => Steady.κ)
    (ℓ := fun t y => ENNReal.ofReal (Toss.lik (readings t) y))
    (fun t => BootUpdatesBy.full (draw := Steady.go) Steady.sys_isTransition Toss.meas_isLikelihood
      (fun r x u _ => ⟨Steady.go r x, rfl⟩) (fun _ _ _ => rfl) Measurable.of_discrete Measurable.of_discrete Steady.κ_eq)
    (b := fun _ => 1 / 4) (r := 3) (σ := 1 / 3) (by norm_num) (by norm_num) (by norm_num) (fun _ => Steady.movesAlike)
    (fun t => ⟨by norm_num, fun y => ⟨ENNReal.ofReal_le_ofReal (by unfold Toss.lik; split <;> norm_num),
      ENNReal.ofReal_le_ofReal (by unfold Toss.lik; split <;> norm_num)⟩⟩)
    (N := 10 ^ 9) (by norm_num) (s := 1) le_rfl (T := T)
    (Or.inl ⟨rfl, fun _ _ => rfl⟩) (fun ω => h1 _ ω (by norm_num)) (fun ω => h2 _ ω (by norm_num))
    (φ := Toss.heads) Measurable.of_discrete Toss.heads_le (ε := 1 / 10) (by norm_num)
  refine h.trans (ENNReal.ofReal_le_ofReal ?_)
  simp only [lastingConstant, Real.sqrt_one]
  norm_num

/-- The weight factors of the fair-coin proposal are positive and at most 9/8. -/
theorem Steady.factors (z : Bool) : PositiveDensities Toss.prop
      (⟨some Steady.sys, true, some Toss.meas, z, true⟩ : UpdateCall Bool Bool Bool ℝ) ∧
    FactorsBelow Toss.prop (⟨some Steady.sys, true, some Toss.meas, z, true⟩ : UpdateCall Bool Bool Bool ℝ)
      (9 / 2 * (1 / 4)) := by
  have e1 : ∀ Tr : Bool → Bool → Bool → ℝ, IsTransition Steady.sys Tr → ∀ x y, Tr x true y = Steady.next x y := by
    intro Tr hTr x y
    obtain ⟨p, hm, h⟩ := hTr
    obtain ⟨hpdf, _⟩ := make_one hm
    obtain rfl : Steady.pdf = p := Option.some.inj hpdf
    exact (Outcome.ok.inj (h x true y).2).symm
  have e3 : ∀ Q : Bool → Bool → Bool → ℝ, IsProposal Toss.prop Steady.sys Q → ∀ x y, Q x true y = 1 / 2 := by
    intro Q hQ x y
    exact (Outcome.ok.inj (hQ.density x true y).2).symm
  refine ⟨fun Tr Q hTr hQ x y => ?_, fun Tr Q L hTr hQ hL x y => ?_⟩
  · show 0 < Tr x true y ∧ 0 < Q x true y
    rw [e1 _ hTr, e3 _ hQ]
    refine ⟨?_, by norm_num⟩
    unfold Steady.next; split <;> norm_num
  · have e2 : L z y true = Toss.lik z y := by
      obtain ⟨p, hm, h⟩ := hL
      obtain ⟨hpdf, _⟩ := make_one hm
      obtain rfl : Toss.measPdf = p := Option.some.inj hpdf
      exact (Outcome.ok.inj (h z y true).2).symm
    show L z y true * Tr x true y ≤ 9 / 2 * (1 / 4) * Q x true y
    rw [e1 _ hTr, e2, e3 _ hQ]
    unfold Steady.next Toss.lik
    split <;> split <;> norm_num

theorem Steady.isProposal : IsProposal Toss.prop Steady.sys fun _ _ _ => 1 / 2 :=
  ⟨by decide, fun h => absurd h (by simp [Steady.sys]), fun _ _ _ => ⟨by norm_num, rfl⟩, fun r _ _ _ => ⟨r, rfl⟩⟩

/-- The same state and sensor, with particles drawn by tossing a fair coin. With 10⁹ particles and resampling at every
update an error of a tenth or more has a probability of at most 1.3 per cent after any number of readings. -/
example (readings : Nat → Bool) (T : Nat) : ∃ f : (Nat ⊕ Nat × Nat → ℝ × Bool × ℝ) → ParticleFilter Bool Bool ℝ,
    Toss.triples {ω | ¬ ∃ f' est, ParticleFilter.run (ParticleFilter.update false kthRoot)
        ((List.range T).map fun t => (inputs fun i => ω (.inr (t, i)),
          ⟨some Steady.sys, true, some Toss.meas, readings t, true⟩)) (f ω) = .ok (true, f') ∧
      Holds f'.postGet est ∧ |averageOver Toss.heads est - ∫ y, Toss.heads y ∂(exactFilter (fun _ => Steady.κ)
        (fun t y => ENNReal.ofReal (Toss.lik (readings t) y)) Toss.coin T)| < 1 / 10} ≤ ENNReal.ofReal (13 / 1000) := by
  obtain ⟨prior, f, h1, h2⟩ := Toss.filters_triples (some Toss.prop) (period := 1) (threshold := fun _ => 0) (by norm_num)
  refine ⟨f (10 ^ 9), ?_⟩
  have h := C123_particleFilter (MV := Bool) (dflt := false) Toss.draws_triples (q := Toss.prop)
    (c := fun t => ⟨some Steady.sys, true, some Toss.meas, readings t, true⟩) (κ := fun _ => Steady.κ)
    (ℓ := fun t y => ENNReal.ofReal (Toss.lik (readings t) y))
    (fun t => UpdatesBy.full (draw := fun r _ => r) (base := Measure.count) Steady.sys_isTransition
      Steady.isProposal Toss.meas_isLikelihood (by simp [WithSensor, Toss.meas]) (fun _ _ _ => rfl)
      measurable_fst Measurable.of_discrete Measurable.of_discrete Measurable.of_discrete
      (fun _ => Measure.map_id) (fun _ => rfl) (fun _ _ _ _ => by norm_num))
    (b := fun _ => 1 / 4) (B := fun _ => 3 / 4) (r := 9 / 2) (σ := 1 / 3) (by norm_num) (by norm_num) (by norm_num)
    (fun _ => Steady.movesAlike)
    (fun t => ⟨by norm_num, fun y => ⟨ENNReal.ofReal_le_ofReal (by unfold Toss.lik; split <;> norm_num),
      ENNReal.ofReal_le_ofReal (by unfold Toss.lik; split <;> norm_num)⟩⟩)
    (fun t => Steady.factors (readings t))
    (N := 10 ^ 9) (by norm_num) (s := 1) le_rfl (T := T)
    (Or.inl ⟨rfl, fun _ _ => rfl⟩) (fun ω => h1 _ ω (by norm_num)) (fun ω => h2 _ ω (by norm_num))
    (φ := Toss.heads) Measurable.of_discrete Toss.heads_le (ε := 1 / 10) (by norm_num)
  refine h.trans (ENNReal.ofReal_le_ofReal ?_)
  simp only [lastingConstant, Real.sqrt_one]
  norm_num

/-! ### A state that never moves -/

/-- **C123, resampling without moves.** If the state never moves and the filter resamples at every update, the
particles become all equal: the probability that they are not after `T` updates without measurements is at most
`(1 - N⁻ᴺ)ᵀ⁻¹`, where `N = n + 1` is their number. -/
theorem C123_stuck [∀ t, IsProbabilityMeasure (ν t)]
    (h : IndependentDraws P x ρ μ fun t => Spec.uniform.prod ((ν t).prod Spec.uniform))
    {m : SysModel R X ℝ} {Tr : X → X → X → ℝ} (hm : IsTransition m Tr)
    (hd : ∀ r x u prev, m.draw r (argsFor m x u) prev = .ok x) (u s : X) (z : MV) {n : Nat}
    {prior : Ω → MCPdf ℝ X} {f : Ω → ParticleFilter R X ℝ}
    (hprior : ∀ ω, Holds (prior ω) ((List.range (n + 1)).map fun i => (x i ω, 1 / ((n + 1 : Nat) : ℝ))))
    (hf : ∀ ω, ParticleFilter.make dflt (prior ω) none 1 threshold .multinomial = .ok (f ω)) (T : Nat) :
    P {ω | ¬ ∃ f' est y, ParticleFilter.run (ParticleFilter.bootUpdate dflt kthRoot)
        ((List.range T).map fun t => (inputs fun i => ρ t i ω, (⟨some m, u, none, z, s⟩ : UpdateCall R X MV ℝ)))
        (f ω) = .ok (true, f') ∧ Holds f'.postGet est ∧
        est = List.replicate (n + 1) (y, 1 / ((n + 1 : Nat) : ℝ))} ≤
      ENNReal.ofReal ((1 - (1 / ((n + 1 : Nat) : ℝ)) ^ (n + 1)) ^ (T - 1)) := by
  simp only [uniform_eq] at h
  exact stuck_resampling h (good := fun _ => True) (c := fun _ => ⟨some m, u, none, z, s⟩)
    (fun t => ⟨rfl, rfl, runs_boot_system isRoot_kthRoot hm (fun r x u prev => ⟨x, hd r x u prev⟩)
      (fun r x prev => hd r x u prev) s z⟩) hprior hf (fun _ _ => trivial) T

namespace Steady

open Toss

noncomputable def stayPdf : CondPdf Bool Bool ℝ :=
  ⟨1, fun a y => match a with | [x] => .ok (if x = y then 1 else 0) | _ => .ub, fun _ => .ok true⟩

/-- A state that never moves. -/
noncomputable def stay : SysModel Bool Bool ℝ :=
  ⟨⟨some stayPdf, some true⟩, fun _ a _ => match a with | [x] => .ok x | _ => .ub⟩

theorem stay_isTransition : IsTransition stay fun x _ y => if x = y then 1 else 0 :=
  ⟨stayPdf, rfl, fun x _ y => ⟨by beta_reduce; split <;> norm_num, rfl⟩⟩

theorem stay_updates : BootUpdatesBy (⟨some stay, true, none, true, true⟩ : UpdateCall Bool Bool Bool ℝ) coin Kernel.id
    fun _ => 1 :=
  BootUpdatesBy.system (draw := fun _ x => x) true true stay_isTransition (fun _ x _ _ => ⟨x, rfl⟩) (fun _ _ _ => rfl)
    measurable_snd fun x => by rw [Kernel.id_apply, Measure.map_const, measure_univ, one_smul]

theorem exact_stay : ∀ T, exactFilter (fun _ => Kernel.id) (fun _ _ => 1) coin T = coin
  | 0 => rfl
  | T + 1 => by
    rw [exactFilter, exact_stay T]
    unfold bayesStep evidenceOf
    have e : coin.bind (Kernel.id : Kernel Bool Bool) = coin := Measure.id_comp
    rw [e, lintegral_one, measure_univ, inv_one, one_smul]
    exact withDensity_one

end Steady

/-- **C123, the condition on the moves is needed.** For a state that never moves no number of particles is enough for
ever: all other conditions hold, with likelihoods that are all 1, but for every number of particles there is a number
of updates after which the estimate is wrong by 1/2 at least, with a probability of at least 1/2. -/
theorem C123_forgetting_needed {n : Nat} {prior : (Nat ⊕ Nat × Nat → ℝ × Bool × ℝ) → MCPdf ℝ Bool}
    {f : (Nat ⊕ Nat × Nat → ℝ × Bool × ℝ) → ParticleFilter Bool Bool ℝ}
    (hprior : ∀ ω, Holds (prior ω) ((List.range (n + 1)).map fun i => ((ω (.inl i)).2.1, 1 / ((n + 1 : Nat) : ℝ))))
    (hf : ∀ ω, ParticleFilter.make false (prior ω) none 1 0 .multinomial = .ok (f ω)) :
    BootUpdatesBy (⟨some Steady.stay, true, none, true, true⟩ : UpdateCall Bool Bool Bool ℝ) Toss.coin Kernel.id
      (fun _ => 1) ∧
    ∃ T, ENNReal.ofReal (1 / 2) ≤ Toss.triples {ω | ¬ ∃ f' est,
      ParticleFilter.run (ParticleFilter.bootUpdate false kthRoot) ((List.range T).map fun t =>
        (inputs fun i => ω (.inr (t, i)), (⟨some Steady.stay, true, none, true, true⟩ : UpdateCall Bool Bool Bool ℝ)))
        (f ω) = .ok (true, f') ∧ Holds f'.postGet est ∧
      |averageOver Toss.heads est - ∫ y, Toss.heads y ∂(exactFilter (fun _ => Kernel.id) (fun _ _ => 1) Toss.coin T)| <
        1 / 2} := by
  refine ⟨Steady.stay_updates, ?_⟩
  have hN' : (0 : ℝ) < ((n + 1 : Nat) : ℝ) := by positivity
  have hp : 0 < (1 / ((n + 1 : Nat) : ℝ)) ^ (n + 1) := by positivity
  obtain ⟨k, hk⟩ := exists_pow_lt_of_lt_one (x := (1 / 2 : ℝ)) (by norm_num)
    (y := 1 - (1 / ((n + 1 : Nat) : ℝ)) ^ (n + 1)) (by linarith)
  refine ⟨k + 1, ?_⟩
  have hs := C123_stuck (MV := Bool) Toss.draws_triples Steady.stay_isTransition (fun _ _ _ _ => rfl) true true true hprior hf
    (k + 1)
  rw [Nat.add_sub_cancel] at hs
  have hi := (Toss.integral_dist (w := fun _ => 1 / 2) (fun _ => by norm_num) Toss.heads).2
  have hmean : ∫ y, Toss.heads y ∂Toss.coin = 1 / 2 := by
    unfold Toss.coin
    rw [hi]
    norm_num [Toss.heads]
  rw [Steady.exact_stay, hmean]
  set S := {ω | ¬ ∃ f' est y, ParticleFilter.run (ParticleFilter.bootUpdate false kthRoot) ((List.range (k + 1)).map fun t =>
        (inputs fun i => ω (.inr (t, i)), (⟨some Steady.stay, true, none, true, true⟩ : UpdateCall Bool Bool Bool ℝ)))
        (f ω) = .ok (true, f') ∧ Holds f'.postGet est ∧ est = List.replicate (n + 1) (y, 1 / ((n + 1 : Nat) : ℝ))}
  have hcov : Sᶜ ⊆ {ω | ¬ ∃ f' est,
      ParticleFilter.run (ParticleFilter.bootUpdate false kthRoot) ((List.range (k + 1)).map fun t =>
        (inputs fun i => ω (.inr (t, i)), (⟨some Steady.stay, true, none, true, true⟩ : UpdateCall Bool Bool Bool ℝ)))
        (f ω) = .ok (true, f') ∧ Holds f'.postGet est ∧ |averageOver Toss.heads est - 1 / 2| < 1 / 2} := by
    intro ω hω
    rw [Set.mem_compl_iff, Set.mem_ofPred_eq, not_not] at hω
    obtain ⟨f1, est, y, r1, h1, rfl⟩ := hω
    rintro ⟨f2, est2, r2, h2, hlt⟩
    rw [r1] at r2
    cases r2
    rw [Holds.inj h2 h1] at hlt
    have e : averageOver Toss.heads (List.replicate (n + 1) (y, 1 / ((n + 1 : Nat) : ℝ))) = Toss.heads y := by
      unfold averageOver
      rw [List.map_replicate, List.sum_replicate, nsmul_eq_mul]
      field_simp
    rw [e] at hlt
    cases y <;> norm_num [Toss.heads, abs_of_pos] at hlt
  refine le_trans ?_ (measure_mono hcov)
  have h1 : (1 : ℝ≥0∞) ≤ Toss.triples S + Toss.triples Sᶜ := by
    rw [← measure_univ (μ := Toss.triples), ← Set.union_compl_self S]
    exact measure_union_le _ _
  have h2 : (1 : ℝ≥0∞) ≤ ENNReal.ofReal (1 / 2) + Toss.triples Sᶜ :=
    h1.trans (by gcongr; exact hs.trans (ENNReal.ofReal_le_ofReal hk.le))
  have e2 : (1 : ℝ≥0∞) = ENNReal.ofReal (1 / 2) + ENNReal.ofReal (1 / 2) := by
    rw [← ENNReal.ofReal_add (by norm_num) (by norm_num)]
    norm_num
  rw [e2] at h2
  exact (ENNReal.add_le_add_iff_left ENNReal.ofReal_ne_top).1 h2

/-- Such filters exist for every number of particles. -/
example (n : Nat) : ∃ (prior : (Nat ⊕ Nat × Nat → ℝ × Bool × ℝ) → MCPdf ℝ Bool)
    (f : (Nat ⊕ Nat × Nat → ℝ × Bool × ℝ) → ParticleFilter Bool Bool ℝ),
    (∀ ω, Holds (prior ω) ((List.range (n + 1)).map fun i => ((ω (.inl i)).2.1, 1 / ((n + 1 : Nat) : ℝ)))) ∧
    ∀ ω, ParticleFilter.make false (prior ω) none 1 0 .multinomial = .ok (f ω) := by
  obtain ⟨prior, f, h1, h2⟩ := Toss.filters_triples none (period := 1) (threshold := fun _ => 0) (by norm_num)
  exact ⟨prior (n + 1), f (n + 1), fun ω => h1 _ ω (Nat.succ_pos n), fun ω => h2 _ ω (Nat.succ_pos n)⟩

end BFL.Props
