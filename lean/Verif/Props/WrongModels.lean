import Verif.Lemmas.WrongModels
import Verif.Props.WrongStart

/-!
# C125: with models that are nearly right, the errors of the particle filters stay small for ever
-/

set_option linter.unusedSectionVars false

namespace BFL.Props

open MeasureTheory ProbabilityTheory Filter Spec MCPdf ParticleFilter
open scoped ENNReal Topology

variable {R X MV Ω : Type} [MeasurableSpace X] [MeasurableSpace R] [MeasurableSpace Ω]
  {dflt : X} {period : Nat} {threshold : ℝ} {P : Measure Ω} [IsProbabilityMeasure P]
  {x : Nat → Ω → X} {ρ : Nat → Nat → Ω → ℝ × R × ℝ} {μ : Measure X} {ν : Nat → Measure R}

/-- **C125, bootstrap filter.** Let `π` be the true distribution of the state after `S` updates, and let the true moves
`κ'` and the true likelihoods `ℓ'` of the readings after that agree with those of the filter up to the factor `1 + δ`.
After `T` more updates the error is at most `2 (1 - σ)ᵀ + 2 δ / σ + ε`, with the probability of C123. -/
theorem C125_bootstrap [∀ t, IsProbabilityMeasure (ν t)]
    (h : IndependentDraws P x ρ μ fun t => Spec.uniform.prod ((ν t).prod Spec.uniform))
    {c : Nat → UpdateCall R X MV ℝ} {κ : Nat → Kernel X X} [∀ t, IsMarkovKernel (κ t)] {ℓ : Nat → X → ℝ≥0∞}
    (hc : ∀ t, BootUpdatesBy (c t) (ν t) (κ t) (ℓ t)) {b : Nat → ℝ} {r σ : ℝ} (hr : 1 ≤ r) (hσ : 0 < σ) (hσ1 : σ < 1)
    (hκ : ∀ t, MovesAlike (κ t) σ)
    (hℓ : ∀ t, 0 < b t ∧ ∀ y, ENNReal.ofReal (b t) ≤ ℓ t y ∧ ℓ t y ≤ ENNReal.ofReal (r * b t))
    {N : Nat} (hN : 0 < N) {s : ℝ} (hs : 1 ≤ s) {S T : Nat}
    (heven : KeepsEven period threshold (fun t => (c t).sys.isSome = true)
      (fun t => (c t).meas.isSome = true) (S + T) N s)
    {prior : Ω → MCPdf ℝ X} {f : Ω → ParticleFilter R X ℝ}
    (hprior : ∀ ω, Holds (prior ω) ((List.range N).map fun i => (x i ω, 1 / (N : ℝ))))
    (hf : ∀ ω, ParticleFilter.make dflt (prior ω) none period threshold .multinomial = .ok (f ω))
    {π : Measure X} [IsProbabilityMeasure π] {κ' : Nat → Kernel X X} [∀ t, IsMarkovKernel (κ' t)] {ℓ' : Nat → X → ℝ≥0∞}
    (mℓ' : ∀ t, Measurable (ℓ' t)) {b' B' : Nat → ℝ}
    (hℓ' : ∀ t, 0 < b' t ∧ ∀ y, ENNReal.ofReal (b' t) ≤ ℓ' t y ∧ ℓ' t y ≤ ENNReal.ofReal (B' t)) {δ : ℝ} (hδ : 0 ≤ δ)
    (hn : ∀ t, NearlyRight (κ (S + t)) (κ' t) (ℓ (S + t)) (ℓ' t) δ)
    {φ : X → ℝ} (hφ : Measurable φ) (hb : ∀ y, |φ y| ≤ 1) {ε : ℝ} (hε : 0 < ε) :
    P {ω | ¬ ∃ f' est, ParticleFilter.run (ParticleFilter.bootUpdate dflt kthRoot)
          ((List.range (S + T)).map fun t => (inputs fun i => ρ t i ω, c t)) (f ω) = .ok (true, f') ∧
        Holds f'.postGet est ∧
        |averageOver φ est - ∫ y, φ y ∂(exactFilter κ' ℓ' π T)| < 2 * (1 - σ) ^ T + 2 * δ / σ + ε} ≤
      ENNReal.ofReal (lastingConstant r s σ ^ 2 / (ε ^ 2 * N)) := by
  have hX : Nonempty X := ⟨dflt⟩
  have hd := exact_wrong (fun t => (hc (S + t)).measurable) mℓ' (fun t => hℓ (S + t)) hℓ' hσ hσ1 hδ
    (fun t => hκ (S + t)) hn hφ hb T (μ := π)
  refine (measure_mono ?_).trans (C124_bootstrap h hc hr hσ hσ1 hκ hℓ hN hs heven hprior hf (π := π) hφ hb hε)
  intro ω hω hgood
  refine hω ?_
  obtain ⟨f', est, r1, r2, r3⟩ := hgood
  refine ⟨f', est, r1, r2, ?_⟩
  have := abs_sub_le (averageOver φ est) (∫ y, φ y ∂(exactFilter (fun t => κ (S + t)) (fun t => ℓ (S + t)) π T))
    (∫ y, φ y ∂(exactFilter κ' ℓ' π T))
  rw [abs_sub_comm] at hd
  linarith

/-- **C125, particle filter with any proposal.** The same, with the conditions and the constant of
`C123_particleFilter`. -/
theorem C125_particleFilter [∀ t, IsProbabilityMeasure (ν t)]
    (h : IndependentDraws P x ρ μ fun t => Spec.uniform.prod ((ν t).prod Spec.uniform))
    {q : Proposal R X ℝ} {c : Nat → UpdateCall R X MV ℝ} {κ : Nat → Kernel X X} [∀ t, IsMarkovKernel (κ t)]
    {ℓ : Nat → X → ℝ≥0∞} (hc : ∀ t, UpdatesBy q (c t) (ν t) (κ t) (ℓ t)) {b B : Nat → ℝ} {r σ : ℝ} (hr : 1 ≤ r)
    (hσ : 0 < σ) (hσ1 : σ < 1) (hκ : ∀ t, MovesAlike (κ t) σ)
    (hℓ : ∀ t, 0 < b t ∧ ∀ y, ENNReal.ofReal (b t) ≤ ℓ t y ∧ ℓ t y ≤ ENNReal.ofReal (B t))
    (hG : ∀ t, PositiveDensities q (c t) ∧ FactorsBelow q (c t) (r * b t))
    {N : Nat} (hN : 0 < N) {s : ℝ} (hs : 1 ≤ s) {S T : Nat}
    (heven : KeepsEven period threshold (fun t => (c t).sys.isSome = true)
      (fun t => (c t).meas.isSome = true) (S + T) N s)
    {prior : Ω → MCPdf ℝ X} {f : Ω → ParticleFilter R X ℝ}
    (hprior : ∀ ω, Holds (prior ω) ((List.range N).map fun i => (x i ω, 1 / (N : ℝ))))
    (hf : ∀ ω, ParticleFilter.make dflt (prior ω) (some q) period threshold .multinomial = .ok (f ω))
    {π : Measure X} [IsProbabilityMeasure π] {κ' : Nat → Kernel X X} [∀ t, IsMarkovKernel (κ' t)] {ℓ' : Nat → X → ℝ≥0∞}
    (mℓ' : ∀ t, Measurable (ℓ' t)) {b' B' : Nat → ℝ}
    (hℓ' : ∀ t, 0 < b' t ∧ ∀ y, ENNReal.ofReal (b' t) ≤ ℓ' t y ∧ ℓ' t y ≤ ENNReal.ofReal (B' t)) {δ : ℝ} (hδ : 0 ≤ δ)
    (hn : ∀ t, NearlyRight (κ (S + t)) (κ' t) (ℓ (S + t)) (ℓ' t) δ)
    {φ : X → ℝ} (hφ : Measurable φ) (hb : ∀ y, |φ y| ≤ 1) {ε : ℝ} (hε : 0 < ε) :
    P {ω | ¬ ∃ f' est, ParticleFilter.run (ParticleFilter.update dflt kthRoot)
          ((List.range (S + T)).map fun t => (inputs fun i => ρ t i ω, c t)) (f ω) = .ok (true, f') ∧
        Holds f'.postGet est ∧
        |averageOver φ est - ∫ y, φ y ∂(exactFilter κ' ℓ' π T)| < 2 * (1 - σ) ^ T + 2 * δ / σ + ε} ≤
      ENNReal.ofReal (lastingConstant r s σ ^ 2 / (ε ^ 2 * N)) := by
  have hX : Nonempty X := ⟨dflt⟩
  have hd := exact_wrong (fun t => (hc (S + t)).measurable) mℓ' (fun t => hℓ (S + t)) hℓ' hσ hσ1 hδ
    (fun t => hκ (S + t)) hn hφ hb T (μ := π)
  refine (measure_mono ?_).trans (C124_particleFilter h hc hr hσ hσ1 hκ hℓ hG hN hs heven hprior hf (π := π) hφ hb hε)
  intro ω hω hgood
  refine hω ?_
  obtain ⟨f', est, r1, r2, r3⟩ := hgood
  refine ⟨f', est, r1, r2, ?_⟩
  have := abs_sub_le (averageOver φ est) (∫ y, φ y ∂(exactFilter (fun t => κ (S + t)) (fun t => ℓ (S + t)) π T))
    (∫ y, φ y ∂(exactFilter κ' ℓ' π T))
  rw [abs_sub_comm] at hd
  linarith

/-! ### When models are nearly right -/

/-- **C125, errors of moves and sensor.** If the probabilities of all moves are right up to the factor `1 + δ₁` and the
likelihoods are right up to the factor `1 + δ₂`, apart from common factors, the models are right up to the product. -/
theorem C125_parts {κ κ' : Kernel X X} {ℓ ℓ' : X → ℝ≥0∞} (mℓ : Measurable ℓ) {a₁ a₂ δ₁ δ₂ : ℝ}
    (ha₁ : 0 < a₁) (ha₂ : 0 < a₂) (hδ₁ : 0 ≤ δ₁)
    (hκ : ∀ x, ENNReal.ofReal a₁ • κ x ≤ κ' x ∧ κ' x ≤ ENNReal.ofReal (a₁ * (1 + δ₁)) • κ x)
    (hℓ : ∀ y, ENNReal.ofReal a₂ * ℓ y ≤ ℓ' y ∧ ℓ' y ≤ ENNReal.ofReal (a₂ * (1 + δ₂)) * ℓ y) :
    NearlyRight κ κ' ℓ ℓ' ((1 + δ₁) * (1 + δ₂) - 1) := by
  have scale : ∀ (p q : ℝ), 0 ≤ p → ∀ x, ENNReal.ofReal (p * q) • (κ x).withDensity ℓ =
      (ENNReal.ofReal p • κ x).withDensity fun y => ENNReal.ofReal q * ℓ y := by
    intro p q hp x
    rw [withDensity_smul_measure, ENNReal.ofReal_mul hp, ← smul_smul]
    congr 1
    exact (withDensity_smul _ mℓ).symm
  have mono : ∀ {m n : Measure X} {f g : X → ℝ≥0∞}, m ≤ n → (∀ y, f y ≤ g y) → m.withDensity f ≤ n.withDensity g := by
    intro m n f g hmn hfg
    refine (withDensity_mono (Eventually.of_forall hfg)).trans ?_
    refine Measure.le_intro fun s hs _ => ?_
    rw [withDensity_apply _ hs, withDensity_apply _ hs]
    exact lintegral_mono' (Measure.restrict_mono le_rfl hmn) le_rfl
  refine ⟨a₁ * a₂, mul_pos ha₁ ha₂, fun x => ⟨?_, ?_⟩⟩
  · rw [scale _ _ ha₁.le]
    exact mono (hκ x).1 fun y => (hℓ y).1
  · have e : a₁ * a₂ * (1 + ((1 + δ₁) * (1 + δ₂) - 1)) = a₁ * (1 + δ₁) * (a₂ * (1 + δ₂)) := by ring
    rw [e, scale _ _ (by positivity)]
    exact mono (hκ x).2 fun y => (hℓ y).2

/-! ### Example: a sensor that is slightly better than assumed -/

namespace Steady

open Toss

/-- The true sensor is right with probability 751/1000; the filter assumes 3/4. -/
noncomputable def trueLik (z y : Bool) : ℝ := if z = y then 751 / 1000 else 249 / 1000

theorem nearlyRight (z : Bool) : NearlyRight κ κ (fun y => ENNReal.ofReal (lik z y))
    (fun y => ENNReal.ofReal (trueLik z y)) (6 / 1000) := by
  have h := C125_parts (κ := κ) (κ' := κ) (ℓ := fun y => ENNReal.ofReal (lik z y))
    (ℓ' := fun y => ENNReal.ofReal (trueLik z y)) Measurable.of_discrete (a₁ := 1) (a₂ := 249 / 250)
    (δ₁ := 0) (δ₂ := 6 / 1000) one_pos (by norm_num) le_rfl (fun x => by simp) (fun y => by
      rw [← ENNReal.ofReal_mul (by norm_num), ← ENNReal.ofReal_mul (by norm_num)]
      constructor <;> refine ENNReal.ofReal_le_ofReal ?_ <;> cases z <;> cases y <;> norm_num [lik, trueLik])
  have e : ((1 : ℝ) + 0) * (1 + 6 / 1000) - 1 = 6 / 1000 := by norm_num
  rwa [e] at h

end Steady

/-- The example of C124, with the true sensor. With 10⁹ particles and resampling at every update the error is at most
1/10 + 36/1000 + 2 (2/3)ᵀ after `T` updates, except with a probability of 0.6 per cent, however large `T` is. -/
example (readings : Nat → Bool) (S T : Nat) : ∃ f : (Nat ⊕ Nat × Nat → ℝ × Bool × ℝ) → ParticleFilter Bool Bool ℝ,
    Steady.triples {ω | ¬ ∃ f' est, ParticleFilter.run (ParticleFilter.bootUpdate false kthRoot)
        ((List.range (S + T)).map fun t => (inputs fun i => ω (.inr (t, i)),
          ⟨some Steady.sys, true, some Toss.meas, readings t, true⟩)) (f ω) = .ok (true, f') ∧
      Holds f'.postGet est ∧ |averageOver Toss.heads est - ∫ y, Toss.heads y ∂(exactFilter (fun _ => Steady.κ)
        (fun t y => ENNReal.ofReal (Steady.trueLik (readings (S + t)) y)) (Measure.dirac false) T)| <
          2 * (2 / 3) ^ T + 36 / 1000 + 1 / 10} ≤ ENNReal.ofReal (6 / 1000) := by
  obtain ⟨prior, f, h1, h2⟩ := Toss.filters_triples none (period := 1) (threshold := fun _ => 0) (by norm_num)
  refine ⟨f (10 ^ 9), ?_⟩
  have h := C125_bootstrap (MV := Bool) (dflt := false) Steady.draws_triples
    (c := fun t => ⟨some Steady.sys, true, some Toss.meas, readings t, true⟩) (κ := fun _ => Steady.κ)
    (ℓ := fun t y => ENNReal.ofReal (Toss.lik (readings t) y))
    (fun t => BootUpdatesBy.full (draw := Steady.go) Steady.sys_isTransition Toss.meas_isLikelihood
      (fun r x u _ => ⟨Steady.go r x, rfl⟩) (fun _ _ _ => rfl) Measurable.of_discrete Measurable.of_discrete Steady.κ_eq)
    (b := fun _ => 1 / 4) (r := 3) (σ := 1 / 3) (by norm_num) (by norm_num) (by norm_num) (fun _ => Steady.movesAlike)
    (fun t => ⟨by norm_num, fun y => ⟨ENNReal.ofReal_le_ofReal (by unfold Toss.lik; split <;> norm_num),
      ENNReal.ofReal_le_ofReal (by unfold Toss.lik; split <;> norm_num)⟩⟩)
    (N := 10 ^ 9) (by norm_num) (s := 1) le_rfl (S := S) (T := T)
    (Or.inl ⟨rfl, fun _ _ => rfl⟩) (fun ω => h1 _ ω (by norm_num)) (fun ω => h2 _ ω (by norm_num))
    (π := Measure.dirac false) (κ' := fun _ => Steady.κ)
    (ℓ' := fun t y => ENNReal.ofReal (Steady.trueLik (readings (S + t)) y)) (fun _ => Measurable.of_discrete)
    (b' := fun _ => 249 / 1000) (B' := fun _ => 751 / 1000)
    (fun t => ⟨by norm_num, fun y => ⟨ENNReal.ofReal_le_ofReal (by unfold Steady.trueLik; split <;> norm_num),
      ENNReal.ofReal_le_ofReal (by unfold Steady.trueLik; split <;> norm_num)⟩⟩)
    (δ := 6 / 1000) (by norm_num) (fun t => Steady.nearlyRight _)
    (φ := Toss.heads) Measurable.of_discrete Toss.heads_le (ε := 1 / 10) (by norm_num)
  have e : (1 : ℝ) - 1 / 3 = 2 / 3 := by norm_num
  have e2 : (2 : ℝ) * (6 / 1000) / (1 / 3) = 36 / 1000 := by norm_num
  rw [e, e2] at h
  refine h.trans (ENNReal.ofReal_le_ofReal ?_)
  simp only [lastingConstant, Real.sqrt_one]
  norm_num

/-- The same with particles drawn by tossing a fair coin. -/
example (readings : Nat → Bool) (S T : Nat) : ∃ f : (Nat ⊕ Nat × Nat → ℝ × Bool × ℝ) → ParticleFilter Bool Bool ℝ,
    Toss.triples {ω | ¬ ∃ f' est, ParticleFilter.run (ParticleFilter.update false kthRoot)
        ((List.range (S + T)).map fun t => (inputs fun i => ω (.inr (t, i)),
          ⟨some Steady.sys, true, some Toss.meas, readings t, true⟩)) (f ω) = .ok (true, f') ∧
      Holds f'.postGet est ∧ |averageOver Toss.heads est - ∫ y, Toss.heads y ∂(exactFilter (fun _ => Steady.κ)
        (fun t y => ENNReal.ofReal (Steady.trueLik (readings (S + t)) y)) (Measure.dirac false) T)| <
          2 * (2 / 3) ^ T + 36 / 1000 + 1 / 10} ≤ ENNReal.ofReal (13 / 1000) := by
  obtain ⟨prior, f, h1, h2⟩ := Toss.filters_triples (some Toss.prop) (period := 1) (threshold := fun _ => 0) (by norm_num)
  refine ⟨f (10 ^ 9), ?_⟩
  have h := C125_particleFilter (MV := Bool) (dflt := false) Toss.draws_triples (q := Toss.prop)
    (c := fun t => ⟨some Steady.sys, true, some Toss.meas, readings t, true⟩) (κ := fun _ => Steady.κ)
    (ℓ := fun t y => ENNReal.ofReal (Toss.lik (readings t) y))
    (fun t => UpdatesBy.full (draw := fun r _ => r) (base := Measure.count) Steady.sys_isTransition
      Steady.isProposal Toss.meas_isLikelihood (by simp [WithSensor, Toss.meas]) (fun _ _ _ => rfl)
      measurable_fst Measurable.of_discrete Measurable.of_discrete Measurable.of_discrete
      (fun _ => Measure.map_id) (fun _ => rfl) (fun _ _ _ _ => by norm_num))
    (b := fun _ => 1 / 4) (B := fun _ => 3 / 4) (r := 9 / 2) (σ := 1 / 3) (by norm_num) (by norm_num) (by norm_num)
    (fun _ => Steady.movesAlike)
    (fun t => ⟨by norm_num, fun y => ⟨ENNReal.ofReal_le_ofReal (by unfold Toss.lik; split <;> norm_num),
      ENNReal.ofReal_le_ofReal (by unfold Toss.lik; split <;> norm_num)⟩⟩)
    (fun t => Steady.factors (readings t))
    (N := 10 ^ 9) (by norm_num) (s := 1) le_rfl (S := S) (T := T)
    (Or.inl ⟨rfl, fun _ _ => rfl⟩) (fun ω => h1 _ ω (by norm_num)) (fun ω => h2 _ ω (by norm_num))
    (π := Measure.dirac false) (κ' := fun _ => Steady.κ)
    (ℓ' := fun t y => ENNReal.ofReal (Steady.trueLik (readings (S + t)) y)) (fun _ => Measurable.of_discrete)
    (b' := fun _ => 249 / 1000) (B' := fun _ => 751 / 1000)
    (fun t => ⟨by norm_num, fun y => ⟨ENNReal.ofReal_le_ofReal (by unfold Steady.trueLik; split <;> norm_num),
      ENNReal.ofReal_le_ofReal (by unfold Steady.trueLik; split <;> norm_num)⟩⟩)
    (δ := 6 / 1000) (by norm_num) (fun t => Steady.nearlyRight _)
    (φ := Toss.heads) Measurable.of_discrete Toss.heads_le (ε := 1 / 10) (by norm_num)
  have e : (1 : ℝ) - 1 / 3 = 2 / 3 := by norm_num
  have e2 : (2 : ℝ) * (6 / 1000) / (1 / 3) = 36 / 1000 := by norm_num
  rw [e, e2] at h
  refine h.trans (ENNReal.ofReal_le_ofReal ?_)
  simp only [lastingConstant, Real.sqrt_one]
  norm_num

/-! ### A state that never moves -/

namespace Steady

open Toss

/-- Likelihood of a sensor that is right slightly more often than wrong. -/
noncomputable def weakLik (δ : ℝ) (z y : Bool) : ℝ := if z = y then (1 + δ) / (2 + δ) else 1 / (2 + δ)

theorem weakLik_ge {δ : ℝ} (hδ : 0 < δ) (z y : Bool) : 1 / (2 + δ) ≤ weakLik δ z y := by
  unfold weakLik
  split
  · exact div_le_div_of_nonneg_right (by linarith) (by linarith)
  · exact le_rfl

noncomputable def weakPdf (δ : ℝ) : CondPdf Bool Bool ℝ :=
  ⟨1, fun a z => match a with | [y] => .ok (weakLik δ z y) | _ => .ub, fun _ => .ok true⟩

/-- Measurement model of this sensor. -/
noncomputable def weak (δ : ℝ) : Model Bool Bool ℝ := ⟨some (weakPdf δ), some true⟩

theorem weak_isLikelihood {δ : ℝ} (hδ : 0 < δ) : IsLikelihood (weak δ) fun z y _ => weakLik δ z y :=
  ⟨weakPdf δ, rfl, fun z y _ => ⟨le_trans (by positivity) (weakLik_ge hδ z y), rfl⟩⟩

/-- A sensor that says nothing, against the sensor that is right slightly more often. -/
theorem weak_nearlyRight {δ : ℝ} (hδ : 0 < δ) (κ : Kernel Bool Bool) (z : Bool) :
    NearlyRight κ κ (fun y => ENNReal.ofReal (weakLik δ z y)) (fun _ => 1) δ := by
  have h2 : (0 : ℝ) < 2 + δ := by linarith
  have h1 : (0 : ℝ) < 1 + δ := by linarith
  have h := C125_parts (κ := κ) (κ' := κ) (ℓ := fun y => ENNReal.ofReal (weakLik δ z y)) (ℓ' := fun _ => 1)
    Measurable.of_discrete (a₁ := 1) (a₂ := (2 + δ) / (1 + δ)) (δ₁ := 0) (δ₂ := δ) one_pos (by positivity) le_rfl
    (fun x => by simp) (fun y => by
      rw [← ENNReal.ofReal_mul (by positivity), ← ENNReal.ofReal_mul (by positivity)]
      refine ⟨ENNReal.ofReal_le_one.2 ?_, ENNReal.one_le_ofReal.2 ?_⟩
      · have : weakLik δ z y ≤ (1 + δ) / (2 + δ) := by
          unfold weakLik
          split
          · exact le_rfl
          · exact div_le_div_of_nonneg_right (by linarith) h2.le
        calc (2 + δ) / (1 + δ) * weakLik δ z y ≤ (2 + δ) / (1 + δ) * ((1 + δ) / (2 + δ)) :=
              mul_le_mul_of_nonneg_left this (by positivity)
          _ = 1 := by field_simp
      · calc (1 : ℝ) = (2 + δ) / (1 + δ) * (1 + δ) * (1 / (2 + δ)) := by field_simp
          _ ≤ _ := mul_le_mul_of_nonneg_left (weakLik_ge hδ z y) (by positivity))
  have e : ((1 : ℝ) + 0) * (1 + δ) - 1 = δ := by ring
  rwa [e] at h

end Steady

/-- **C125, the condition on the moves is needed.** The state never moves and both values are equally likely. The sensor
says nothing, but the filter believes that its readings are right with odds of `1 + δ` to one; its models are right up to
the factor `1 + δ`. Of the particles half are true, by weight, and they are never resampled. After `T` readings `true` the
filter reports the probability `(1 + δ)ᵀ / ((1 + δ)ᵀ + 1)` for `true`, although it is 1/2. -/
theorem C125_moves_needed {δ : ℝ} (hδ : 0 < δ) (hthr : threshold ≤ 1) {noise : Nat → Noise Bool ℝ}
    (hu : ∀ t, Uniforms (noise t).static ∧ Uniforms (noise t).dynamic) {prior : MCPdf ℝ Bool} {ps : List (Bool × ℝ)}
    (hp : Holds prior ps) (hn : Normalised ps) (hhalf : averageOver Toss.heads ps = 1 / 2) {f : ParticleFilter Bool Bool ℝ}
    (hf : ParticleFilter.make false prior none 0 threshold .multinomial = .ok f) (T : Nat) :
    NearlyRight Kernel.id Kernel.id (fun y => ENNReal.ofReal (Steady.weakLik δ true y)) (fun _ => 1) δ ∧
    ∃ f' est, ParticleFilter.run (ParticleFilter.bootUpdate false kthRoot) ((List.range T).map fun t => (noise t,
        (⟨some Steady.stay, true, some (Steady.weak δ), true, true⟩ : UpdateCall Bool Bool Bool ℝ))) f = .ok (true, f') ∧
      Holds f'.postGet est ∧ averageOver Toss.heads est = (1 + δ) ^ T / ((1 + δ) ^ T + 1) ∧
      ∫ y, Toss.heads y ∂(exactFilter (fun _ => Kernel.id) (fun _ _ => 1) Toss.coin T) = 1 / 2 := by
  refine ⟨Steady.weak_nearlyRight hδ _ _, ?_⟩
  have h2 : (0 : ℝ) < 2 + δ := by linarith
  have h1 : (0 : ℝ) < 1 + δ := by linarith
  obtain ⟨k1, _, _⟩ := pfMake_ready hp hn hf
  obtain ⟨f', k, n, r1, _, r3⟩ := static_run (step := ParticleFilter.bootUpdate false kthRoot) (good := fun _ => True)
    (c := ⟨some Steady.stay, true, some (Steady.weak δ), true, true⟩) (g := fun y => Steady.weakLik δ true y)
    (runs_boot_full isRoot_kthRoot Steady.stay_isTransition (fun r x u prev => ⟨x, rfl⟩) (fun r x prev => rfl)
      (Steady.weak_isLikelihood hδ) true true) (l := 1 / (2 + δ)) (by positivity) (Steady.weakLik_ge hδ true) hthr hu trivial
    k1 T
  refine ⟨f', _, r1, r3.live.samples, ?_, ?_⟩
  · have hsum := r3.live.dist.2
    have htot : (ps.map Prod.snd).sum = 1 := hn.2
    unfold averageOver at hhalf ⊢
    rw [List.map_map] at hsum ⊢
    have e1 : ps.map (Prod.snd ∘ fun a => (a.1, k * (a.2 * Steady.weakLik δ true a.1 ^ T))) = ps.map fun a =>
        k * ((1 + δ) / (2 + δ)) ^ T * (a.2 * Toss.heads a.1) +
          (k * (1 / (2 + δ)) ^ T * a.2 + -(k * (1 / (2 + δ)) ^ T) * (a.2 * Toss.heads a.1)) := by
      refine List.map_congr_left fun a _ => ?_
      obtain ⟨y, w⟩ := a
      cases y <;> simp [Steady.weakLik, Toss.heads] <;> ring
    have e2 : ps.map ((fun a : Bool × ℝ => a.2 * Toss.heads a.1) ∘
        fun a => (a.1, k * (a.2 * Steady.weakLik δ true a.1 ^ T))) = ps.map fun a =>
        k * ((1 + δ) / (2 + δ)) ^ T * (a.2 * Toss.heads a.1) := by
      refine List.map_congr_left fun a _ => ?_
      obtain ⟨y, w⟩ := a
      cases y <;> simp [Steady.weakLik, Toss.heads]
      ring
    have e3 : (ps.map fun a => a.2).sum = 1 := htot
    rw [e1, List.sum_map_add, List.sum_map_add, List.sum_map_mul_left, List.sum_map_mul_left, List.sum_map_mul_left, hhalf,
      e3, div_pow, div_pow, one_pow] at hsum
    rw [e2, List.sum_map_mul_left, hhalf, div_pow]
    have hp2 : (0 : ℝ) < (2 + δ) ^ T := by positivity
    have hp1 : (0 : ℝ) < (1 + δ) ^ T := by positivity
    rw [eq_div_iff (by positivity)]
    have hk : k * ((1 + δ) ^ T + 1) = 2 * (2 + δ) ^ T := by
      field_simp at hsum
      linarith
    field_simp
    linear_combination hk
  · rw [Steady.exact_stay]
    unfold Toss.coin
    rw [(Toss.integral_dist (fun _ => by norm_num) _).2]
    norm_num [Toss.heads]

/-- Two particles, one true and one false, and a filter that believes in odds of 2 to 1: after ten readings `true` it
reports 1024/1025 instead of 1/2. -/
example : ∃ f f' : ParticleFilter Bool Bool ℝ, ∃ est, ParticleFilter.run (ParticleFilter.bootUpdate false kthRoot)
      ((List.range 10).map fun _ => (⟨fun _ => true, fun _ => 1, fun _ => 1⟩,
        (⟨some Steady.stay, true, some (Steady.weak 1), true, true⟩ : UpdateCall Bool Bool Bool ℝ))) f = .ok (true, f') ∧
    Holds f'.postGet est ∧ averageOver Toss.heads est = 1024 / 1025 ∧
    ∫ y, Toss.heads y ∂(exactFilter (fun _ => Kernel.id) (fun _ _ => 1) Toss.coin 10) = 1 / 2 := by
  obtain ⟨prior, f, h1, h2⟩ := Toss.filters_triples none (period := 0) (threshold := fun _ => 1) (by norm_num)
  obtain ⟨ω, hω⟩ : ∃ ω : Nat ⊕ Nat × Nat → ℝ × Bool × ℝ, ω = fun i => (1, (match i with | .inl 0 => true | _ => false), 1) :=
    ⟨_, rfl⟩
  have hp := h1 2 ω (by norm_num)
  have e : ((List.range 2).map fun i => ((ω (.inl i)).2.1, 1 / ((2 : Nat) : ℝ))) = [(true, 1 / 2), (false, 1 / 2)] := by
    rw [hω]
    simp [List.range_succ]
  rw [e] at hp
  obtain ⟨_, f', est, k1, k2, k3, k4⟩ := C125_moves_needed (δ := 1) (threshold := 1) one_pos le_rfl
    (noise := fun _ => ⟨fun _ => true, fun _ => 1, fun _ => 1⟩) (fun _ => ⟨fun _ => by norm_num, fun _ => by norm_num⟩) hp
    ⟨by simp, by norm_num⟩ (by norm_num [averageOver, Toss.heads]) (h2 2 ω (by norm_num)) 10
  exact ⟨_, f', est, k1, k2, by rw [k3]; norm_num, k4⟩

end BFL.Props
