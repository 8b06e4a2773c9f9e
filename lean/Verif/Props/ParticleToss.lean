import Verif.Props.ParticleConvergence
import Mathlib.Probability.Independence.InfinitePi

/-!
# A concrete case for C75: a state that is thrown anew at every step
-/

set_option linter.unusedSectionVars false

namespace BFL.Props

open MeasureTheory ProbabilityTheory Filter Spec MCPdf ParticleFilter
open scoped ENNReal Topology

namespace Toss

/-- Distribution on `Bool` with the given weights. -/
noncomputable def dist (w : Bool → ℝ) : Measure Bool :=
  Measure.count.withDensity fun y => ENNReal.ofReal (w y)

theorem lintegral_dist (w : Bool → ℝ) (F : Bool → ℝ≥0∞) :
    ∫⁻ y, F y ∂(dist w) = ENNReal.ofReal (w true) * F true + ENNReal.ofReal (w false) * F false := by
  unfold dist
  rw [lintegral_withDensity_eq_lintegral_mul _ (Measurable.of_discrete) (Measurable.of_discrete),
    lintegral_count, tsum_fintype]
  simp

theorem integral_dist {w : Bool → ℝ} (h : ∀ b, 0 ≤ w b) (φ : Bool → ℝ) :
    Integrable φ (dist w) ∧ ∫ y, φ y ∂(dist w) = w true * φ true + w false * φ false := by
  have hfin : IsFiniteMeasure (dist w) := by
    refine ⟨?_⟩
    have := lintegral_dist w fun _ => 1
    rw [lintegral_one] at this
    rw [this]
    simp
  have hi : Integrable φ (dist w) := Integrable.of_finite
  refine ⟨hi, ?_⟩
  rw [integral_fintype hi]
  have hs : ∀ b, (dist w).real {b} = w b := by
    intro b
    unfold dist Measure.real
    rw [withDensity_apply _ (measurableSet_singleton b), lintegral_singleton,
      Measure.count_singleton, mul_one, ENNReal.toReal_ofReal (h b)]
  simp [hs]

/-- A fair coin: law of the random inputs and prior of the state. -/
noncomputable def coin : Measure Bool := dist fun _ => 1 / 2

instance : IsProbabilityMeasure coin := by
  refine ⟨?_⟩
  have := lintegral_dist (fun _ => 1 / 2) fun _ => 1
  rw [lintegral_one] at this
  unfold coin
  rw [this, mul_one, ← ENNReal.ofReal_add (by norm_num) (by norm_num)]
  norm_num

/-- The next state is `true` with probability 3/4. -/
noncomputable def tr (y : Bool) : ℝ := if y then 3 / 4 else 1 / 4

/-- The sensor is right with probability 3/4. -/
noncomputable def lik (z y : Bool) : ℝ := if y = z then 3 / 4 else 1 / 4

/-- Pdf of the system model. -/
noncomputable def sysPdf : CondPdf Bool Bool ℝ := ⟨1, fun _ y => .ok (tr y), fun _ => .ok true⟩

/-- System model without inputs. -/
noncomputable def sys : SysModel Bool Bool ℝ := ⟨⟨some sysPdf, some true⟩, fun r _ _ => .ok r⟩

/-- The proposal throws a fair coin. -/
noncomputable def prop : Proposal Bool Bool ℝ := ⟨1, fun _ _ => .ok (1 / 2), fun r _ _ => .ok r⟩

/-- Pdf of the measurement model. -/
noncomputable def measPdf : CondPdf Bool Bool ℝ :=
  ⟨1, fun a z => match a with | [y] => .ok (lik z y) | _ => .ub, fun _ => .ok true⟩

/-- Measurement model without sensor parameters. -/
noncomputable def meas : Model Bool Bool ℝ := ⟨some measPdf, some true⟩

theorem tr_nonneg (y : Bool) : 0 ≤ tr y := by unfold tr; split <;> norm_num

theorem lik_nonneg (z y : Bool) : 0 ≤ lik z y := by unfold lik; split <;> norm_num

theorem sys_isTransition : IsTransition sys fun _ _ y => tr y :=
  ⟨sysPdf, rfl, fun _ _ y => ⟨tr_nonneg y, rfl⟩⟩

theorem prop_isProposal : IsProposal prop sys fun _ _ _ => 1 / 2 where
  arg0 := Nat.one_pos
  arg1 := by simp [sys]
  density := fun _ _ _ => ⟨by norm_num, rfl⟩
  total := fun r _ _ _ => ⟨r, rfl⟩

theorem meas_isLikelihood : IsLikelihood meas fun z y _ => lik z y :=
  ⟨measPdf, rfl, fun z y _ => ⟨lik_nonneg z y, rfl⟩⟩

/-- The transition kernel of the system model. -/
noncomputable def κ : Kernel Bool Bool := Kernel.const _ (dist tr)

/-- Infinitely many independent fair coins. -/
noncomputable def coins : Measure (Nat ⊕ Nat × Nat → Bool) := Measure.infinitePi fun _ => coin

instance : IsProbabilityMeasure coins := by unfold coins; infer_instance

theorem draws : IndependentDraws coins (fun i ω => ω (.inl i)) (fun t i ω => ω (.inr (t, i)))
    coin fun _ => coin where
  measurable_x := fun i => measurable_pi_apply _
  measurable_r := fun t i => measurable_pi_apply _
  law_x := fun i => Measure.infinitePi_map_eval (fun _ => coin) _
  law_r := fun t i => Measure.infinitePi_map_eval (fun _ => coin) _
  indep := by
    have h : iIndepFun (fun (k : Nat ⊕ Nat × Nat) (ω : Nat ⊕ Nat × Nat → Bool) => ω k) coins :=
      iIndepFun_infinitePi (P := fun _ => coin) (X := fun _ b => b) fun _ => measurable_id
    rw [iIndepFun_iff_iIndep] at h
    convert h using 1
    funext k
    cases k <;> rfl

/-- Filters with 1, 2, 3, … particles drawn from the prior exist. -/
theorem filters (q : Option (Proposal Bool Bool ℝ)) :
    ∃ (prior : Nat → (Nat ⊕ Nat × Nat → Bool) → MCPdf ℝ Bool)
      (f : Nat → (Nat ⊕ Nat × Nat → Bool) → ParticleFilter Bool Bool ℝ),
      (∀ N ω, 0 < N → Holds (prior N ω) ((List.range N).map fun i => (ω (.inl i), 1 / (N : ℝ)))) ∧
      ∀ N ω, 0 < N → ParticleFilter.make false (prior N ω) q 5 0 .multinomial = .ok (f N ω) := by
  have h : ∀ (N : Nat) (ω : Nat ⊕ Nat × Nat → Bool), ∃ (prior : MCPdf ℝ Bool)
      (f : ParticleFilter Bool Bool ℝ), 0 < N →
      Holds prior ((List.range N).map fun i => (ω (.inl i), 1 / (N : ℝ))) ∧
      ParticleFilter.make false prior q 5 0 .multinomial = .ok f := by
    intro N ω
    have hn : ∀ N : Nat, 0 < N →
        Normalised ((List.range N).map fun i => (ω (.inl i), 1 / (N : ℝ))) := by
      intro N hN0
      have hN' : (N : ℝ) ≠ 0 := by exact_mod_cast hN0.ne'
      refine ⟨?_, ?_⟩
      · intro w hw
        simp only [List.map_map, List.mem_map, Function.comp] at hw
        obtain ⟨_, _, rfl⟩ := hw
        positivity
      · simp [List.map_map, Function.comp_def, hN']
    by_cases hN : 0 < N
    · obtain ⟨prior, f, _, h2, _, h4, _⟩ := start_exists (R := Bool) false (hn N hN) q .multinomial
        (period := 5) (threshold := 0) (by norm_num)
      exact ⟨prior, f, fun _ => ⟨h2, h4⟩⟩
    · obtain ⟨prior, f, _⟩ := start_exists (R := Bool) false (hn 1 one_pos) q .multinomial
        (period := 5) (threshold := 0) (by norm_num)
      exact ⟨prior, f, fun h => absurd h hN⟩
  choose prior f h using h
  exact ⟨prior, f, fun N ω hN => (h N ω hN).1, fun N ω hN => (h N ω hN).2⟩

theorem uniforms_one : ∀ t : Nat, Uniforms ((fun _ _ => 1 : Nat → Nat → ℝ) t) :=
  fun _ _ => ⟨one_pos, le_rfl⟩

theorem bind_const (w : Bool → ℝ) : coin.bind (Kernel.const Bool (dist w)) = dist w := by
  have : (⇑(Kernel.const Bool (dist w)) : Bool → Measure Bool) = fun _ => dist w := by
    funext b; exact Kernel.const_apply _ _
  rw [this, Measure.bind_const, measure_univ, one_smul]

/-- One throw with weights `w` and one reading `true`. -/
theorem exact_one {w : Bool → ℝ} (hw : ∀ b, 0 ≤ w b) (h1 : w true + w false = 1) :
    exactFilter (fun _ => Kernel.const Bool (dist w)) (fun _ y => ENNReal.ofReal (lik true y)) coin
        1 =
      dist (fun b => w b * lik true b / (w true * (3 / 4) + w false * (1 / 4))) ∧
    Possible (fun _ => Kernel.const Bool (dist w)) (fun _ y => ENNReal.ofReal (lik true y)) coin
      1 := by
  have e0 : 0 < w true * (3 / 4) + w false * (1 / 4) := by
    have := hw true
    have := hw false
    linarith
  have hev : evidenceOf (Kernel.const Bool (dist w)) (fun y => ENNReal.ofReal (lik true y)) coin =
      ENNReal.ofReal (w true * (3 / 4) + w false * (1 / 4)) := by
    unfold evidenceOf
    rw [bind_const, lintegral_dist, ← ENNReal.ofReal_mul (hw _),
      ← ENNReal.ofReal_mul (hw _), ← ENNReal.ofReal_add
        (mul_nonneg (hw _) (lik_nonneg _ _)) (mul_nonneg (hw _) (lik_nonneg _ _))]
    norm_num [lik]
  generalize w true * (3 / 4) + w false * (1 / 4) = e at *
  constructor
  · show bayesStep _ _ coin = _
    unfold bayesStep
    rw [hev, bind_const]
    apply Measure.ext_of_lintegral
    intro F hF
    rw [lintegral_smul_measure, lintegral_withDensity_eq_lintegral_mul _ Measurable.of_discrete hF,
      lintegral_dist, lintegral_dist, smul_eq_mul, mul_add, Pi.mul_apply, Pi.mul_apply,
      ← ENNReal.ofReal_inv_of_pos e0]
    have he : (0 : ℝ) ≤ e⁻¹ := inv_nonneg.2 e0.le
    have k : ∀ b, ENNReal.ofReal e⁻¹ * (ENNReal.ofReal (w b) * (ENNReal.ofReal (lik true b) * F b)) =
        ENNReal.ofReal (w b * lik true b / e) * F b := by
      intro b
      rw [← mul_assoc, ← mul_assoc, ← ENNReal.ofReal_mul he,
        ← ENNReal.ofReal_mul (mul_nonneg he (hw _))]
      congr 2
      rw [div_eq_inv_mul, mul_assoc]
    rw [k, k]
  · intro t ht
    obtain rfl : t = 0 := by omega
    show evidenceOf _ _ coin ≠ 0 ∧ evidenceOf _ _ coin ≠ ∞
    rw [hev]
    exact ⟨by simpa using e0, ENNReal.ofReal_ne_top⟩

/-- An update without a measurement is always possible. -/
theorem exact_pred (w : Bool → ℝ) (hw : ∀ b, 0 ≤ w b) (h1 : w true + w false = 1) :
    exactFilter (fun _ => Kernel.const Bool (dist w)) (fun _ _ => 1) coin 1 = dist w ∧
    Possible (fun _ => Kernel.const Bool (dist w)) (fun _ _ => 1) coin 1 := by
  have hev : evidenceOf (Kernel.const Bool (dist w)) (fun _ => 1) coin = 1 := by
    unfold evidenceOf
    rw [bind_const, lintegral_dist, mul_one, mul_one, ← ENNReal.ofReal_add (hw _) (hw _), h1,
      ENNReal.ofReal_one]
  constructor
  · show bayesStep _ _ coin = _
    unfold bayesStep
    rw [hev, bind_const, inv_one, one_smul]
    exact withDensity_one
  · intro t ht
    obtain rfl : t = 0 := by omega
    show evidenceOf _ _ coin ≠ 0 ∧ evidenceOf _ _ coin ≠ ∞
    rw [hev]
    exact ⟨one_ne_zero, ENNReal.one_ne_top⟩

/-- Indicator of `true`. -/
noncomputable def heads (b : Bool) : ℝ := if b then 1 else 0

end Toss

open Toss

theorem isRoot_id : IsRoot (fun _ y => y : Nat → ℝ → ℝ) :=
  ⟨fun _ _ h0 h1 => ⟨h0, h1⟩, fun _ _ h => h⟩

/-- `C75_particleFilter` on the fixture: the proposal throws a fair coin, the system a biased one,
and after the reading `true` the estimates tend to 9/10. -/
example : ∃ f : Nat → (Nat ⊕ Nat × Nat → Bool) → ParticleFilter Bool Bool ℝ,
    ∀ᵐ ω ∂coins, ∃ est : Nat → List (Bool × ℝ),
      (∀ᶠ N : Nat in atTop, ∃ f', ParticleFilter.run (ParticleFilter.update false fun _ y => y)
          [(⟨fun i => ω (.inr (0, i)), fun _ => 1, fun _ => 1⟩, ⟨some sys, true, some meas, true, true⟩)]
          (f N ω) = .ok (true, f') ∧ Holds f'.postGet (est N)) ∧
      Tendsto (fun N => averageOver heads (est N)) atTop (𝓝 (9 / 10)) := by
  obtain ⟨prior, f, h1, h2⟩ := filters (some prop)
  refine ⟨f, ?_⟩
  have he : exactFilter (fun _ => Toss.κ) (fun _ y => ENNReal.ofReal (lik true y)) coin 1 = _ :=
    (exact_one tr_nonneg (by norm_num [tr])).1
  have hnn : ∀ b, 0 ≤ tr b * lik true b / (tr true * (3 / 4) + tr false * (1 / 4)) := by
    intro b; cases b <;> norm_num [tr, lik]
  have h := C75_particleFilter (MV := Bool) (dflt := false) (root := fun _ y => y) isRoot_id draws
    (q := prop) (c := fun _ => ⟨some sys, true, some meas, true, true⟩) (κ := fun _ => Toss.κ)
    (ℓ := fun _ y => ENNReal.ofReal (lik true y)) (T := 1)
    (fun t _ => UpdatesBy.full (draw := fun r _ => r) (base := Measure.count) sys_isTransition
      prop_isProposal meas_isLikelihood (by simp [WithSensor, meas]) (fun _ _ _ => rfl)
      measurable_fst Measurable.of_discrete Measurable.of_discrete Measurable.of_discrete
      (fun _ => Measure.map_id) (fun _ => rfl) (fun _ _ _ _ => by norm_num))
    (exact_one tr_nonneg (by norm_num [tr])).2 uniforms_one uniforms_one zero_le_one (Or.inr (by norm_num)) h1 h2
    (φ := heads) Measurable.of_discrete
    (by rw [he]; exact (integral_dist hnn _).1)
  rw [he, (integral_dist hnn _).2] at h
  norm_num [heads, tr, lik, -eventually_atTop] at h
  exact h

/-- `C75_bootstrap` on the fixture. Here the system model draws with the fair coin, and the reading
`true` brings the probability to 3/4. -/
example : ∃ f : Nat → (Nat ⊕ Nat × Nat → Bool) → ParticleFilter Bool Bool ℝ,
    ∀ᵐ ω ∂coins, ∃ est : Nat → List (Bool × ℝ),
      (∀ᶠ N : Nat in atTop, ∃ f', ParticleFilter.run (ParticleFilter.bootUpdate false fun _ y => y)
          [(⟨fun i => ω (.inr (0, i)), fun _ => 1, fun _ => 1⟩,
            ⟨some sys, true, some meas, true, true⟩)]
          (f N ω) = .ok (true, f') ∧ Holds f'.postGet (est N)) ∧
      Tendsto (fun N => averageOver heads (est N)) atTop (𝓝 (3 / 4)) := by
  obtain ⟨prior, f, h1, h2⟩ := filters none
  refine ⟨f, ?_⟩
  have he := exact_one (w := fun _ => 1 / 2) (by norm_num) (by norm_num)
  have hnn : ∀ b, (0 : ℝ) ≤ 1 / 2 * lik true b / (1 / 2 * (3 / 4) + 1 / 2 * (1 / 4)) := by
    intro b; cases b <;> norm_num [lik]
  have h := C75_bootstrap (MV := Bool) (dflt := false) (root := fun _ y => y) isRoot_id draws
    (c := fun _ => ⟨some sys, true, some meas, true, true⟩)
    (κ := fun _ => Kernel.const Bool (dist fun _ => 1 / 2))
    (ℓ := fun _ y => ENNReal.ofReal (lik true y)) (T := 1)
    (fun t _ => BootUpdatesBy.full (draw := fun r _ => r) sys_isTransition meas_isLikelihood
      (fun r _ _ _ => ⟨r, rfl⟩) (fun _ _ _ => rfl)
      measurable_fst Measurable.of_discrete (fun _ => Measure.map_id.symm))
    he.2 uniforms_one uniforms_one zero_le_one (Or.inr (by norm_num)) h1 h2
    (φ := heads) Measurable.of_discrete
    (by rw [he.1]; exact (integral_dist hnn _).1)
  rw [he.1, (integral_dist hnn _).2] at h
  norm_num [heads, lik, -eventually_atTop] at h
  exact h

/-- An update without a measurement moves the particles by the proposal and does not correct their
weights: with a fair-coin proposal the estimate of a state thrown with probability 3/4 tends to 1/2,
so the statement of C75 fails for a proposal that differs from the system model. -/
theorem C75_prediction_false :
    IsTransition sys (fun _ _ y => tr y) ∧ IsProposal prop sys (fun _ _ _ => 1 / 2) ∧
    (∀ x, coin.map (fun r => (fun r (_ : Bool) => r : Bool → Bool → Bool) r x) =
      Measure.count.withDensity fun _ => ENNReal.ofReal (1 / 2)) ∧
    (∀ x, Toss.κ x = Measure.count.withDensity fun y => ENNReal.ofReal (tr y)) ∧
    ∫ y, heads y ∂(exactFilter (fun _ => Toss.κ) (fun _ _ => 1) coin 1) = 3 / 4 ∧
    ∃ (prior : Nat → (Nat ⊕ Nat × Nat → Bool) → MCPdf ℝ Bool)
      (f : Nat → (Nat ⊕ Nat × Nat → Bool) → ParticleFilter Bool Bool ℝ),
      (∀ N ω, 0 < N → Holds (prior N ω) ((List.range N).map fun i => (ω (.inl i), 1 / (N : ℝ)))) ∧
      (∀ N ω, 0 < N →
        ParticleFilter.make false (prior N ω) (some prop) 5 0 .multinomial = .ok (f N ω)) ∧
      ∀ᵐ ω ∂coins, ∃ est : Nat → List (Bool × ℝ),
        (∀ᶠ N : Nat in atTop, ∃ f', ParticleFilter.run (ParticleFilter.update false fun _ y => y)
            [(⟨fun i => ω (.inr (0, i)), fun _ => 1, fun _ => 1⟩,
              (⟨some sys, true, none, true, true⟩ : UpdateCall Bool Bool Bool ℝ))]
            (f N ω) = .ok (true, f') ∧ Holds f'.postGet (est N)) ∧
        Tendsto (fun N => averageOver heads (est N)) atTop (𝓝 (1 / 2)) := by
  have hx := exact_pred tr tr_nonneg (by norm_num [tr])
  refine ⟨sys_isTransition, prop_isProposal, fun _ => Measure.map_id, fun _ => rfl, ?_, ?_⟩
  · unfold Toss.κ
    rw [hx.1, (integral_dist tr_nonneg _).2]
    norm_num [tr, heads]
  obtain ⟨prior, f, h1, h2⟩ := filters (some prop)
  refine ⟨prior, f, h1, h2, ?_⟩
  have he := exact_pred (fun _ => 1 / 2) (by norm_num) (by norm_num)
  have h := converges_of_steps (MV := Bool) (dflt := false) draws
    (good := fun f => f.proposal = some prop)
    (step := ParticleFilter.update false fun _ y => y)
    (c := fun _ => ⟨some sys, true, none, true, true⟩)
    (κ := fun _ => Kernel.const Bool (dist fun _ => 1 / 2)) (ℓ := fun _ _ => 1) (T := 1)
    (fun t _ => ⟨_, _, stepLaw_boot (draw := fun r _ => r) (L := fun _ => 1) (fun _ => zero_le_one)
      measurable_const (fun _ => by simp) measurable_fst (fun _ => Measure.map_id.symm),
      pf_system isRoot_id sys_isTransition prop_isProposal (fun _ _ _ => rfl) true true⟩)
    he.2 uniforms_one uniforms_one (Or.inr (by norm_num)) h1 h2 (fun _ hg => hg)
    (φ := heads) Measurable.of_discrete
    (by rw [he.1]; exact (integral_dist (by norm_num) _).1)
  rw [he.1, (integral_dist (by norm_num) _).2] at h
  simpa [heads] using h

end BFL.Props
