import Verif.Model.LinearParticle
import Verif.Props.KalmanExact
import Verif.Props.ParticleMoments
import Verif.Props.LinearModelLaw

/-!
# C103: the particle filters converge to what the Kalman filters report
-/

set_option linter.unusedSectionVars false

namespace BFL.Props

open Matrix MeasureTheory ProbabilityTheory Spec Filter MCPdf ParticleFilter
open scoped ENNReal Topology

variable {n k : Nat} {U : Type}

/-- After a history of calls the linear model has the matrix `A` for the state and the noise covariance `S`, and `off u`
is what an input `u` (if the model takes one) and the mean of the noise add. -/
inductive Linear (l : LinModel ℝ k) (A : Matrix (Fin k) (Fin n) ℝ) :
    ((Fin n → ℝ) → Fin k → ℝ) → Matrix (Fin k) (Fin k) ℝ → Prop
  | noInput {mu : Fin k → ℝ} {S : Matrix (Fin k) (Fin k) ℝ} (h : LinearNoInput l A mu S) :
      Linear l A (fun _ => mu) S
  | withInput {B : Matrix (Fin k) (Fin n) ℝ} {mu : Fin k → ℝ} {S : Matrix (Fin k) (Fin k) ℝ}
      (h : LinearWithInput l A B mu S) : Linear l A (fun u => B *ᵥ u + mu) S

/-- The model that the Kalman filter asks answers its three queries, given the input `u`, as the linear model `l`. -/
structure AnswersAs (mo : AnalyticModel ℝ n k U) (uo : Option U) (l : LinModel ℝ k) (u : Fin n → ℝ) : Prop where
  mean : ∀ x, mo.predictionGet uo x = Prod.fst <$> l.predictionGet ⟨n, u⟩ ⟨n, x⟩
  jacobian : ∀ x, (fun M : Matrix (Fin k) (Fin n) ℝ => (⟨k, n, M⟩ : DMat ℝ)) <$> mo.dfGet uo x =
    Prod.fst <$> l.dfGet ⟨n, u⟩ ⟨n, x⟩
  cov : ∀ x, mo.covGet uo x = Prod.fst <$> l.covGet ⟨n, u⟩ ⟨n, x⟩

theorem map_inj_ok {α β : Type} {g : α → β} (hg : Function.Injective g) {o : Outcome α} {a : α}
    (h : g <$> o = .ok (g a)) : o = .ok a := by
  cases o with
  | ok b => exact congrArg Outcome.ok (hg (Outcome.ok.inj h))
  | abort => cases h
  | ub => cases h

theorem Linear.isLinear {l : LinModel ℝ k} {A : Matrix (Fin k) (Fin n) ℝ} {off : (Fin n → ℝ) → Fin k → ℝ}
    {S : Matrix (Fin k) (Fin k) ℝ} (hl : Linear l A off S) {mo : AnalyticModel ℝ n k U} {uo : Option U}
    {u : Fin n → ℝ} (h : AnswersAs mo uo l u) : mo.IsLinear uo A (off u) S := by
  have hinj : Function.Injective fun M : Matrix (Fin k) (Fin n) ℝ => (⟨k, n, M⟩ : DMat ℝ) := by
    intro M M' e
    simpa using e
  intro x
  have m1 := h.mean x
  have m2 := h.jacobian x
  have m3 := h.cov x
  cases hl with
  | @noInput mu _ hl =>
    obtain ⟨⟨a1, e1⟩, ⟨a2, e2⟩, ⟨a3, e3⟩, -⟩ := C44_prediction_no_input l A mu S hl ⟨n, u⟩ x
    rw [e1] at m1; rw [e2] at m2; rw [e3] at m3
    exact ⟨m1, map_inj_ok hinj m2, m3⟩
  | @withInput B mu _ hl =>
    obtain ⟨⟨a1, e1⟩, ⟨a2, e2⟩, ⟨a3, e3⟩, -⟩ := C44_prediction l A B mu S hl u x
    rw [e1] at m1; rw [e2] at m2; rw [e3] at m3
    exact ⟨by rw [m1, ← add_assoc]; rfl, map_inj_ok hinj m2, m3⟩

/-- What the model does as seen by the particle filters. -/
theorem Linear.through (be : Backend) {l : LinModel ℝ k} {A : Matrix (Fin k) (Fin n) ℝ}
    {off : (Fin n → ℝ) → Fin k → ℝ} {S : Matrix (Fin k) (Fin k) ℝ} (hl : Linear l A off S) :
    Model.make (some (l.pdf.toCondPdf be n 0)) = .ok (l.toModel be n) ∧
    ∀ (x u : Fin n → ℝ), ∃ p p',
      l.pdf.setEach 0 ((if l.pdf.numArgs = 1 then [x] else [x, u]).map fun y => (⟨n, y⟩ : DVec ℝ)) = .ok p ∧
      p.expectedValueGet = .ok (A *ᵥ x + off u, p') ∧ p'.sigma = S ∧
      (l.without = true ↔ l.pdf.numArgs = 1) := by
  cases hl with
  | @noInput mu _ hl =>
    obtain ⟨-, hn, hw, -⟩ := hl.state
    refine ⟨?_, fun x u => ?_⟩
    · simp [Model.make, Model.assign, LinModel.toModel, LinCond.toCondPdf, hn, hw]
    · obtain ⟨p, -, e, w, hn', hA, hx, hmu, hsig⟩ := condition_one hl ⟨n, u⟩ ⟨n, x⟩
      obtain ⟨p', hp, hsame⟩ := mean_one hn' hA hx
      rw [hmu] at hp
      refine ⟨p, p', ?_, hp, hsame.2.2.2.2.symm.trans hsig, by simp [hn, hw]⟩
      simp only [LinModel.conditionState, cassert_true hw, Outcome.ok_bind] at e
      simp only [hn, if_true, List.map_cons, List.map_nil, LinCond.setEach, e, Outcome.ok_bind]
  | @withInput B mu _ hl =>
    obtain ⟨-, hn, hw, -⟩ := hl.state
    refine ⟨?_, fun x u => ?_⟩
    · simp [Model.make, Model.assign, LinModel.toModel, LinCond.toCondPdf, hn, hw]
    · obtain ⟨p, -, e, w, hn', hA, hB, hx, hu, hmu, hsig⟩ := condition_two hl ⟨n, u⟩ ⟨n, x⟩
      obtain ⟨p', hp, hsame⟩ := mean_two hn' hA hB hx hu
      rw [hmu, add_assoc] at hp
      refine ⟨p, p', ?_, hp, hsame.2.2.2.2.symm.trans hsig, by simp [hn, hw]⟩
      simp only [LinModel.conditionBoth, cassert_true hw, Outcome.ok_bind, Outcome.bind_eq_ok] at e
      obtain ⟨q, e1, e2⟩ := e
      simp [hn, LinCond.setEach, e1, e2, Outcome.ok_bind]

theorem Linear.isLikelihood (be : Backend) {l : LinModel ℝ k} {A : Matrix (Fin k) (Fin n) ℝ}
    {off : (Fin n → ℝ) → Fin k → ℝ} {S : Matrix (Fin k) (Fin k) ℝ} (hl : Linear l A off S) (hS : PD S) :
    IsLikelihood (l.toModel be n) fun z x s => normalDensity (A *ᵥ x + off s) S z := by
  obtain ⟨h1, h2⟩ := hl.through be
  refine ⟨_, h1, fun z x s => ⟨(normalDensity_pos hS _ _).le, ?_⟩⟩
  obtain ⟨p, p', e, hp, hs, -⟩ := h2 x s
  show LinModel.probabilityFrom be (l.pdf.setEach 0
    ((if l.pdf.numArgs = 1 then [x] else [x, s]).map fun y => (⟨n, y⟩ : DVec ℝ))) z = _
  rw [(from_condition be e hp hs).1, conditional_density be hS]

theorem Linear.isTransition (be : Backend) {l : LinModel ℝ n} {A : Matrix (Fin n) (Fin n) ℝ}
    {off : (Fin n → ℝ) → Fin n → ℝ} {S : Matrix (Fin n) (Fin n) ℝ} (hl : Linear l A off S) (hS : PD S) :
    IsTransition (l.toSysModel be) fun x u y => normalDensity (A *ᵥ x + off u) S y := by
  obtain ⟨p, h1, h2⟩ := hl.isLikelihood be hS
  exact ⟨p, h1, fun x u y => h2 y x u⟩

theorem Linear.draw (be : Backend) {l : LinModel ℝ n} {A : Matrix (Fin n) (Fin n) ℝ}
    {off : (Fin n → ℝ) → Fin n → ℝ} {S : Matrix (Fin n) (Fin n) ℝ} (hl : Linear l A off S)
    (r x u prev : Fin n → ℝ) : (l.toSysModel be).draw r (argsFor (l.toSysModel be) x u) prev =
      .ok ((cholesky Real.sqrt machEps S).2 *ᵥ r + (A *ᵥ x + off u)) := by
  obtain ⟨-, h2⟩ := hl.through be
  obtain ⟨p, p', e, hp, hs, hw⟩ := h2 x u
  have ha : argsFor (l.toSysModel be) x u = if l.pdf.numArgs = 1 then [x] else [x, u] := by
    unfold argsFor
    show (if some l.without = some true then [x] else [x, u]) = _
    simp only [Option.some.injEq, hw]
  rw [ha]
  show LinModel.simulateFrom (l.pdf.setEach 0
    ((if l.pdf.numArgs = 1 then [x] else [x, u]).map fun y => (⟨n, y⟩ : DVec ℝ))) .default prev r = _
  rw [(from_condition be e hp hs).2, conditional_sample _ _ (Or.inl rfl)]

/-- One update of a Kalman filter and one update of a bootstrap filter with the same linear models, inputs and
readings. The process noise must be distinguishable from zero (`C42_failure`), the measurement noise positive definite. -/
inductive SameUpdate (be : Backend) :
    KStep ℝ n U → UpdateCall (Fin n → ℝ) (Fin n → ℝ) (Fin k → ℝ) ℝ → Prop
  | full {ls : LinModel ℝ n} {lm : LinModel ℝ k} {sys : AnalyticModel ℝ n n U} {meas : AnalyticModel ℝ n k U}
      {uo so : Option U} {u s : Fin n → ℝ} {z : Fin k → ℝ}
      {A Q : Matrix (Fin n) (Fin n) ℝ} {H : Matrix (Fin k) (Fin n) ℝ} {R : Matrix (Fin k) (Fin k) ℝ}
      {off : (Fin n → ℝ) → Fin n → ℝ} {off' : (Fin n → ℝ) → Fin k → ℝ}
      (hs : Linear ls A off Q) (hQ : PSD (Q - machEps • (1 : Matrix (Fin n) (Fin n) ℝ)))
      (hm : Linear lm H off' R) (hR : PD R) (asys : AnswersAs sys uo ls u) (ameas : AnswersAs meas so lm s) :
      SameUpdate be ⟨k, some (sys, uo), some (meas, z, so)⟩ ⟨some (ls.toSysModel be), u, some (lm.toModel be n), z, s⟩
  | measurement {lm : LinModel ℝ k} {meas : AnalyticModel ℝ n k U}
      {so : Option U} {s : Fin n → ℝ} {z : Fin k → ℝ}
      {H : Matrix (Fin k) (Fin n) ℝ} {R : Matrix (Fin k) (Fin k) ℝ} {off' : (Fin n → ℝ) → Fin k → ℝ} (u : Fin n → ℝ)
      (hm : Linear lm H off' R) (hR : PD R) (ameas : AnswersAs meas so lm s) :
      SameUpdate be ⟨k, none, some (meas, z, so)⟩ ⟨none, u, some (lm.toModel be n), z, s⟩
  | system {ls : LinModel ℝ n} {sys : AnalyticModel ℝ n n U} {uo : Option U} {u : Fin n → ℝ}
      {A Q : Matrix (Fin n) (Fin n) ℝ} {off : (Fin n → ℝ) → Fin n → ℝ} (m : Nat) (z : Fin k → ℝ) (s : Fin n → ℝ)
      (hs : Linear ls A off Q) (hQ : PSD (Q - machEps • (1 : Matrix (Fin n) (Fin n) ℝ)))
      (asys : AnswersAs sys uo ls u) :
      SameUpdate be ⟨m, some (sys, uo), none⟩ ⟨some (ls.toSysModel be), u, none, z, s⟩

/-- The kernel of drawing with random inputs. -/
theorem exists_kernel {R X : Type} [MeasurableSpace R] [MeasurableSpace X] (ν : Measure R) [IsProbabilityMeasure ν]
    {draw : R → X → X} (hd : Measurable fun p : R × X => draw p.1 p.2) :
    ∃ κ : Kernel X X, ∀ x, κ x = ν.map fun r => draw r x := by
  refine ⟨((Kernel.const X ν) ×ₖ Kernel.id).map fun p => draw p.1 p.2, fun x => ?_⟩
  rw [Kernel.map_apply _ hd, Kernel.prod_apply, Kernel.const_apply, Kernel.id_apply, Measure.prod_dirac,
    Measure.map_map hd (by fun_prop)]
  rfl

theorem linear_kernel {A Q : Matrix (Fin n) (Fin n) ℝ}
    (hQ : PSD (Q - machEps • (1 : Matrix (Fin n) (Fin n) ℝ))) (b : Fin n → ℝ) :
    PD Q ∧ Measurable (fun p : (Fin n → ℝ) × (Fin n → ℝ) =>
        (cholesky Real.sqrt machEps Q).2 *ᵥ p.1 + (A *ᵥ p.2 + b)) ∧
      ∃ κ : Kernel (Fin n → ℝ) (Fin n → ℝ),
        (∀ x, κ x = (stdNormals n).map fun r => (cholesky Real.sqrt machEps Q).2 *ᵥ r + (A *ᵥ x + b)) ∧
        ∀ x, κ x = normalLaw (A *ᵥ x + b) Q := by
  have hd : Measurable (fun p : (Fin n → ℝ) × (Fin n → ℝ) =>
      (cholesky Real.sqrt machEps Q).2 *ᵥ p.1 + (A *ᵥ p.2 + b)) := by fun_prop
  obtain ⟨κ, hκ⟩ := exists_kernel (stdNormals n)
    (draw := fun r x => (cholesky Real.sqrt machEps Q).2 *ᵥ r + (A *ᵥ x + b)) hd
  refine ⟨(conditional_law 0 Q hQ (Or.inl rfl : SampleMthd.default = .default ∨ _) 0).1, hd, κ, hκ, fun x => ?_⟩
  have h := (conditional_law (A *ᵥ x + b) Q hQ (Or.inl rfl : SampleMthd.default = .default ∨ _) 0).2.2
  simp only [conditional_sample _ _ (Or.inl rfl : SampleMthd.default = .default ∨ _)] at h
  rw [hκ]
  exact h

theorem SameUpdate.step {be : Backend} {st : KStep ℝ n U}
    {c : UpdateCall (Fin n → ℝ) (Fin n → ℝ) (Fin k → ℝ) ℝ} (h : SameUpdate be st c) :
    ∃ κ ℓ, LinearStep st κ ℓ ∧ BootUpdatesBy c (stdNormals n) κ ℓ := by
  cases h with
  | @full ls lm sys meas uo so u s z A Q H R off off' hs hQ hm hR asys ameas =>
    obtain ⟨hpd, hd, κ, k1, k2⟩ := linear_kernel (A := A) hQ (off u)
    have hL : Measurable fun y : Fin n → ℝ => normalDensity (H *ᵥ y + off' s) R z :=
      (continuous_normalDensity (by fun_prop) continuous_const R).measurable
    exact ⟨κ, _, .full (hs.isLinear asys) hpd (hm.isLinear ameas) hR k2,
      .full (L := fun z x s => normalDensity (H *ᵥ x + off' s) R z) (hs.isTransition be hpd) (hm.isLikelihood be hR)
        (fun r x u prev => ⟨_, hs.draw be r x u prev⟩) (fun r x prev => hs.draw be r x u prev) hd hL k1⟩
  | @measurement lm meas so s z H R off' u hm hR ameas =>
    have hL : Measurable fun y : Fin n → ℝ => normalDensity (H *ᵥ y + off' s) R z :=
      (continuous_normalDensity (by fun_prop) continuous_const R).measurable
    exact ⟨Kernel.id, _, .measurement (hm.isLinear ameas) hR,
      .measurement (L := fun z x s => normalDensity (H *ᵥ x + off' s) R z) u s z (hm.isLikelihood be hR) hL⟩
  | @system ls sys uo u A Q off m z s hs hQ asys =>
    obtain ⟨hpd, hd, κ, k1, k2⟩ := linear_kernel (A := A) hQ (off u)
    exact ⟨κ, _, .system (hs.isLinear asys) hpd k2,
      .system s z (hs.isTransition be hpd) (fun r x u prev => ⟨_, hs.draw be r x u prev⟩)
        (fun r x prev => hs.draw be r x u prev) hd k1⟩

variable {R MV Ω : Type} [MeasurableSpace R] [MeasurableSpace Ω]
  {dflt : Fin n → ℝ} {period : Nat} {threshold : Nat → ℝ} {P : Measure Ω} [IsProbabilityMeasure P]
  {x : Nat → Ω → Fin n → ℝ} {ν : Nat → Measure R}

theorem exact_moments {π : Measure (Fin n → ℝ)} {m : Fin n → ℝ} {S : Matrix (Fin n) (Fin n) ℝ} (hS : PD S)
    (h : π = normalLaw m S) : (∀ i, Integrable (fun y : Fin n → ℝ => y i) π) ∧
      (∀ i j, Integrable (fun y : Fin n → ℝ => y i * y j) π) ∧ (∀ i, ∫ y, y i ∂π = m i) ∧
      ∀ i j, (∫ y, y i * y j ∂π) - m i * m j = S i j := by
  subst h
  obtain ⟨h1, h2⟩ := normalLaw_moments (m := m) hS
  refine ⟨fun i => (h1 i).1, fun i j => (h2 i j).1, fun i => (h1 i).2, fun i j => ?_⟩
  rw [(h2 i j).2]
  ring

/-- **C103, particle filter with any proposal.** Kalman filter and particle filter are about the same linear Gaussian
world, and the particles are drawn from the Gaussian with which the Kalman filter starts. The probability that mean and
covariance reported by the particle filter are closer than `ε` to those of the Kalman filter tends to 1 with the number
of particles. -/
theorem C103_particleFilter [∀ t, IsProbabilityMeasure (ν t)] {ρ : Nat → Nat → Ω → ℝ × R × ℝ}
    (be : Backend) {kind : KF.Kind ℝ n} (hk : kind.Runs) {f : KF ℝ n} (hf : PD f.sigma)
    (h : IndependentDraws P x ρ (normalLaw f.mu f.sigma) fun t => Spec.uniform.prod ((ν t).prod Spec.uniform))
    {q : Proposal R (Fin n → ℝ) ℝ} {st : Nat → KStep ℝ n U} {c : Nat → UpdateCall R (Fin n → ℝ) MV ℝ}
    {κ : Nat → Kernel (Fin n → ℝ) (Fin n → ℝ)} {ℓ : Nat → (Fin n → ℝ) → ℝ≥0∞} {T : Nat}
    (hst : ∀ t < T, LinearStep (st t) (κ t) (ℓ t)) (hc : ∀ t < T, UpdatesBy q (c t) (ν t) (κ t) (ℓ t))
    {prior : Nat → Ω → MCPdf ℝ (Fin n → ℝ)} {g : Nat → Ω → ParticleFilter R (Fin n → ℝ) ℝ}
    (hprior : ∀ N ω, 0 < N → Holds (prior N ω) ((List.range N).map fun i => (x i ω, 1 / (N : ℝ))))
    (hg : ∀ N ω, 0 < N → ParticleFilter.make dflt (prior N ω) (some q) period (threshold N)
      .multinomial = .ok (g N ω)) :
    ∃ f', runAll be kind ((List.range T).map st) f = .ok f' ∧ ∀ ε > 0,
      Likely P fun N ω => ∃ g' m S, ParticleFilter.run (ParticleFilter.update dflt kthRoot)
          ((List.range T).map fun t => (inputs fun i => ρ t i ω, c t)) (g N ω) = .ok (true, g') ∧
        g'.postGet.meanGet = .ok m ∧ g'.postGet.covGet = .ok S ∧
        (∀ i, |m i - f'.mu i| < ε) ∧ ∀ i j, |S i j - f'.sigma i j| < ε := by
  obtain ⟨f', h1, h2, h3, h4⟩ := C103_kalman be hk hst hf
  obtain ⟨i1, i2, i3, i4⟩ := exact_moments h2 h4
  refine ⟨f', h1, fun ε hε => ?_⟩
  have := C102_particleFilter h hc h3 hprior hg i1 i2 hε
  simpa only [i3, i4] using this

/-- **C103, bootstrap filter.** Give the same linear models, inputs and readings to a Kalman filter and to a bootstrap
filter whose particles are drawn from the Gaussian with which the Kalman filter starts, in any sequence of prediction,
measurement and combined updates. The probability that mean and covariance reported by the bootstrap filter are closer
than `ε` to those of the Kalman filter tends to 1 with the number of particles, for every resampling setting. -/
theorem C103_bootstrap {ρ : Nat → Nat → Ω → ℝ × (Fin n → ℝ) × ℝ}
    (be : Backend) {kind : KF.Kind ℝ n} (hk : kind.Runs) {f : KF ℝ n} (hf : PD f.sigma)
    (h : IndependentDraws P x ρ (normalLaw f.mu f.sigma) fun _ =>
      Spec.uniform.prod ((Measure.pi fun _ : Fin n => gaussianReal 0 1).prod Spec.uniform))
    {st : Nat → KStep ℝ n U} {c : Nat → UpdateCall (Fin n → ℝ) (Fin n → ℝ) (Fin k → ℝ) ℝ} {T : Nat}
    (hc : ∀ t < T, SameUpdate be (st t) (c t))
    {prior : Nat → Ω → MCPdf ℝ (Fin n → ℝ)} {g : Nat → Ω → ParticleFilter (Fin n → ℝ) (Fin n → ℝ) ℝ}
    (hprior : ∀ N ω, 0 < N → Holds (prior N ω) ((List.range N).map fun i => (x i ω, 1 / (N : ℝ))))
    (hg : ∀ N ω, 0 < N → ParticleFilter.make dflt (prior N ω) none period (threshold N)
      .multinomial = .ok (g N ω)) :
    ∃ f', runAll be kind ((List.range T).map st) f = .ok f' ∧ ∀ ε > 0,
      Likely P fun N ω => ∃ g' m S, ParticleFilter.run (ParticleFilter.bootUpdate dflt kthRoot)
          ((List.range T).map fun t => (inputs fun i => ρ t i ω, c t)) (g N ω) = .ok (true, g') ∧
        g'.postGet.meanGet = .ok m ∧ g'.postGet.covGet = .ok S ∧
        (∀ i, |m i - f'.mu i| < ε) ∧ ∀ i j, |S i j - f'.sigma i j| < ε := by
  have hall : ∀ t, ∃ κ ℓ, t < T → LinearStep (st t) κ ℓ ∧ BootUpdatesBy (c t) (stdNormals n) κ ℓ := by
    intro t
    by_cases ht : t < T
    · obtain ⟨κ, ℓ, h⟩ := (hc t ht).step
      exact ⟨κ, ℓ, fun _ => h⟩
    · exact ⟨Kernel.id, fun _ => 1, fun h => absurd h ht⟩
  choose κ ℓ hκ using hall
  obtain ⟨f', h1, h2, h3, h4⟩ := C103_kalman be hk (fun t ht => (hκ t ht).1) hf
  obtain ⟨i1, i2, i3, i4⟩ := exact_moments h2 h4
  refine ⟨f', h1, fun ε hε => ?_⟩
  have := C102_bootstrap (ν := fun _ => stdNormals n) h (fun t ht => (hκ t ht).2) h3 hprior hg i1 i2 hε
  simpa only [i3, i4] using this

end BFL.Props
