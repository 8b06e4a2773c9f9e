import Verif.Lemmas.NormalLaw
import Verif.Props.KalmanSetup

/-!
# C103: in a linear Gaussian world the report of the Kalman filters is the exact conditional distribution
-/

set_option linter.unusedSectionVars false

namespace BFL.Props

open Matrix MeasureTheory ProbabilityTheory Spec
open scoped ENNReal

variable {n : Nat} {U : Type}

/-- One `Update` call of a Kalman filter beside the world it is about: in the world the state `x` moves to `A x + b`
plus normal noise with covariance `Q`, and the reading `z` has the density of `H x + c` plus normal noise with
covariance `R`; the models given to the filter say the same. -/
inductive LinearStep : KStep ℝ n U → Kernel (Fin n → ℝ) (Fin n → ℝ) → ((Fin n → ℝ) → ℝ≥0∞) → Prop
  | full {k : Nat} {sys : AnalyticModel ℝ n n U} {u : Option U} {meas : AnalyticModel ℝ n k U} {s : Option U}
      {A Q : Matrix (Fin n) (Fin n) ℝ} {b : Fin n → ℝ} {H : Matrix (Fin k) (Fin n) ℝ}
      {R : Matrix (Fin k) (Fin k) ℝ} {c z : Fin k → ℝ} {κ : Kernel (Fin n → ℝ) (Fin n → ℝ)}
      (hsys : sys.IsLinear u A b Q) (hQ : PD Q) (hmeas : meas.IsLinear s H c R) (hR : PD R)
      (hκ : ∀ x, κ x = normalLaw (A *ᵥ x + b) Q) :
      LinearStep ⟨k, some (sys, u), some (meas, z, s)⟩ κ
        fun x => ENNReal.ofReal (normalDensity (H *ᵥ x + c) R z)
  | measurement {k : Nat} {meas : AnalyticModel ℝ n k U} {s : Option U} {H : Matrix (Fin k) (Fin n) ℝ}
      {R : Matrix (Fin k) (Fin k) ℝ} {c z : Fin k → ℝ} (hmeas : meas.IsLinear s H c R) (hR : PD R) :
      LinearStep ⟨k, none, some (meas, z, s)⟩ Kernel.id
        fun x => ENNReal.ofReal (normalDensity (H *ᵥ x + c) R z)
  | system {k : Nat} {sys : AnalyticModel ℝ n n U} {u : Option U} {A Q : Matrix (Fin n) (Fin n) ℝ}
      {b : Fin n → ℝ} {κ : Kernel (Fin n → ℝ) (Fin n → ℝ)} (hsys : sys.IsLinear u A b Q) (hQ : PD Q)
      (hκ : ∀ x, κ x = normalLaw (A *ᵥ x + b) Q) :
      LinearStep ⟨k, some (sys, u), none⟩ κ fun _ => 1

theorem runAll_append (be : Backend) (kind : KF.Kind ℝ n) (l l' : List (KStep ℝ n U)) (f : KF ℝ n) :
    runAll be kind (l ++ l') f = runAll be kind l f >>= runAll be kind l' := by
  induction l generalizing f with
  | nil => rfl
  | cons st l ih =>
    simp only [List.cons_append, runAll]
    cases f.update be kind st.sys st.meas with
    | ok r => simp only [Outcome.ok_bind]; exact ih _
    | abort => rfl
    | ub => rfl

/-- What a linear prediction does. -/
theorem predict_exact (be : Backend) {sys : AnalyticModel ℝ n n U} {u : Option U}
    {A Q : Matrix (Fin n) (Fin n) ℝ} {b : Fin n → ℝ} (hsys : sys.IsLinear u A b Q) (hQ : PD Q) {f : KF ℝ n}
    (hf : PD f.sigma) : f.sysPart be (some (sys, u)) =
      .ok ⟨A *ᵥ f.mu + b, A * f.sigma * Aᵀ + Q, f.timestep⟩ ∧ PD (A * f.sigma * Aᵀ + Q) := by
  have hpd := propagated_pd hf A hQ
  refine ⟨?_, hpd⟩
  show f.sysUpdate be sys u = _
  rw [sysUpdate_eq (hsys f.mu), be.toSym_of_symm hpd.1]

/-- What a linear measurement update does. -/
theorem measure_exact (be : Backend) {kind : KF.Kind ℝ n} (hk : kind.Runs) {k : Nat}
    {meas : AnalyticModel ℝ n k U} {s : Option U}
    {H : Matrix (Fin k) (Fin n) ℝ} {R : Matrix (Fin k) (Fin k) ℝ} {c : Fin k → ℝ} (z : Fin k → ℝ)
    (hmeas : meas.IsLinear s H c R) (hR : PD R) {f : KF ℝ n} (hf : PD f.sigma) :
    f.measPart be kind (some (meas, z, s)) =
      .ok ⟨kgain f.sigma H R *ᵥ (z - (H *ᵥ f.mu + c)) + f.mu, kcov f.sigma H R, f.timestep⟩ := by
  show f.measUpdate be kind meas z s = _
  obtain ⟨xj, h, H', R', he, -, e⟩ := measUpdate_total (be := be) hk (z := z) (f := f) (s := s) (meas := meas)
    hf.psd fun x => ⟨_, _, _, hmeas x, hR⟩
  obtain ⟨rfl, rfl, rfl⟩ := he.unique (hmeas xj)
  have e' : H' *ᵥ xj + c + H' *ᵥ (f.mu - xj) = H' *ᵥ f.mu + c := by
    rw [mulVec_sub]; abel
  rw [e, e']

/-- One update is one step of the exact Bayes filter. -/
theorem update_exact (be : Backend) {kind : KF.Kind ℝ n} (hk : kind.Runs) {st : KStep ℝ n U}
    {κ : Kernel (Fin n → ℝ) (Fin n → ℝ)} {ℓ : (Fin n → ℝ) → ℝ≥0∞} (h : LinearStep st κ ℓ) {f : KF ℝ n}
    (hf : PD f.sigma) :
    ∃ f', f.update be kind st.sys st.meas = .ok (true, f') ∧ PD f'.sigma ∧
      evidenceOf κ ℓ (normalLaw f.mu f.sigma) ≠ 0 ∧ evidenceOf κ ℓ (normalLaw f.mu f.sigma) ≠ ∞ ∧
      bayesStep κ ℓ (normalLaw f.mu f.sigma) = normalLaw f'.mu f'.sigma := by
  cases h with
  | @full k sys u meas s A Q b H R c z κ hsys hQ hmeas hR hκ =>
    obtain ⟨e1, hpd⟩ := predict_exact be hsys hQ hf
    have hb := normalLaw_bind (m := f.mu) hf A b hQ hκ
    generalize A *ᵥ f.mu + b = m1 at e1 hb
    generalize A * f.sigma * Aᵀ + Q = P1 at e1 hb hpd
    have e2 := measure_exact be hk z hmeas hR (f := ⟨m1, P1, f.timestep⟩) hpd
    obtain ⟨h1, h2⟩ := normalLaw_bayes hpd H c hR z hb (ℓ := fun x => ENNReal.ofReal (normalDensity (H *ᵥ x + c) R z))
      fun _ => rfl
    refine ⟨⟨kgain P1 H R *ᵥ (z - (H *ᵥ m1 + c)) + m1, kcov P1 H R, f.timestep⟩, ?_, ?_, ?_, ?_, h2⟩
    · simp only [KF.update, e1, Outcome.ok_bind, e2, Outcome.pure_eq]
    · exact (normal_bayes (m := f.mu) hpd H c hR z).1
    · rw [h1]
      exact (ENNReal.ofReal_pos.2 (normalDensity_pos (propagated_pd hpd H hR) _ _)).ne'
    · rw [h1]; exact ENNReal.ofReal_ne_top
  | @measurement k meas s H R c z hmeas hR =>
    have e2 := measure_exact be hk z hmeas hR hf
    obtain ⟨h1, h2⟩ := normalLaw_bayes (m := f.mu) (π := normalLaw f.mu f.sigma) (κ := Kernel.id) hf H c hR z
      Measure.id_comp (ℓ := fun x => ENNReal.ofReal (normalDensity (H *ᵥ x + c) R z)) fun _ => rfl
    refine ⟨⟨kgain f.sigma H R *ᵥ (z - (H *ᵥ f.mu + c)) + f.mu, kcov f.sigma H R, f.timestep⟩, ?_, ?_, ?_, ?_, h2⟩
    · simp only [KF.update, KF.sysPart, e2, Outcome.ok_bind, Outcome.pure_eq]
    · exact (normal_bayes (m := f.mu) hf H c hR z).1
    · rw [h1]
      exact (ENNReal.ofReal_pos.2 (normalDensity_pos (propagated_pd hf H hR) _ _)).ne'
    · rw [h1]; exact ENNReal.ofReal_ne_top
  | @system k sys u A Q b κ hsys hQ hκ =>
    obtain ⟨e1, hpd⟩ := predict_exact be hsys hQ hf
    have hb := normalLaw_bind (m := f.mu) hf A b hQ hκ
    have := normalLaw_prob (m := A *ᵥ f.mu + b) hpd
    have he : evidenceOf κ (fun _ => 1) (normalLaw f.mu f.sigma) = 1 := by
      unfold evidenceOf
      rw [hb, lintegral_one, measure_univ]
    refine ⟨⟨A *ᵥ f.mu + b, A * f.sigma * Aᵀ + Q, f.timestep⟩, ?_, hpd, ?_, ?_, ?_⟩
    · simp only [KF.update, e1, Outcome.ok_bind, KF.measPart, Outcome.pure_eq]
    · rw [he]; exact one_ne_zero
    · rw [he]; exact ENNReal.one_ne_top
    · unfold bayesStep
      rw [he, hb, inv_one, one_smul]
      exact withDensity_one

/-- **C103.** Start a Kalman filter (extended or iterated) with a Gaussian and make any sequence of prediction,
measurement and combined updates with linear models with Gaussian noise. All updates succeed, every reading is possible,
and the mean and the covariance of the posterior are those of a normal distribution that *is* the conditional
distribution of the state given the readings. -/
theorem C103_kalman (be : Backend) {kind : KF.Kind ℝ n} (hk : kind.Runs) {st : Nat → KStep ℝ n U}
    {κ : Nat → Kernel (Fin n → ℝ) (Fin n → ℝ)} {ℓ : Nat → (Fin n → ℝ) → ℝ≥0∞} {T : Nat}
    (h : ∀ t < T, LinearStep (st t) (κ t) (ℓ t)) {f : KF ℝ n} (hf : PD f.sigma) :
    ∃ f', runAll be kind ((List.range T).map st) f = .ok f' ∧ PD f'.sigma ∧
      Possible κ ℓ (normalLaw f.mu f.sigma) T ∧
      exactFilter κ ℓ (normalLaw f.mu f.sigma) T = normalLaw f'.mu f'.sigma := by
  induction T with
  | zero => exact ⟨f, rfl, hf, fun t ht => absurd ht (Nat.not_lt_zero t), rfl⟩
  | succ T ih =>
    obtain ⟨g, h1, h2, h3, h4⟩ := ih fun t ht => h t (ht.trans (Nat.lt_succ_self T))
    obtain ⟨f', k1, k2, k3, k4, k5⟩ := update_exact be hk (h T (Nat.lt_succ_self T)) h2
    refine ⟨f', ?_, k2, ?_, ?_⟩
    · rw [List.range_succ, List.map_append, runAll_append, h1, Outcome.ok_bind]
      simp only [List.map_cons, List.map_nil, runAll, k1, Outcome.ok_bind]
    · intro t ht
      rcases Nat.lt_succ_iff_lt_or_eq.1 ht with ht | rfl
      · exact h3 t ht
      · rw [h4]; exact ⟨k3, k4⟩
    · show bayesStep (κ T) (ℓ T) (exactFilter κ ℓ _ T) = _
      rw [h4, k5]

end BFL.Props
