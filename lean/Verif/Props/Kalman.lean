import Verif.Props.KalmanSetup
import Verif.Spec.GaussianDensity
import Mathlib.Analysis.Matrix.PosDef

set_option linter.unusedSectionVars false

/-!
# Properties of the Kalman filter family

`C32`-`C37` and the Kalman part of `C31`. `Mᵀ` is the transpose, `M⁻¹` the inverse, `*ᵥ` matrix
times vector.
-/

namespace BFL.Props

open Matrix Spec

variable {K : Type} [Field K] [LinearOrder K] [IsStrictOrderedRing K] {n m : Nat} {U : Type}

/-! ## C32: prediction -/

/-- C32. From a valid covariance and valid process noise, prediction moves the mean to the model's
prediction, and the covariance becomes exactly `F P Fᵀ + Q`, which is again valid: nothing is lost
by keeping only one triangle, whichever one the back end keeps. -/
theorem C32_predict (be : Backend) (sys : AnalyticModel K n n U) (u : Option U) (f : KF K n)
    (J : Fin n → K) (F Q : Matrix (Fin n) (Fin n) K) (he : sys.Evaluates u f.mu J F Q)
    (hP : PSD f.sigma) (hQ : PSD Q) :
    ∃ f', f.sysUpdate be sys u = .ok f' ∧ f'.mu = J ∧ f'.sigma = F * f.sigma * Fᵀ + Q ∧
      PSD f'.sigma ∧ (PD Q → PD f'.sigma) := by
  have hp := (hP.congr F).add hQ
  refine ⟨_, sysUpdate_eq he, rfl, be.toSym_of_symm hp.1, ?_, fun h => ?_⟩ <;> simp only <;>
    rw [be.toSym_of_symm hp.1]
  · exact hp
  · exact (hP.congr F).add_pd h

example : ∃ f', KFixture.start.sysUpdate .boost KFixture.sys none = .ok f' ∧
    f'.sigma 0 0 = 6 ∧ f'.sigma 0 1 = 3 ∧ f'.sigma 1 1 = 3 := by
  obtain ⟨f', h, _, hs, _⟩ := C32_predict .boost KFixture.sys none KFixture.start _ _ _
    (KFixture.sys_linear _) KFixture.P_pd.psd KFixture.Q_psd
  refine ⟨f', h, ?_⟩
  rw [hs]
  simp [KFixture.F, KFixture.start, KF.make, KFixture.P, KFixture.Q, vecMul, dotProduct,
    Fin.sum_univ_two]
  norm_num

/-- C32. Every run of predictions and corrections, with any valid models, of the extended filter
and of the iterated filter with at least one iteration and any innovation check, succeeds and ends
with a valid covariance. -/
theorem C32_run (be : Backend) (kind : KF.Kind K n) (hk : kind.Runs) (steps : List (KStep K n U))
    (hv : ∀ st ∈ steps, st.Valid) (f : KF K n) (hP : PSD f.sigma) :
    ∃ f', runAll be kind steps f = .ok f' ∧ PSD f'.sigma := by
  induction steps generalizing f with
  | nil => exact ⟨f, rfl, hP⟩
  | cons st rest ih =>
    obtain ⟨f1, e1, hP1⟩ := update_valid (be := be) hk (hv st (by simp)) hP
    obtain ⟨f2, e2, hP2⟩ := ih (fun s hs => hv s (by simp [hs])) f1 hP1
    refine ⟨f2, ?_, hP2⟩
    simp only [runAll]
    rw [e1]; exact e2

/-- A run with a prediction, two corrections with the nonlinear sensor, and a prediction again. -/
def exampleRun : List (KStep ℚ 2 Unit) :=
  [⟨1, some (KFixture.sys, none), some (KFixture.square, ![3], none)⟩,
   ⟨1, none, some (KFixture.square, ![5], none)⟩,
   ⟨1, some (KFixture.sys, none), none⟩]

theorem exampleRun_valid : ∀ st ∈ exampleRun, st.Valid := by
  have hs : ∀ x, ∃ J F Q, KFixture.sys.Evaluates none x J F Q ∧ PSD Q :=
    fun x => ⟨_, _, _, KFixture.sys_linear x, KFixture.Q_psd⟩
  have hm : ∀ x, ∃ Z H R, KFixture.square.Evaluates none x Z H R ∧ PD R :=
    fun x => ⟨_, _, _, KFixture.square_evaluates x, KFixture.R_pd⟩
  intro st hst
  simp only [exampleRun, List.mem_cons, List.not_mem_nil, or_false] at hst
  rcases hst with rfl | rfl | rfl
  · refine ⟨fun sy u h => ?_, fun me z s h => ?_⟩
    · cases h; exact hs
    · cases h; exact hm
  · refine ⟨fun sy u h => ?_, fun me z s h => ?_⟩
    · cases h
    · cases h; exact hm
  · refine ⟨fun sy u h => ?_, fun me z s h => ?_⟩
    · cases h; exact hs
    · cases h

example : ∃ f', runAll .eigen (.iterated 3 (some (KF.innovationCheck 1))) exampleRun
    KFixture.start = .ok f' ∧ PSD f'.sigma :=
  C32_run _ _ (by simp [KF.Kind.Runs]) _ exampleRun_valid _ KFixture.P_pd.psd

/-! ## C31: the time step is never advanced -/

/-- C31, negation for the Kalman filters: whatever is done, `TimeStepGet` stays at 0. -/
theorem C31_kalman_false (be : Backend) (kind : KF.Kind K n) (steps : List (KStep K n U))
    (μ : Fin n → K) (P : Matrix (Fin n) (Fin n) K) (f' : KF K n)
    (h : runAll be kind steps (KF.make μ P) = .ok f') : f'.timestep = 0 := by
  have gen : ∀ (steps : List (KStep K n U)) (f f' : KF K n),
      runAll be kind steps f = .ok f' → f'.timestep = f.timestep := by
    intro steps
    induction steps with
    | nil => intro f f' h; simp only [runAll, Outcome.ok.injEq] at h; rw [h]
    | cons st rest ih =>
      intro f f' h
      simp only [runAll, Outcome.bind_eq_ok] at h
      obtain ⟨r, h1, h2⟩ := h
      exact (ih _ _ h2).trans (update_timestep h1)
  exact gen steps _ _ h

example : ∃ f', runAll .boost .extended exampleRun KFixture.start = .ok f' ∧
    f'.timestep = 0 := by
  obtain ⟨f', h, _⟩ := C32_run .boost .extended trivial _ exampleRun_valid KFixture.start
    KFixture.P_pd.psd
  exact ⟨f', h, C31_kalman_false _ _ _ _ _ _ h⟩

/-! ## C33: correction -/

/-- C33. From a valid covariance `P` and positive definite measurement noise the correction
succeeds; with `H` and `R` the Jacobian and noise at the linearisation point (the current mean, for
the extended filter), the covariance becomes `P - K H P` with gain `K = P Hᵀ (H P Hᵀ + R)⁻¹`. It is
valid, never larger than `P`, and equal to the Joseph form. -/
theorem C33_correct (be : Backend) (kind : KF.Kind K n) (hk : kind.Runs)
    (meas : AnalyticModel K n m U) (s : Option U) (z : Fin m → K) (f : KF K n)
    (hP : PSD f.sigma) (hm : ∀ x, ∃ Z H R, meas.Evaluates s x Z H R ∧ PD R) :
    ∃ f' x Z H R G, f.measUpdate be kind meas z s = .ok f' ∧
      meas.Evaluates s x Z H R ∧ (kind = .extended → x = f.mu) ∧
      G * (H * f.sigma * Hᵀ + R) = f.sigma * Hᵀ ∧
      f'.mu = f.mu + G *ᵥ (z - (Z + H *ᵥ (f.mu - x))) ∧
      f'.sigma = f.sigma - G * H * f.sigma ∧
      f'.sigma = (1 - G * H) * f.sigma * (1 - G * H)ᵀ + G * R * Gᵀ ∧
      PSD f'.sigma ∧ PSD (f.sigma - f'.sigma) := by
  have key : ∃ xj h H R, meas.Evaluates s xj h H R ∧ PD R ∧ (kind = .extended → xj = f.mu) ∧
      f.measUpdate be kind meas z s = .ok
        ⟨kgain f.sigma H R *ᵥ (z - (h + H *ᵥ (f.mu - xj))) + f.mu, kcov f.sigma H R,
          f.timestep⟩ := by
    cases kind with
    | extended =>
      obtain ⟨Z, H, R, he, hR⟩ := hm f.mu
      refine ⟨f.mu, Z, H, R, he, hR, fun _ => rfl, ?_⟩
      simp only [KF.measUpdate]
      rw [ekf_eq he, sub_self, mulVec_zero, add_zero]
      exact calc_valid hP hR
    | iterated nr chk =>
      obtain ⟨xj, h, H, R, he, hR, e⟩ := measUpdate_total (be := be) (z := z) hk hP hm
      exact ⟨xj, h, H, R, he, hR, (fun h => by cases h), e⟩
  obtain ⟨xj, h, H, R, he, hR, hx, e⟩ := key
  have hS := (innovCov_pd (H := H) hP hR).det_ne
  exact ⟨_, xj, h, H, R, kgain f.sigma H R, e, he, hx, kgain_mul hS, add_comm _ _, rfl,
    kcov_joseph hS, kcov_psd hP hR, sub_kcov_psd hP hR⟩

example : ∃ f', KFixture.start.measUpdate .boost .extended KFixture.square ![4] none = .ok f' ∧
    PSD f'.sigma ∧ PSD (KFixture.P - f'.sigma) := by
  obtain ⟨f', x, Z, H, R, G, h, _, _, _, _, _, _, h1, h2⟩ := C33_correct .boost .extended trivial
    KFixture.square none ![4] KFixture.start KFixture.P_pd.psd
    (fun x => ⟨_, _, _, KFixture.square_evaluates x, KFixture.R_pd⟩)
  exact ⟨f', h, h1, h2⟩

/-! ## C34: Bayes' rule -/

/-- C34. Information form: precisions add, and so do the precision-weighted means. -/
theorem C34_information (be : Backend) (meas : AnalyticModel K n m U) (s : Option U)
    (z Z : Fin m → K) (H : Matrix (Fin m) (Fin n) K) (R : Matrix (Fin m) (Fin m) K) (f : KF K n)
    (he : meas.Evaluates s f.mu Z H R) (hP : PD f.sigma) (hR : PD R) :
    ∃ f', f.ekfMeasUpdate be meas z s = .ok f' ∧ PD f'.sigma ∧
      f'.sigma⁻¹ = f.sigma⁻¹ + Hᵀ * R⁻¹ * H ∧
      f'.sigma⁻¹ *ᵥ f'.mu = f.sigma⁻¹ *ᵥ f.mu + (Hᵀ * R⁻¹) *ᵥ (z - Z + H *ᵥ f.mu) := by
  have hS := (innovCov_pd (H := H) hP.psd hR).det_ne
  have hi := kcov_information hS hR.det_ne hP.det_ne
  have hk : (kcov f.sigma H R).det ≠ 0 := by
    intro h0
    have := det_kcov (P := f.sigma) hS hR.det_ne
    rw [h0, zero_mul] at this
    exact mul_ne_zero hP.det_ne hR.det_ne this.symm
  refine ⟨_, by rw [ekf_eq he]; exact calc_valid hP.psd hR, ?_, hi, ?_⟩
  · have h1 : PSD (Hᵀ * R⁻¹ * Hᵀᵀ) := hR.inv.psd.congr Hᵀ
    rw [transpose_transpose] at h1
    have h2 : PD (f.sigma⁻¹ + Hᵀ * R⁻¹ * H) := by
      rw [add_comm]; exact h1.add_pd hP.inv
    rw [← hi] at h2
    have := h2.inv
    rwa [nonsing_inv_nonsing_inv _ hk.isUnit] at this
  · simp only
    rw [mulVec_add, kgain_eq hS hR.det_ne, mulVec_mulVec, ← Matrix.mul_assoc, ← Matrix.mul_assoc,
      nonsing_inv_mul _ hk.isUnit, Matrix.one_mul, hi, add_mulVec, mulVec_add,
      mulVec_mulVec _ (Hᵀ * R⁻¹)]
    abel

example : ∃ f', KFixture.start.ekfMeasUpdate .boost KFixture.square ![4] none = .ok f' ∧
    PD f'.sigma := by
  obtain ⟨f', h, h1, _⟩ := C34_information .boost KFixture.square none ![4] _ _ _ KFixture.start
    (KFixture.square_evaluates _) KFixture.P_pd KFixture.R_pd
  exact ⟨f', h, h1⟩

/-- C34. The corrected mean is the only minimiser of the sum of the prior cost and the measurement
cost, linearised at the prior mean. -/
theorem C34_minimiser (be : Backend) (meas : AnalyticModel K n m U) (s : Option U)
    (z Z : Fin m → K) (H : Matrix (Fin m) (Fin n) K) (R : Matrix (Fin m) (Fin m) K) (f : KF K n)
    (he : meas.Evaluates s f.mu Z H R) (hP : PD f.sigma) (hR : PD R) :
    ∃ f', f.ekfMeasUpdate be meas z s = .ok f' ∧
      ∀ x, x ≠ f'.mu → cost f.mu f.sigma H R z Z f'.mu < cost f.mu f.sigma H R z Z x := by
  obtain ⟨f', h, hpd, _⟩ := C34_information be meas s z Z H R f he hP hR
  have hS := (innovCov_pd (H := H) hP.psd hR).det_ne
  refine ⟨f', h, fun x hx => ?_⟩
  rw [ekf_eq he, calc_valid hP.psd hR] at h
  cases h
  rw [cost_split hP.1 hR.1 hS hR.det_ne hP.det_ne, cost_split hP.1 hR.1 hS hR.det_ne hP.det_ne]
  have h0 : quad (kcov f.sigma H R)⁻¹ (0 : Fin n → K) = 0 := by simp [quad]
  rw [sub_self, h0]
  have := hpd.inv.2 _ (sub_ne_zero.mpr hx)
  simp only [quad] at *
  linarith

example : ∃ f', KFixture.start.ekfMeasUpdate .boost KFixture.square ![4] none = .ok f' ∧
    ∀ x, x ≠ f'.mu →
      cost ![1, 2] KFixture.P !![2 * 1, 0] KFixture.R ![4] ![1 * 1] f'.mu
        < cost ![1, 2] KFixture.P !![2 * 1, 0] KFixture.R ![4] ![1 * 1] x :=
  C34_minimiser .boost KFixture.square none ![4] _ _ _ KFixture.start
    (KFixture.square_evaluates _) KFixture.P_pd KFixture.R_pd

theorem pd_posDef {S : Matrix (Fin n) (Fin n) ℝ} (h : PD S) : S.PosDef := by
  refine Matrix.PosDef.of_dotProduct_mulVec_pos ?_ fun x hx => ?_
  · rw [Matrix.IsHermitian, conjTranspose_eq_transpose_of_trivial]; exact h.1
  · simpa using h.2 x hx

/-- C34. Bayes' rule with the actual normal densities: for every state `x`, prior density times
measurement density equals the density of the measurement under its prediction times the density of
the filter's posterior. The first factor on the right does not depend on `x`. -/
theorem C34_bayes {n m : Nat} (be : Backend) (meas : AnalyticModel ℝ n m U) (s : Option U)
    (z Z : Fin m → ℝ) (H : Matrix (Fin m) (Fin n) ℝ) (R : Matrix (Fin m) (Fin m) ℝ) (f : KF ℝ n)
    (he : meas.Evaluates s f.mu Z H R) (hP : PD f.sigma) (hR : PD R) :
    ∃ f', f.ekfMeasUpdate be meas z s = .ok f' ∧ ∀ x,
      normalDensity f.mu f.sigma x * normalDensity (Z + H *ᵥ (x - f.mu)) R z
        = normalDensity Z (H * f.sigma * Hᵀ + R) z * normalDensity f'.mu f'.sigma x := by
  obtain ⟨f', h, hpd, _⟩ := C34_information be meas s z Z H R f he hP hR
  have hSpd := innovCov_pd (H := H) hP.psd hR
  refine ⟨f', h, fun x => ?_⟩
  rw [ekf_eq he, calc_valid hP.psd hR] at h
  cases h
  have hc := cost_split hP.1 hR.1 hSpd.det_ne hR.det_ne hP.det_ne f.mu x z Z
  have hd := det_kcov (P := f.sigma) (H := H) hSpd.det_ne hR.det_ne
  have pP := (pd_posDef hP).det_pos
  have pR := (pd_posDef hR).det_pos
  have pS := (pd_posDef hSpd).det_pos
  have pk := (pd_posDef hpd).det_pos
  have pi0 : (0 : ℝ) ≤ 2 * Real.pi := by positivity
  simp only [normalDensity]
  rw [div_mul_div_comm, div_mul_div_comm, ← Real.exp_add, ← Real.exp_add,
    ← Real.sqrt_mul (by positivity), ← Real.sqrt_mul (by positivity)]
  have a1 : -(quad f.sigma⁻¹ (x - f.mu)) / 2 + -(quad R⁻¹ (z - (Z + H *ᵥ (x - f.mu)))) / 2
      = -(quad (H * f.sigma * Hᵀ + R)⁻¹ (z - Z)) / 2 +
        -(quad (kcov f.sigma H R)⁻¹ (x - (kgain f.sigma H R *ᵥ (z - Z) + f.mu))) / 2 := by
    have hc' : quad f.sigma⁻¹ (x - f.mu) + quad R⁻¹ (z - (Z + H *ᵥ (x - f.mu))) = _ := hc
    linarith
  have a2 : (2 * Real.pi) ^ n * f.sigma.det * ((2 * Real.pi) ^ m * R.det)
      = (2 * Real.pi) ^ m * (H * f.sigma * Hᵀ + R).det *
        ((2 * Real.pi) ^ n * (kcov f.sigma H R).det) := by
    have hd' : (kcov f.sigma H R).det * (H * f.sigma * Hᵀ + R).det = f.sigma.det * R.det := hd
    linear_combination (-(2 * Real.pi) ^ n * (2 * Real.pi) ^ m) * hd'
  rw [a1, a2]

/-- A scalar random walk observed directly. -/
example : ∃ f', (KF.make ![(0 : ℝ)] !![1]).ekfMeasUpdate .boost
      (.noInput (U := Unit) (fun x => x) (fun _ => !![1]) (fun _ => !![1])) ![3] none = .ok f' ∧
    ∀ x, normalDensity ![0] !![1] x * normalDensity (![0] + !![1] *ᵥ (x - ![0])) !![1] ![3]
      = normalDensity ![0] (!![1] * !![1] * !![1]ᵀ + !![1]) ![3] * normalDensity f'.mu f'.sigma x := by
  have h1 : PD (!![1] : Matrix (Fin 1) (Fin 1) ℝ) := by
    refine ⟨by ext i j; fin_cases i; fin_cases j; rfl, fun x hx => ?_⟩
    have h0 : x 0 ≠ 0 := by
      intro h; apply hx; ext i; fin_cases i; exact h
    simp [dotProduct, mulVec]
    exact h0
  exact C34_bayes .boost _ none ![3] ![0] !![1] !![1] _ ⟨rfl, rfl, rfl⟩ h1 h1

end BFL.Props
