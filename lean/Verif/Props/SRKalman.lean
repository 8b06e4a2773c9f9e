import Verif.Lemmas.SRKalman
import Verif.Lemmas.KalmanRun
import Verif.Props.Cholesky

set_option linter.unusedSectionVars false

/-!
# Properties of the square root iterated extended Kalman filter: C38
-/

namespace BFL.Props

open Matrix Spec

variable {K : Type} [Field K] [LinearOrder K] [IsStrictOrderedRing K] {n m : Nat} {U Sens : Type}

/-- **C38.** If the stored factor `J` satisfies `J J' = P`, the factors handed to the covariance
update satisfy `Sr Sr' = S = H P H' + R` and `Rv Rv' = R`, and `Sr` and `Rv + Sr` are invertible,
then the update leaves a factor with `J J' = P - P H' S⁻¹ H P`, which is also the new covariance. -/
theorem C38_covariance (be : Backend) (f : SRKF K n) (P : Matrix (Fin n) (Fin n) K)
    (H : Matrix (Fin m) (Fin n) K) (R Rv Sr : Matrix (Fin m) (Fin m) K) (hP : f.JP * f.JPᵀ = P)
    (hS : Sr * Srᵀ = H * P * Hᵀ + R) (hR : Rv * Rvᵀ = R) (hSr : Sr.det ≠ 0)
    (hT : (Rv + Sr).det ≠ 0) :
    ∃ f', f.calculateCovariance be Rv H Sr⁻¹ Sr = .ok f' ∧ f'.base.mu = f.base.mu ∧
      f'.JP * f'.JPᵀ = P - P * Hᵀ * (H * P * Hᵀ + R)⁻¹ * H * P ∧
      f'.base.sigma = P - P * Hᵀ * (H * P * Hᵀ + R)⁻¹ * H * P := by
  subst hP
  obtain ⟨f', h1, h2, _, h3, h4⟩ := SRKF.covariance_identity be f H hS hR hSr hT
  exact ⟨f', h1, h2, h4.trans h3, h3⟩

/-- Everything the filter needs to know about a model for its transposed factors to be harmless: at
every linearisation point the noise and the innovation are uncorrelated between the components of
the measurement, with variances of at least `eps`, and a square root supplied by the model is one. -/
def Decoupled (eps : K) (P : Matrix (Fin n) (Fin n) K) (meas : ImplicitModel K n m Sens) (s : Sens) :
    Prop :=
  ∀ x, ∃ d r : Fin m → K, (∀ i, eps ≤ d i) ∧ (∀ i, eps ≤ r i) ∧
    meas.df s x * P * (meas.df s x)ᵀ + meas.cov s x = diagonal d ∧ meas.cov s x = diagonal r ∧
    (meas.isIdentity s x = true → ∃ g : Fin m → K, (∀ i, 0 ≤ g i ∧ g i * g i = r i) ∧
      meas.srCov s x = diagonal g)

theorem noiseFactor_decoupled {sqrt : K → K} {eps : K} (hs : IsSqrt sqrt) (h0 : 0 < eps) (h1 : eps ≤ 1)
    (meas : ImplicitModel K n m Sens) (s : Sens) (x : Fin n → K) {r : Fin m → K}
    (hr : ∀ i, eps ≤ r i) (hR : meas.cov s x = diagonal r)
    (hid : meas.isIdentity s x = true → ∃ g : Fin m → K, (∀ i, 0 ≤ g i ∧ g i * g i = r i) ∧
      meas.srCov s x = diagonal g) :
    ∃ g : Fin m → K, (∀ i, 0 ≤ g i ∧ g i * g i = r i) ∧
      SRKF.noiseFactor sqrt eps meas s x = diagonal g := by
  by_cases h : meas.isIdentity s x = true
  · obtain ⟨g, hg, e⟩ := hid h
    exact ⟨g, hg, by rw [SRKF.noiseFactor, if_pos h, e, diagonal_transpose]⟩
  · refine ⟨fun i => sqrt (r i), fun i => hs _ (h0.le.trans (hr i)), ?_⟩
    rw [SRKF.noiseFactor, if_neg h, hR, cholesky_diagonal hs h0 h1 hr, diagonal_transpose]

theorem diagonal_det_ne {d : Fin m → K} (hd : ∀ i, 0 < d i) : (diagonal d).det ≠ 0 := by
  rw [det_diagonal]; exact (Finset.prod_pos fun i _ => hd i).ne'

/-- One pass of the loop in the decoupled case. -/
theorem sr_pass (be : Backend) {sqrt : K → K} {eps : K} (hs : IsSqrt sqrt) (h0 : 0 < eps)
    (h1 : eps ≤ 1) (meas : ImplicitModel K n m Sens) (s : Sens) (f : SRKF K n)
    (hd : Decoupled eps (f.JP * f.JPᵀ) meas s) (x : Fin n → K) :
    ∃ Sr : Matrix (Fin m) (Fin m) K,
      f.calculateMatrix be sqrt eps (meas.df s x) (meas.cov s x) = .ok
        ⟨Sr⁻¹, gainOf (f.JP * f.JPᵀ) (meas.df s x) (meas.cov s x), Sr⟩ ∧
      Sr * Srᵀ = meas.df s x * (f.JP * f.JPᵀ) * (meas.df s x)ᵀ + meas.cov s x ∧ Sr.det ≠ 0 ∧
      (SRKF.noiseFactor sqrt eps meas s x + Sr).det ≠ 0 ∧
      SRKF.noiseFactor sqrt eps meas s x * (SRKF.noiseFactor sqrt eps meas s x)ᵀ = meas.cov s x := by
  obtain ⟨d, r, hd1, hr1, hS, hR, hid⟩ := hd x
  obtain ⟨g, hg, hN⟩ := noiseFactor_decoupled hs h0 h1 meas s x hr1 hR hid
  have hdp : ∀ i, 0 < d i := fun i => h0.trans_le (hd1 i)
  have hq : ∀ i, 0 < sqrt (d i) := fun i => isSqrt_pos hs (hdp i)
  have hsq := diagonal_sq hs (d := d) fun i => (hdp i).le
  have hdet := diagonal_det_ne hq
  have hSr : (diagonal fun i => sqrt (d i)) * (diagonal fun i => sqrt (d i))ᵀ =
      meas.df s x * (f.JP * f.JPᵀ) * (meas.df s x)ᵀ + meas.cov s x := by rw [hS, hsq]
  refine ⟨diagonal fun i => sqrt (d i), ?_, hSr, hdet, ?_, ?_⟩
  · rw [f.calculateMatrix_ok be (meas.df s x) (L := diagonal fun i => sqrt (d i))
      (by rw [hR, diagonal_transpose]) (by rw [hS, cholesky_diagonal hs h0 h1 hd1]) hdet]
    have e : (meas.df s x * (f.JP * f.JPᵀ) * (meas.df s x)ᵀ + meas.cov s x)⁻¹ =
        ((diagonal fun i => sqrt (d i))⁻¹)ᵀ * (diagonal fun i => sqrt (d i))⁻¹ := by
      rw [← hSr, Matrix.mul_inv_rev, transpose_nonsing_inv]
    rw [diagonal_transpose, gainOf, e, Matrix.mul_assoc]
  · rw [hN, diagonal_add]
    exact diagonal_det_ne fun i => add_pos_of_nonneg_of_pos (hg i).1 (hq i)
  · rw [hN, hR, diagonal_transpose, diagonal_mul_diagonal]
    congr 1; funext i; exact (hg i).2

theorem sr_loop (be : Backend) {sqrt : K → K} {eps : K} (hs : IsSqrt sqrt) (h0 : 0 < eps)
    (h1 : eps ≤ 1) (meas : ImplicitModel K n m Sens) (z : Fin m → K) (s : Sens) (x₀ : Fin n → K) :
    ∀ (k : Nat) (f : SRKF K n), Decoupled eps (f.JP * f.JPᵀ) meas s →
    ∃ f', SRKF.measLoop be sqrt eps meas z s x₀ (k + 1) f = .ok f' ∧
      f'.base.mu = (relinearise x₀ (f.JP * f.JPᵀ) (meas.expected s) (meas.df s) (meas.cov s) z)^[k + 1]
        f.base.mu ∧
      f'.base.sigma = posteriorCov (f.JP * f.JPᵀ)
        (meas.df s ((relinearise x₀ (f.JP * f.JPᵀ) (meas.expected s) (meas.df s) (meas.cov s) z)^[k]
          f.base.mu))
        (meas.cov s ((relinearise x₀ (f.JP * f.JPᵀ) (meas.expected s) (meas.df s) (meas.cov s) z)^[k]
          f.base.mu)) ∧
      f'.JP * f'.JPᵀ = f'.base.sigma ∧ f'.base.timestep = f.base.timestep
  | 0, f, hd => by
    obtain ⟨Sr, hw, hS, hdet, hT, hR⟩ := sr_pass be hs h0 h1 meas s f hd f.base.mu
    obtain ⟨f', e1, e2, e3, e4, e5⟩ := SRKF.covariance_identity be
      (f.calculateMean x₀ z (meas.expected s f.base.mu + meas.df s f.base.mu *ᵥ (x₀ - f.base.mu))
        (gainOf (f.JP * f.JPᵀ) (meas.df s f.base.mu) (meas.cov s f.base.mu)))
      (meas.df s f.base.mu) hS hR hdet hT
    refine ⟨f', ?_, ?_, e4, e5, e3⟩
    · simp only [SRKF.measLoop]
      rw [hw]
      simp only [Outcome.ok_bind, SRKF.covarianceIfLast, beq_self_eq_true, if_true]
      rw [e1]; rfl
    · rw [e2]; rfl
  | k + 1, f, hd => by
    obtain ⟨Sr, hw, hS, hdet, hT, hR⟩ := sr_pass be hs h0 h1 meas s f hd f.base.mu
    obtain ⟨f', e1, e2, e3, e4, e5⟩ := sr_loop be hs h0 h1 meas z s x₀ k
      (f.calculateMean x₀ z (meas.expected s f.base.mu + meas.df s f.base.mu *ᵥ (x₀ - f.base.mu))
        (gainOf (f.JP * f.JPᵀ) (meas.df s f.base.mu) (meas.cov s f.base.mu))) hd
    refine ⟨f', ?_, ?_, ?_, e4, e5⟩
    · rw [SRKF.measLoop]
      simp only
      rw [hw]
      simpa only [Outcome.ok_bind, SRKF.covarianceIfLast, Nat.add_eq_zero_iff, one_ne_zero, and_false,
        beq_eq_false_iff_ne.2 (Nat.succ_ne_zero k), Bool.false_eq_true, if_false] using e1
    · rw [e2, Function.iterate_succ_apply (n := k + 1)]; rfl
    · rw [e3, Function.iterate_succ_apply (n := k)]; rfl

/-- **C38, whole update (partial: only for decoupled measurements, see `C38_measurement_false`).**
With at least one iteration the update performs the Gauss-Newton iteration of the iterated extended
Kalman filter with prior covariance `J J'`, ends with the textbook covariance for the last
linearisation point, and stores a factor of it. -/
theorem C38_update_partial (be : Backend) {sqrt : K → K} {eps : K} (hs : IsSqrt sqrt) (h0 : 0 < eps)
    (h1 : eps ≤ 1) (meas : ImplicitModel K n m Sens) (z : Fin m → K) (s : Sens) (k : Nat)
    (f : SRKF K n) (P : Matrix (Fin n) (Fin n) K) (hP : f.JP * f.JPᵀ = P)
    (hd : Decoupled eps P meas s) (visited : Nat → Fin n → K) (hv0 : visited 0 = f.base.mu)
    (hv : ∀ i, visited (i + 1) = relinearise f.base.mu P (meas.expected s) (meas.df s) (meas.cov s) z
      (visited i)) :
    ∃ f', f.measUpdate be sqrt eps (k + 1) meas z s = .ok f' ∧
      f'.base.mu = visited (k + 1) ∧
      f'.base.sigma = posteriorCov P (meas.df s (visited k)) (meas.cov s (visited k)) ∧
      f'.JP * f'.JPᵀ = f'.base.sigma := by
  subst hP
  obtain ⟨f', e1, e2, e3, e4, _⟩ := sr_loop be hs h0 h1 meas z s f.base.mu k f hd
  have hit : ∀ i, visited i = (relinearise f.base.mu (f.JP * f.JPᵀ) (meas.expected s) (meas.df s)
      (meas.cov s) z)^[i] f.base.mu := by
    intro i
    induction i with
    | zero => exact hv0
    | succ i ih => rw [hv, ih, Function.iterate_succ_apply']
  exact ⟨f', e1, e2.trans (hit _).symm, by rw [e3, hit], e4⟩

/-- The same measurement model, as one for the iterated extended Kalman filter. -/
def asAnalytic (meas : ImplicitModel K n m Sens) : AnalyticModel K n m Sens :=
  .withInput meas.expected meas.df meas.cov

theorem iekf_loop (be : Backend) (meas : ImplicitModel K n m Sens) (z : Fin m → K) (s : Sens)
    (x₀ : Fin n → K) (P : Matrix (Fin n) (Fin n) K)
    (hS : ∀ x, (innovCov P (meas.df s x) (meas.cov s x)).det ≠ 0) :
    ∀ (k : Nat) (x : Fin n → K) (buf : _), ∃ y,
    y = (relinearise x₀ P (meas.expected s) (meas.df s) (meas.cov s) z)^[k] x ∧
    KF.iekfLoop be (asAnalytic meas) z (some s) none x₀ P (k + 1) x buf = .ok
      (some (meas.expected s y + meas.df s y *ᵥ (x₀ - y), meas.df s y, meas.cov s y))
  | 0, x, buf => by
    refine ⟨x, rfl, ?_⟩
    simp only [KF.iekfLoop, asAnalytic, AnalyticModel.dfGet, AnalyticModel.covGet,
      AnalyticModel.predictionGet, Outcome.ok_bind]
    rw [be.inverse_of_det _ (hS x)]
    simp [KF.passes]
  | k + 1, x, buf => by
    obtain ⟨y, e, h⟩ := iekf_loop be meas z s x₀ P hS k
      (relinearise x₀ P (meas.expected s) (meas.df s) (meas.cov s) z x)
      (some (meas.expected s x + meas.df s x *ᵥ (x₀ - x), meas.df s x, meas.cov s x))
    refine ⟨y, by rw [e, Function.iterate_succ_apply], ?_⟩
    rw [KF.iekfLoop]
    simp only [asAnalytic, AnalyticModel.dfGet, AnalyticModel.covGet,
      AnalyticModel.predictionGet, Outcome.ok_bind]
    rw [be.inverse_of_det _ (hS x)]
    simp only [Outcome.ok_bind, KF.passes, if_true]
    exact h

/-- **C38, agreement with the iterated extended Kalman filter (partial: only for decoupled
measurements).** If the stored factor is one of the current covariance, the square root filter and
the iterated extended Kalman filter, run with the same number of iterations, end with the same mean
and covariance, and the square root filter again holds a factor of it. -/
theorem C38_iekf_partial (be : Backend) {sqrt : K → K} {eps : K} (hs : IsSqrt sqrt) (h0 : 0 < eps)
    (h1 : eps ≤ 1) (meas : ImplicitModel K n m Sens) (z : Fin m → K) (s : Sens) (k : Nat)
    (f : SRKF K n) (hP : f.JP * f.JPᵀ = f.base.sigma) (hd : Decoupled eps f.base.sigma meas s) :
    ∃ f', f.measUpdate be sqrt eps (k + 1) meas z s = .ok f' ∧
      f.base.iekfMeasUpdate be (k + 1) none (asAnalytic meas) z (some s) = .ok f'.base ∧
      f'.JP * f'.JPᵀ = f'.base.sigma := by
  obtain ⟨f', e1, e2, e3, e4, e5⟩ := sr_loop be hs h0 h1 meas z s f.base.mu k f (by rwa [hP])
  rw [hP] at e2 e3
  refine ⟨f', e1, ?_, e4⟩
  have hS : ∀ x, (innovCov f.base.sigma (meas.df s x) (meas.cov s x)).det ≠ 0 := by
    intro x
    obtain ⟨d, r, hd1, _, hS, _⟩ := hd x
    rw [innovCov, hS]; exact diagonal_det_ne fun i => h0.trans_le (hd1 i)
  obtain ⟨y, hy, hl⟩ := iekf_loop be meas z s f.base.mu f.base.sigma hS k f.base.mu none
  have hsig : be.toSym (kcov f.base.sigma (meas.df s y) (meas.cov s y)) =
      posteriorCov f.base.sigma (meas.df s y) (meas.cov s y) := by
    rw [be.toSym_of_symm]
    · rfl
    · obtain ⟨d, r, _, _, _, hR, _⟩ := hd y
      exact kcov_symm (by rw [← hP, mul_transpose_symm]) (by rw [hR, diagonal_transpose])
  rw [KF.iekfMeasUpdate, hl]
  simp only [Outcome.ok_bind, KF.iekfFinish]
  rw [calculateMeasUpdate_ok be f.base z _ _ _ (hS y), hsig]
  rw [← hy] at e3
  rw [Function.iterate_succ_apply', ← hy] at e2
  congr 1
  have : f'.base = ⟨f'.base.mu, f'.base.sigma, f'.base.timestep⟩ := rfl
  rw [this, e2, e3, e5, relinearise, add_comm]
  rfl

/-- A model with one measured number whose noise variance is at least `eps`. -/
def ScalarNoise (eps : K) (meas : ImplicitModel K n 1 Sens) (s : Sens) : Prop :=
  ∀ x, eps ≤ meas.cov s x 0 0 ∧ (meas.isIdentity s x = true →
    0 ≤ meas.srCov s x 0 0 ∧ meas.srCov s x 0 0 * meas.srCov s x 0 0 = meas.cov s x 0 0)

theorem one_diagonal (A : Matrix (Fin 1) (Fin 1) K) : A = diagonal fun _ => A 0 0 := by
  ext i j; fin_cases i; fin_cases j; simp

theorem ScalarNoise.decoupled {eps : K} {meas : ImplicitModel K n 1 Sens} {s : Sens}
    (h : ScalarNoise eps meas s) {P : Matrix (Fin n) (Fin n) K} (hP : PSD P) :
    Decoupled eps P meas s := by
  intro x
  refine ⟨_, _, fun _ => ?_, fun _ => (h x).1, one_diagonal _, one_diagonal _, fun hi =>
    ⟨_, fun _ => (h x).2 hi, one_diagonal _⟩⟩
  rw [Matrix.add_apply]
  have := (hP.congr (meas.df s x)).2 ![1]
  simp only [dotProduct, mulVec, Finset.univ_unique, Fin.default_eq_zero, Finset.sum_singleton,
    cons_val_fin_one, one_mul, mul_one] at this
  exact (h x).1.trans (le_add_of_nonneg_left this)

theorem psd_of_factor (J : Matrix (Fin n) (Fin n) K) : PSD (J * Jᵀ) := by
  refine ⟨mul_transpose_symm J, fun x => ?_⟩
  rw [← mulVec_mulVec, dotProduct_mulVec, ← mulVec_transpose]
  exact Finset.sum_nonneg fun i _ => mul_self_nonneg _

/-- **C38, scalar measurements.** For every state dimension and every measurement model with one
measured number, a filter whose factor is up to date performs exactly the measurement update of the
iterated extended Kalman filter, and its factor stays up to date. -/
theorem C38_scalar (be : Backend) {sqrt : K → K} {eps : K} (hs : IsSqrt sqrt) (h0 : 0 < eps)
    (h1 : eps ≤ 1) (meas : ImplicitModel K n 1 Sens) (z : Fin 1 → K) (s : Sens) (k : Nat)
    (hm : ScalarNoise eps meas s) (f : SRKF K n) (hP : f.JP * f.JPᵀ = f.base.sigma) :
    ∃ f', f.measUpdate be sqrt eps (k + 1) meas z s = .ok f' ∧
      f.base.iekfMeasUpdate be (k + 1) none (asAnalytic meas) z (some s) = .ok f'.base ∧
      f'.JP * f'.JPᵀ = f'.base.sigma :=
  C38_iekf_partial be hs h0 h1 meas z s k f hP (hm.decoupled (by rw [← hP]; exact psd_of_factor _))

/-- **C38, construction.** A filter built from a prior without eigenvalues below `eps` starts with a
factor of its covariance. -/
theorem C38_construction {sqrt : K → K} {eps : K} (hs : IsSqrt sqrt) (h0 : 0 < eps) (h1 : eps ≤ 1)
    (mu : Fin n → K) (P : Matrix (Fin n) (Fin n) K)
    (hP : PSD (P - eps • (1 : Matrix (Fin n) (Fin n) K))) :
    (SRKF.make sqrt eps mu P).JP * (SRKF.make sqrt eps mu P).JPᵀ = P ∧
      (SRKF.make sqrt eps mu P).base.sigma = P ∧ (SRKF.make sqrt eps mu P).base.mu = mu := by
  obtain ⟨L, hc, _, _, hL⟩ := C42_definite hs h0 h1 hP
  refine ⟨?_, rfl, rfl⟩
  simp only [SRKF.make]; rw [hc]; exact hL

/-- **C38, prediction.** The mean and covariance are predicted as by the Kalman filter, and the stored
matrix is the *transpose* of a factor: `J' J = P` instead of `J J' = P`. -/
theorem C38_prediction (be : Backend) {sqrt : K → K} {eps : K} (hs : IsSqrt sqrt) (h0 : 0 < eps)
    (h1 : eps ≤ 1) (sys : AnalyticModel K n n U) (u : Option U) (f : SRKF K n) (hP : PSD f.base.sigma)
    {J : Fin n → K} {F Q : Matrix (Fin n) (Fin n) K} (hsys : sys.Evaluates u f.base.mu J F Q)
    (hQ : PSD (Q - eps • (1 : Matrix (Fin n) (Fin n) K))) :
    ∃ f', f.sysUpdate be sqrt eps sys u = .ok f' ∧ f.base.sysUpdate be sys u = .ok f'.base ∧
      f'.base.sigma = F * f.base.sigma * Fᵀ + Q ∧ f'.JPᵀ * f'.JP = f'.base.sigma := by
  obtain ⟨e1, e2, e3⟩ := hsys
  have hpsd : PSD (F * f.base.sigma * Fᵀ + Q - eps • (1 : Matrix (Fin n) (Fin n) K)) := by
    rw [add_sub_assoc]; exact (hP.congr F).add hQ
  have hsym : (F * f.base.sigma * Fᵀ + Q)ᵀ = F * f.base.sigma * Fᵀ + Q := by
    have := hpsd.1
    rw [transpose_sub, transpose_smul, transpose_one] at this
    exact sub_left_injective this
  obtain ⟨L, hc, _, _, hL⟩ := C42_definite hs h0 h1 hpsd
  have es : (f.base.calculateSysUpdate be J F Q).sigma = F * f.base.sigma * Fᵀ + Q := by
    simp only [KF.calculateSysUpdate, KF.postSigmaSet]
    rw [← Matrix.mul_assoc, be.toSym_of_symm hsym]
  refine ⟨⟨f.base.calculateSysUpdate be J F Q, Lᵀ⟩, ?_, ?_, es, ?_⟩
  · simp only [SRKF.sysUpdate]
    rw [e1, e2, e3]
    simp only [Outcome.ok_bind, Outcome.pure_eq]
    rw [es, hc]
  · simp only [KF.sysUpdate]
    rw [e1, e2, e3]
    rfl
  · simp only; rw [es, transpose_transpose, hL]

/-! ### One-dimensional states: the transposition is harmless -/

/-- A step of a filter with a one-dimensional state and scalar measurements. -/
inductive SRStep (K U Sens : Type) where
  | predict (sys : AnalyticModel K 1 1 U) (u : Option U)
  | correct (meas : ImplicitModel K 1 1 Sens) (z : Fin 1 → K) (s : Sens)

/-- The system model answers at every state, with noise variance at least `eps`; the measurement
model has noise variance at least `eps`. -/
def SRStep.Valid (eps : K) : SRStep K U Sens → Prop
  | .predict sys u => ∀ x, ∃ J F Q, sys.Evaluates u x J F Q ∧ eps ≤ Q 0 0
  | .correct meas _ s => ScalarNoise eps meas s

/-- The square root filter with `k` iterations. -/
def srRun (be : Backend) (sqrt : K → K) (eps : K) (k : Nat) :
    List (SRStep K U Sens) → SRKF K 1 → Outcome (SRKF K 1)
  | [], f => .ok f
  | .predict sys u :: rest, f => do
    let f' ← f.sysUpdate be sqrt eps sys u
    srRun be sqrt eps k rest f'
  | .correct meas z s :: rest, f => do
    let f' ← f.measUpdate be sqrt eps k meas z s
    srRun be sqrt eps k rest f'

/-- The iterated extended Kalman filter with `k` iterations. -/
def iekfRun (be : Backend) (k : Nat) : List (SRStep K U Sens) → KF K 1 → Outcome (KF K 1)
  | [], f => .ok f
  | .predict sys u :: rest, f => do
    let f' ← f.sysUpdate be sys u
    iekfRun be k rest f'
  | .correct meas z s :: rest, f => do
    let f' ← f.iekfMeasUpdate be k none (asAnalytic meas) z (some s)
    iekfRun be k rest f'

theorem one_psd {a : Matrix (Fin 1) (Fin 1) K} (h : 0 ≤ a 0 0) : PSD a := by
  refine ⟨by ext i j; fin_cases i; fin_cases j; rfl, fun x => ?_⟩
  simp only [dotProduct, mulVec, Finset.univ_unique, Fin.default_eq_zero, Finset.sum_singleton]
  rw [mul_left_comm]
  exact mul_nonneg h (mul_self_nonneg _)

theorem one_comm (a b : Matrix (Fin 1) (Fin 1) K) : a * b = b * a := by
  ext i j; fin_cases i; fin_cases j
  simp [Matrix.mul_apply, mul_comm]

theorem sr_run_from (be : Backend) {sqrt : K → K} {eps : K} (hs : IsSqrt sqrt) (h0 : 0 < eps)
    (h1 : eps ≤ 1) (k : Nat) : ∀ (steps : List (SRStep K U Sens)) (f : SRKF K 1),
    (∀ st ∈ steps, st.Valid eps) → f.JP * f.JPᵀ = f.base.sigma →
    ∃ f', srRun be sqrt eps (k + 1) steps f = .ok f' ∧ iekfRun be (k + 1) steps f.base = .ok f'.base ∧
      f'.JP * f'.JPᵀ = f'.base.sigma
  | [], f, _, hP => ⟨f, rfl, rfl, hP⟩
  | .predict sys u :: rest, f, hv, hP => by
    obtain ⟨J, F, Q, hE, hQ⟩ := hv _ (List.mem_cons_self) f.base.mu
    obtain ⟨f1, e1, e2, _, e4⟩ := C38_prediction be hs h0 h1 sys u f
      (by rw [← hP]; exact psd_of_factor _) hE (one_psd (by simpa using hQ))
    obtain ⟨f', g1, g2, g3⟩ := sr_run_from be hs h0 h1 k rest f1
      (fun st hst => hv st (List.mem_cons_of_mem _ hst)) (by rw [one_comm, e4])
    refine ⟨f', ?_, ?_, g3⟩
    · rw [srRun, e1]; exact g1
    · rw [iekfRun, e2]; exact g2
  | .correct meas z s :: rest, f, hv, hP => by
    obtain ⟨f1, e1, e2, e4⟩ := C38_scalar be hs h0 h1 meas z s k (hv _ (List.mem_cons_self)) f hP
    obtain ⟨f', g1, g2, g3⟩ := sr_run_from be hs h0 h1 k rest f1
      (fun st hst => hv st (List.mem_cons_of_mem _ hst)) e4
    refine ⟨f', ?_, ?_, g3⟩
    · rw [srRun, e1]; exact g1
    · rw [iekfRun, e2]; exact g2

/-- **C38, histories with one-dimensional states.** Started from a prior with variance at least
`eps`, any sequence of predictions and scalar corrections gives the estimates of the iterated extended
Kalman filter, and the stored number stays a square root of the variance. -/
theorem C38_run_scalar (be : Backend) {sqrt : K → K} {eps : K} (hs : IsSqrt sqrt) (h0 : 0 < eps)
    (h1 : eps ≤ 1) (k : Nat) (steps : List (SRStep K U Sens)) (hv : ∀ st ∈ steps, st.Valid eps)
    (mu : Fin 1 → K) (P : Matrix (Fin 1) (Fin 1) K) (hP : eps ≤ P 0 0) :
    ∃ f', srRun be sqrt eps (k + 1) steps (SRKF.make sqrt eps mu P) = .ok f' ∧
      iekfRun be (k + 1) steps (KF.make mu P) = .ok f'.base ∧ f'.JP * f'.JPᵀ = f'.base.sigma :=
  sr_run_from be hs h0 h1 k steps (SRKF.make sqrt eps mu P) hv
    (C38_construction hs h0 h1 mu P (one_psd (by simpa using hP))).1

/-! ### Where the property fails -/

/-- A single iteration, for whatever triangular factors the Cholesky routine returns. -/
theorem sr_single (be : Backend) {sqrt : K → K} {eps : K} (meas : ImplicitModel K n m Sens)
    (z : Fin m → K) (s : Sens) (f : SRKF K n) {L Rv : Matrix (Fin m) (Fin m) K}
    (hR : (meas.cov s f.base.mu)ᵀ = meas.cov s f.base.mu)
    (hL : (cholesky sqrt eps (meas.df s f.base.mu * (f.JP * f.JPᵀ) * (meas.df s f.base.mu)ᵀ
      + meas.cov s f.base.mu)).2 = L) (hd : L.det ≠ 0)
    (hRv : SRKF.noiseFactor sqrt eps meas s f.base.mu = Rv) (hT : (Rv + Lᵀ).det ≠ 0) :
    ∃ f', f.measUpdate be sqrt eps 1 meas z s = .ok f' ∧
      f'.base.mu = f.base.mu + (f.JP * f.JPᵀ * (meas.df s f.base.mu)ᵀ * ((Lᵀ)⁻¹)ᵀ * (Lᵀ)⁻¹) *ᵥ
        (z - meas.expected s f.base.mu) ∧
      f'.base.sigma = f.JP * f.JPᵀ - f.JP * f.JPᵀ * (meas.df s f.base.mu)ᵀ *
          ((((Lᵀ)⁻¹)ᵀ * (Rv + Lᵀ)⁻¹) + (((Lᵀ)⁻¹)ᵀ * (Rv + Lᵀ)⁻¹)ᵀ
            - (((Lᵀ)⁻¹)ᵀ * (Rv + Lᵀ)⁻¹) * (meas.df s f.base.mu * (f.JP * f.JPᵀ) *
              (meas.df s f.base.mu)ᵀ) * (((Lᵀ)⁻¹)ᵀ * (Rv + Lᵀ)⁻¹)ᵀ)
          * meas.df s f.base.mu * (f.JP * f.JPᵀ) := by
  subst hRv
  have h : f.measUpdate be sqrt eps 1 meas z s = (f.calculateMean f.base.mu z
      (meas.expected s f.base.mu) (f.JP * f.JPᵀ * (meas.df s f.base.mu)ᵀ * ((Lᵀ)⁻¹)ᵀ * (Lᵀ)⁻¹)
      ).calculateCovariance be (SRKF.noiseFactor sqrt eps meas s f.base.mu) (meas.df s f.base.mu)
        (Lᵀ)⁻¹ Lᵀ := by
    simp only [SRKF.measUpdate, SRKF.measLoop, sub_self, mulVec_zero, add_zero]
    rw [f.calculateMatrix_ok be _ hR hL hd]
    simp only [Outcome.ok_bind, SRKF.covarianceIfLast, beq_self_eq_true, if_true]
    rw [SRKF.calculateCovariance_ok be _ _ _ _ _ hT]
    rfl
  exact ⟨_, h.trans (SRKF.calculateCovariance_ok be _ _ _ _ _ hT), rfl, rfl⟩

/-- One iteration of the iterated extended Kalman filter. -/
theorem iekf_single (be : Backend) (meas : ImplicitModel K n m Sens) (z : Fin m → K) (s : Sens)
    (f : KF K n) {Z : Fin m → K} {H : Matrix (Fin m) (Fin n) K} {R : Matrix (Fin m) (Fin m) K}
    (hZ : meas.expected s f.mu = Z) (hH : meas.df s f.mu = H) (hR : meas.cov s f.mu = R)
    (hS : (innovCov f.sigma H R).det ≠ 0) :
    f.iekfMeasUpdate be 1 none (asAnalytic meas) z (some s) = .ok
      ⟨kgain f.sigma H R *ᵥ (z - Z) + f.mu, be.toSym (kcov f.sigma H R), f.timestep⟩ := by
  simp only [KF.iekfMeasUpdate, KF.iekfLoop, asAnalytic, AnalyticModel.dfGet, AnalyticModel.covGet,
    AnalyticModel.predictionGet, Outcome.ok_bind, hZ, hH, hR]
  rw [be.inverse_of_det _ hS]
  simp only [Outcome.ok_bind, KF.passes, if_true, sub_self, mulVec_zero, add_zero, KF.iekfFinish]
  exact calculateMeasUpdate_ok be f z Z H R hS

namespace SRFixture

/-- Prior covariance with correlated components. -/
noncomputable def P : Matrix (Fin 2) (Fin 2) ℝ := !![3 / 4, 1; 1, 7 / 4]

/-- Both components are measured, with independent noise of variance 1/4. -/
noncomputable def meas : ImplicitModel ℝ 2 2 Unit where
  df _ _ := 1
  expected _ x := x
  cov _ _ := !![1 / 4, 0; 0, 1 / 4]
  srCov _ _ := 0
  isIdentity _ _ := false

theorem P_pd (e : ℝ) (he : e ≤ 1 / 16) : PSD (P - e • (1 : Matrix (Fin 2) (Fin 2) ℝ)) := by
  refine ⟨by ext i j; fin_cases i <;> fin_cases j <;> simp [P], fun x => ?_⟩
  have : x ⬝ᵥ ((P - e • (1 : Matrix (Fin 2) (Fin 2) ℝ)) *ᵥ x) =
      (4 / 5 * x 0 + 5 / 4 * x 1) ^ 2 + (11 / 100 - 1 / 16) * x 0 ^ 2 + (3 / 16 - 1 / 16) * x 1 ^ 2
        + (1 / 16 - e) * (x 0 ^ 2 + x 1 ^ 2) := by
    simp [P, mulVec, dotProduct, Fin.sum_univ_two]; ring
  rw [this]
  have : (0 : ℝ) ≤ 1 / 16 - e := by linarith
  positivity

end SRFixture

theorem chol_two {eps : ℝ} (h0 : 0 < eps) (h1 : eps ≤ 1 / 16) {a b c : ℝ} (ha : 1 / 4 ≤ a)
    (hc : 1 / 4 ≤ c) :
    (cholesky Real.sqrt eps (!![a * a, a * b; b * a, b * b + c * c] : Matrix (Fin 2) (Fin 2) ℝ)).2
      = !![a, 0; b, c] := by
  have e : (!![a * a, a * b; b * a, b * b + c * c] : Matrix (Fin 2) (Fin 2) ℝ) =
      !![a, 0; b, c] * !![a, 0; b, c]ᵀ := by
    ext i j; fin_cases i <;> fin_cases j <;>
      simp [Matrix.mul_apply, Fin.sum_univ_two, transpose_apply]
  rw [e, C42_round_trip realSqrt_isSqrt h0 (by linarith)]
  · intro i j h; fin_cases i <;> fin_cases j <;> simp at h ⊢
  · intro j; fin_cases j
    · right
      simp only [Fin.zero_eta, Fin.isValue, of_apply, cons_val', cons_val_zero, cons_val_fin_one]
      exact ⟨by linarith, by nlinarith⟩
    · right
      simp only [Fin.mk_one, Fin.isValue, of_apply, cons_val', cons_val_one, cons_val_fin_one]
      exact ⟨by linarith, by nlinarith⟩

theorem two_transpose (a b c d : ℝ) : (!![a, b; c, d])ᵀ = !![a, c; b, d] := by
  ext i j; fin_cases i <;> fin_cases j <;> rfl

theorem two_add (a b c d a' b' c' d' : ℝ) :
    !![a, b; c, d] + !![a', b'; c', d'] = !![a + a', b + b'; c + c', d + d'] := by
  ext i j; fin_cases i <;> fin_cases j <;> rfl

theorem two_sub (a b c d a' b' c' d' : ℝ) :
    !![a, b; c, d] - !![a', b'; c', d'] = !![a - a', b - b'; c - c', d - d'] := by
  ext i j; fin_cases i <;> fin_cases j <;> rfl

/-- **C38 fails for vector measurements.** A freshly built filter with a correlated two-dimensional
state, both components measured once: the measured innovation is `(1, 0)`, the Kalman filter moves the
first component by `+1/2`, this filter by `-1/4`; and it reports a variance of 1/8 for the second
component where the right one is 3/16. -/
theorem C38_measurement_false (be : Backend) (eps : ℝ) (h0 : 0 < eps) (h1 : eps ≤ 1 / 16)
    (mu : Fin 2 → ℝ) :
    ∃ f' g, (SRKF.make Real.sqrt eps mu SRFixture.P).measUpdate be Real.sqrt eps 1 SRFixture.meas
        (mu + ![1, 0]) () = .ok f' ∧
      (KF.make mu SRFixture.P).iekfMeasUpdate be 1 none (asAnalytic SRFixture.meas) (mu + ![1, 0])
        (some ()) = .ok g ∧
      g.mu 0 = mu 0 + 1 / 2 ∧ f'.base.mu 0 = mu 0 - 1 / 4 ∧
      g.sigma 1 1 = 3 / 16 ∧ f'.base.sigma 1 1 = 1 / 8 := by
  have hJ := (C38_construction realSqrt_isSqrt h0 (by linarith) mu SRFixture.P
    (SRFixture.P_pd eps h1)).1
  have hS : (1 : Matrix (Fin 2) (Fin 2) ℝ) * SRFixture.P * (1 : Matrix (Fin 2) (Fin 2) ℝ)ᵀ +
      !![1 / 4, 0; 0, 1 / 4] = !![1 * 1, 1 * 1; 1 * 1, 1 * 1 + 1 * 1] := by
    rw [transpose_one, Matrix.one_mul, Matrix.mul_one, SRFixture.P]
    ext i j; fin_cases i <;> fin_cases j <;> norm_num
  have hRc : SRKF.noiseFactor Real.sqrt eps SRFixture.meas () mu = !![1 / 2, 0; 0, 1 / 2] := by
    have e : (!![1 / 4, 0; 0, 1 / 4] : Matrix (Fin 2) (Fin 2) ℝ) =
        !![1 / 2 * (1 / 2), 1 / 2 * 0; 0 * (1 / 2), 0 * 0 + 1 / 2 * (1 / 2)] := by
      ext i j; fin_cases i <;> fin_cases j <;> norm_num
    simp only [SRKF.noiseFactor, SRFixture.meas, Bool.false_eq_true, if_false]
    rw [e, chol_two h0 h1 (by norm_num) (by norm_num)]
    ext i j; fin_cases i <;> fin_cases j <;> simp
  have hLi : ((!![1, 0; 1, 1] : Matrix (Fin 2) (Fin 2) ℝ)ᵀ)⁻¹ = !![1, -1; 0, 1] := by
    apply inv_eq_right_inv
    ext i j; fin_cases i <;> fin_cases j <;> simp [Matrix.mul_apply, Fin.sum_univ_two]
  have hTi : ((!![1 / 2, 0; 0, 1 / 2] : Matrix (Fin 2) (Fin 2) ℝ) + (!![1, 0; 1, 1])ᵀ)⁻¹ =
      !![2 / 3, -4 / 9; 0, 2 / 3] := by
    apply inv_eq_right_inv
    ext i j; fin_cases i <;> fin_cases j <;> simp [Matrix.mul_apply, Fin.sum_univ_two] <;> norm_num
  have hSi : (innovCov SRFixture.P (1 : Matrix (Fin 2) (Fin 2) ℝ) !![1 / 4, 0; 0, 1 / 4])⁻¹ =
      !![2, -1; -1, 1] := by
    rw [innovCov, hS]
    apply inv_eq_right_inv
    ext i j; fin_cases i <;> fin_cases j <;> simp [Matrix.mul_apply, Fin.sum_univ_two] <;> norm_num
  have hSd : (innovCov SRFixture.P (1 : Matrix (Fin 2) (Fin 2) ℝ) !![1 / 4, 0; 0, 1 / 4]).det ≠ 0 := by
    rw [innovCov, hS, det_fin_two]; norm_num
  obtain ⟨f', e1, e2, e3⟩ := sr_single be (sqrt := Real.sqrt) (eps := eps) SRFixture.meas
    (mu + ![1, 0]) () (SRKF.make Real.sqrt eps mu SRFixture.P) (L := !![1, 0; 1, 1])
    (Rv := !![1 / 2, 0; 0, 1 / 2])
    (by ext i j; fin_cases i <;> fin_cases j <;> simp [SRFixture.meas])
    (by rw [hJ]
        simp only [SRFixture.meas]
        rw [hS, chol_two h0 h1 (by norm_num) (by norm_num)])
    (by rw [det_fin_two]; norm_num) hRc (by rw [det_fin_two]; norm_num)
  rw [hJ, hLi] at e2 e3
  rw [hTi] at e3
  refine ⟨f', ⟨kgain SRFixture.P 1 !![1 / 4, 0; 0, 1 / 4] *ᵥ ![1, 0] + mu,
      be.toSym (kcov SRFixture.P 1 !![1 / 4, 0; 0, 1 / 4]), 0⟩, e1, ?_, ?_, ?_, ?_, ?_⟩
  · have := iekf_single be SRFixture.meas (mu + ![1, 0]) () (KF.make mu SRFixture.P) (Z := mu) (H := 1)
      (R := !![1 / 4, 0; 0, 1 / 4]) rfl rfl rfl hSd
    rw [add_sub_cancel_left] at this
    exact this
  · simp only [kgain]
    rw [hSi]
    simp [SRFixture.P]
    ring
  · rw [e2]
    simp only [SRFixture.P, SRFixture.meas, SRKF.make, KF.make, two_transpose, transpose_one, Matrix.mul_one,
      Matrix.mul_fin_two, add_sub_cancel_left]
    simp
    ring
  · have hd : ∀ a : Matrix (Fin 2) (Fin 2) ℝ, be.toSym a 1 1 = a 1 1 := by
      intro a; cases be <;> simp [Backend.toSym]
    simp only
    rw [hd]
    simp only [kcov, kgain]
    rw [hSi]
    simp only [SRFixture.P, transpose_one, Matrix.mul_one, Matrix.mul_fin_two]
    norm_num
  · rw [e3]
    simp only [SRFixture.P, SRFixture.meas, two_transpose, transpose_one, Matrix.mul_one,
      Matrix.one_mul, Matrix.mul_fin_two, two_add, two_sub]
    norm_num

theorem pred_gain_wrong :
    gainOf (!![2, 1; 1, 1] : Matrix (Fin 2) (Fin 2) ℝ) !![1, 0] !![1] = !![2 / 3; 1 / 3] := by
  have : ((!![1, 0] : Matrix (Fin 1) (Fin 2) ℝ) * (!![2, 1; 1, 1] : Matrix (Fin 2) (Fin 2) ℝ) *
      (!![1, 0] : Matrix (Fin 1) (Fin 2) ℝ)ᵀ + (!![1] : Matrix (Fin 1) (Fin 1) ℝ))⁻¹ = !![1 / 3] := by
    apply inv_eq_right_inv
    ext i j; fin_cases i; fin_cases j
    simp [vecMul, dotProduct, vecHead, Fin.sum_univ_two]; norm_num
  rw [gainOf, this]
  ext i j; fin_cases i <;> fin_cases j <;> simp [vecMul, dotProduct, Fin.sum_univ_two, Matrix.mul_apply] <;>
    norm_num

theorem pred_innov : innovCov (!![1 * 1, 1 * 1; 1 * 1, 1 * 1 + 1 * 1] : Matrix (Fin 2) (Fin 2) ℝ)
    !![1, 0] !![1] = !![2] := by
  ext i j; fin_cases i; fin_cases j
  simp [innovCov, vecMul, dotProduct, Fin.sum_univ_two]; norm_num

theorem pred_gain : kgain (!![1 * 1, 1 * 1; 1 * 1, 1 * 1 + 1 * 1] : Matrix (Fin 2) (Fin 2) ℝ) !![1, 0]
    !![1] = !![1 / 2; 1 / 2] := by
  have : (!![2] : Matrix (Fin 1) (Fin 1) ℝ)⁻¹ = !![1 / 2] := by
    apply inv_eq_right_inv
    ext i j; fin_cases i; fin_cases j
    simp
  rw [kgain, pred_innov, this]
  ext i j; fin_cases i <;> fin_cases j <;>
    simp [vecMul, dotProduct, Fin.sum_univ_two, Matrix.mul_apply]

/-- **C38 fails after a prediction.** A random walk with noise variance 1/4 in each component, then a
measurement of the first component with noise variance 1 and innovation 1: the Kalman filter moves
the first component by 1/2, this filter by 2/3. -/
theorem C38_prediction_false (be : Backend) (eps : ℝ) (h0 : 0 < eps) (h1 : eps ≤ 1 / 16)
    (mu : Fin 2 → ℝ) (sys : AnalyticModel ℝ 2 2 Unit)
    (hsys : sys.IsLinear none 1 0 !![1 / 4, 0; 0, 1 / 4]) (meas : ImplicitModel ℝ 2 1 Unit)
    (hm : meas = ⟨fun _ _ => !![1, 0], fun _ x => ![x 0], fun _ _ => !![1], fun _ _ => !![1],
      fun _ _ => true⟩) :
    ∃ f₁ f₂ g₁ g₂,
      (SRKF.make Real.sqrt eps mu SRFixture.P).sysUpdate be Real.sqrt eps sys none = .ok f₁ ∧
      f₁.measUpdate be Real.sqrt eps 1 meas ![mu 0 + 1] () = .ok f₂ ∧
      (KF.make mu SRFixture.P).sysUpdate be sys none = .ok g₁ ∧
      g₁.iekfMeasUpdate be 1 none (asAnalytic meas) ![mu 0 + 1] (some ()) = .ok g₂ ∧
      g₂.mu 0 = mu 0 + 1 / 2 ∧ f₂.base.mu 0 = mu 0 + 2 / 3 := by
  have he := hsys mu
  rw [Matrix.one_mulVec, add_zero] at he
  have hPsd : PSD SRFixture.P := by simpa using SRFixture.P_pd 0 (by norm_num)
  have hQ : PSD (!![1 / 4, 0; 0, 1 / 4] - eps • (1 : Matrix (Fin 2) (Fin 2) ℝ)) := by
    refine ⟨by ext i j; fin_cases i <;> fin_cases j <;> simp, fun x => ?_⟩
    have : x ⬝ᵥ ((!![1 / 4, 0; 0, 1 / 4] - eps • (1 : Matrix (Fin 2) (Fin 2) ℝ)) *ᵥ x) =
        (1 / 4 - eps) * (x 0 ^ 2 + x 1 ^ 2) := by
      simp [mulVec, dotProduct, Fin.sum_univ_two]; ring
    rw [this]
    have : (0 : ℝ) ≤ 1 / 4 - eps := by linarith
    positivity
  have hS : (1 : Matrix (Fin 2) (Fin 2) ℝ) * SRFixture.P * (1 : Matrix (Fin 2) (Fin 2) ℝ)ᵀ +
      !![1 / 4, 0; 0, 1 / 4] = !![1 * 1, 1 * 1; 1 * 1, 1 * 1 + 1 * 1] := by
    rw [transpose_one, Matrix.one_mul, Matrix.mul_one, SRFixture.P]
    ext i j; fin_cases i <;> fin_cases j <;> norm_num
  have hsym : (!![1 * 1, 1 * 1; 1 * 1, 1 * 1 + 1 * 1] : Matrix (Fin 2) (Fin 2) ℝ)ᵀ =
      !![1 * 1, 1 * 1; 1 * 1, 1 * 1 + 1 * 1] := by
    ext i j; fin_cases i <;> fin_cases j <;> simp
  have hcs : (KF.make mu SRFixture.P).calculateSysUpdate be mu 1 !![1 / 4, 0; 0, 1 / 4] =
      ⟨mu, !![1 * 1, 1 * 1; 1 * 1, 1 * 1 + 1 * 1], 0⟩ := by
    simp only [KF.calculateSysUpdate, KF.make, KF.postMuSet, KF.postSigmaSet]
    rw [← Matrix.mul_assoc, hS, be.toSym_of_symm hsym]
  have hmk : (SRKF.make Real.sqrt eps mu SRFixture.P).base = KF.make mu SRFixture.P := rfl
  have s1 : (SRKF.make Real.sqrt eps mu SRFixture.P).sysUpdate be Real.sqrt eps sys none = .ok
      ⟨⟨mu, !![1 * 1, 1 * 1; 1 * 1, 1 * 1 + 1 * 1], 0⟩, !![1, 0; 1, 1]ᵀ⟩ := by
    obtain ⟨e1, e2, e3⟩ := he
    simp only [SRKF.sysUpdate]
    rw [hmk, show (KF.make mu SRFixture.P).mu = mu from rfl, e1, e2, e3]
    simp only [Outcome.ok_bind, Outcome.pure_eq]
    rw [hcs]
    simp only
    rw [chol_two h0 h1 (by norm_num) (by norm_num)]
  have s2 : (KF.make mu SRFixture.P).sysUpdate be sys none = .ok
      ⟨mu, !![1 * 1, 1 * 1; 1 * 1, 1 * 1 + 1 * 1], 0⟩ := by
    obtain ⟨e1, e2, e3⟩ := he
    simp only [KF.sysUpdate]
    rw [show (KF.make mu SRFixture.P).mu = mu from rfl, e1, e2, e3]
    simp only [Outcome.ok_bind, Outcome.pure_eq]
    rw [hcs]
  have hsc : ScalarNoise eps meas () := by
    intro x; subst hm; simp; linarith
  have hJJ : (!![1, 0; 1, 1]ᵀ * (!![1, 0; 1, 1]ᵀ)ᵀ : Matrix (Fin 2) (Fin 2) ℝ) = !![2, 1; 1, 1] := by
    ext i j; fin_cases i <;> fin_cases j <;> simp [Matrix.mul_apply, Fin.sum_univ_two] <;> norm_num
  obtain ⟨f₂, m1, m2, _⟩ := sr_loop be realSqrt_isSqrt h0 (by linarith) meas ![mu 0 + 1] () mu 0
    ⟨⟨mu, !![1 * 1, 1 * 1; 1 * 1, 1 * 1 + 1 * 1], 0⟩, !![1, 0; 1, 1]ᵀ⟩
    (hsc.decoupled (psd_of_factor _))
  simp only [hJJ, zero_add, Function.iterate_one] at m2
  subst hm
  refine ⟨_, f₂, _, _, s1, m1, s2, iekf_single be _ _ () _ rfl rfl rfl
    (by rw [pred_innov]; simp), ?_, ?_⟩
  · simp only
    rw [pred_gain]
    simp; ring
  · rw [m2]
    simp only [relinearise]
    rw [pred_gain_wrong]
    simp

theorem sr_prior_loop (be : Backend) {sqrt : K → K} {eps : K} (meas : ImplicitModel K n m Sens)
    (z : Fin m → K) (s : Sens) (x₀ : Fin n → K) (P₁ P₂ J : Matrix (Fin n) (Fin n) K) (t : Nat) :
    ∀ (k : Nat) (x : Fin n → K),
      SRKF.measLoop be sqrt eps meas z s x₀ (k + 1) ⟨⟨x, P₁, t⟩, J⟩ =
        SRKF.measLoop be sqrt eps meas z s x₀ (k + 1) ⟨⟨x, P₂, t⟩, J⟩
  | 0, x => by
    simp only [SRKF.measLoop, SRKF.calculateMatrix, SRKF.calculateMean, SRKF.covarianceIfLast,
      SRKF.calculateCovariance, KF.postMuSet, KF.postSigmaSet, beq_self_eq_true, if_true]
  | k + 1, x => by
    have ih := sr_prior_loop be (sqrt := sqrt) (eps := eps) meas z s x₀ P₁ P₂ J t k
    rw [SRKF.measLoop, SRKF.measLoop]
    simp only [SRKF.calculateMatrix, SRKF.calculateMean, SRKF.covarianceIfLast,
      beq_eq_false_iff_ne.2 (Nat.succ_ne_zero k), Bool.false_eq_true, if_false, KF.postMuSet,
      Outcome.ok_bind]
    generalize be.inverse (cholesky sqrt eps
      (be.toSym (meas.df s x * J * Jᵀ * (meas.df s x)ᵀ + meas.cov s x)ᵀ)).2ᵀ = o
    cases o with
    | ok a => exact ih _
    | abort => rfl
    | ub => rfl

/-- **C38 fails after `PriorSet`.** Whatever covariance is set, the next measurement update gives the
same result as for any other covariance: the stored factor is not refreshed. -/
theorem C38_prior_false (be : Backend) {sqrt : K → K} {eps : K} (f : SRKF K n) (x : Fin n → K)
    (P₁ P₂ : Matrix (Fin n) (Fin n) K) (meas : ImplicitModel K n m Sens) (z : Fin m → K) (s : Sens)
    (k : Nat) :
    (f.priorSet x P₁).measUpdate be sqrt eps (k + 1) meas z s =
      (f.priorSet x P₂).measUpdate be sqrt eps (k + 1) meas z s :=
  sr_prior_loop be meas z s x P₁ P₂ f.JP f.base.timestep k x

/-! ### The hypotheses can be met -/

/-- A nonlinear measurement `x₀ · x₁` of a two-dimensional state. -/
noncomputable def SRFixture.product : ImplicitModel ℝ 2 1 Unit where
  df _ x := !![x 1, x 0]
  expected _ x := ![x 0 * x 1]
  cov _ _ := !![1]
  srCov _ _ := !![1]
  isIdentity _ _ := true

theorem SRFixture.product_noise : ScalarNoise (1 / 2 ^ 52) SRFixture.product () := by
  intro x
  simp only [SRFixture.product, of_apply, cons_val', cons_val_fin_one]
  norm_num

example : ∃ f', (SRKF.make Real.sqrt (1 / 2 ^ 52) ![1, 2] SRFixture.P).measUpdate .boost Real.sqrt
      (1 / 2 ^ 52) 3 SRFixture.product ![5] () = .ok f' ∧
    (KF.make ![1, 2] SRFixture.P).iekfMeasUpdate .boost 3 none (asAnalytic SRFixture.product) ![5]
      (some ()) = .ok f'.base ∧ f'.JP * f'.JPᵀ = f'.base.sigma :=
  C38_scalar .boost realSqrt_isSqrt (by positivity) (by norm_num) SRFixture.product ![5] () 2
    SRFixture.product_noise _ (C38_construction realSqrt_isSqrt (by positivity) (by norm_num)
      ![1, 2] SRFixture.P (SRFixture.P_pd _ (by norm_num))).1

example : ∃ f', (SRKF.make Real.sqrt (1 / 2 ^ 52) ![1, 2] SRFixture.P).measUpdate .boost Real.sqrt
      (1 / 2 ^ 52) 1 SRFixture.product ![5] () = .ok f' ∧
    f'.base.sigma = posteriorCov SRFixture.P !![2, 1] !![1] := by
  obtain ⟨hJ, -, -⟩ := C38_construction realSqrt_isSqrt (eps := 1 / 2 ^ 52) (by positivity)
    (by norm_num) ![1, 2] SRFixture.P (SRFixture.P_pd _ (by norm_num))
  obtain ⟨f', h1, _, h2, _⟩ := C38_update_partial .boost realSqrt_isSqrt (by positivity) (by norm_num)
    SRFixture.product ![5] () 0 _ SRFixture.P hJ
    (SRFixture.product_noise.decoupled (by simpa using SRFixture.P_pd 0 (by norm_num)))
    (fun i => (relinearise ![1, 2] SRFixture.P (SRFixture.product.expected ()) (SRFixture.product.df ())
      (SRFixture.product.cov ()) ![5])^[i] ![1, 2]) rfl
    (fun i => by simp only [Function.iterate_succ_apply']; rfl)
  exact ⟨f', h1, h2⟩

/-- A dense factor: `Sr` need not be triangular. -/
example : ∃ f', (⟨KF.make ![1, 2] !![2, 1; 1, 1], !![1, 1; 0, 1]⟩ : SRKF ℝ 2).calculateCovariance .boost
      (!![1, 0; 0, 1] : Matrix (Fin 2) (Fin 2) ℝ) (!![0, 1; -1, 1] : Matrix (Fin 2) (Fin 2) ℝ)
      (!![1, 1; 1, -1] : Matrix (Fin 2) (Fin 2) ℝ)⁻¹ !![1, 1; 1, -1] = .ok f' ∧
    f'.base.mu = ![1, 2] := by
  obtain ⟨f', h, h', _⟩ := C38_covariance .boost
    (⟨KF.make ![1, 2] !![2, 1; 1, 1], !![1, 1; 0, 1]⟩ : SRKF ℝ 2) !![2, 1; 1, 1]
    (!![0, 1; -1, 1] : Matrix (Fin 2) (Fin 2) ℝ) (!![1, 0; 0, 1] : Matrix (Fin 2) (Fin 2) ℝ)
    !![1, 0; 0, 1] !![1, 1; 1, -1]
    (by simp only [two_transpose, Matrix.mul_fin_two]; norm_num)
    (by simp only [two_transpose, Matrix.mul_fin_two, two_add]; norm_num)
    (by simp only [two_transpose, Matrix.mul_fin_two]; norm_num)
    (by rw [det_fin_two]; norm_num) (by rw [two_add, det_fin_two]; norm_num)
  exact ⟨f', h, h'⟩

/-- Two components measured by one instrument each, of a state with independent components. -/
noncomputable def SRFixture.both : ImplicitModel ℝ 2 2 Unit where
  df _ _ := 1
  expected _ x := x
  cov _ _ := diagonal ![1, 2]
  srCov _ _ := 0
  isIdentity _ _ := false

example : ∃ f', (⟨KF.make ![1, 2] (diagonal ![4, 9]), diagonal ![2, 3]⟩ : SRKF ℝ 2).measUpdate .eigen
      Real.sqrt (1 / 2 ^ 52) 3 SRFixture.both ![5, 6] () = .ok f' ∧
    (KF.make ![1, 2] (diagonal ![4, 9])).iekfMeasUpdate .eigen 3 none (asAnalytic SRFixture.both) ![5, 6]
      (some ()) = .ok f'.base ∧ f'.JP * f'.JPᵀ = f'.base.sigma := by
  refine C38_iekf_partial .eigen realSqrt_isSqrt (by positivity) (by norm_num) SRFixture.both ![5, 6]
    () 2 ⟨KF.make ![1, 2] (diagonal ![4, 9]), diagonal ![2, 3]⟩ ?_ fun x =>
      ⟨![5, 11], ![1, 2], ?_, ?_, ?_, rfl, (fun h => by cases h)⟩
  · ext i j; fin_cases i <;> fin_cases j <;> simp [KF.make] <;> norm_num
  · intro i; fin_cases i <;> norm_num
  · intro i; fin_cases i <;> norm_num
  · ext i j; fin_cases i <;> fin_cases j <;> simp [KF.make, SRFixture.both] <;> norm_num

example : ∃ f', srRun (U := Unit) .boost Real.sqrt (1 / 2 ^ 52) 2
      [.predict (.noInput id (fun _ => 1) (fun _ => !![1])) none,
       .correct ⟨fun _ x => !![2 * x 0], fun _ x => ![x 0 * x 0], fun _ _ => !![1], fun _ _ => 0,
          fun _ _ => false⟩ ![3] (),
       .predict (.noInput id (fun _ => 1) (fun _ => !![1])) none]
      (SRKF.make Real.sqrt (1 / 2 ^ 52) ![1] !![4]) = .ok f' ∧ f'.JP * f'.JPᵀ = f'.base.sigma := by
  obtain ⟨f', h1, _, h2⟩ := C38_run_scalar (U := Unit) .boost (eps := 1 / 2 ^ 52) realSqrt_isSqrt
    (by positivity) (by norm_num) 1 [.predict (.noInput id (fun _ => 1) (fun _ => !![1])) none,
       .correct ⟨fun _ x => !![2 * x 0], fun _ x => ![x 0 * x 0], fun _ _ => !![1], fun _ _ => 0,
          fun _ _ => false⟩ ![3] (),
       .predict (.noInput id (fun _ => 1) (fun _ => !![1])) none] (by
    intro st hst
    simp only [List.mem_cons, List.not_mem_nil, or_false] at hst
    rcases hst with rfl | rfl | rfl
    · exact fun x => ⟨x, 1, !![1], ⟨rfl, rfl, rfl⟩, by norm_num⟩
    · exact fun x => ⟨by simp only [of_apply, cons_val', cons_val_fin_one]; norm_num,
        fun h => by cases h⟩
    · exact fun x => ⟨x, 1, !![1], ⟨rfl, rfl, rfl⟩, by norm_num⟩) ![1] !![4] (by norm_num)
  exact ⟨f', h1, h2⟩

end BFL.Props
