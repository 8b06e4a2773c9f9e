import Verif.Spec.GaussNewton
import Verif.Props.SRKalman
import Verif.Props.KalmanFamily
import Mathlib.Analysis.Calculus.FDeriv.Mul
import Mathlib.Analysis.Calculus.LocalExtr.Basic
import Mathlib.Topology.MetricSpace.Contracting

/-!
# Property C86: the iterated Kalman filter looks for the most probable state

`Spec.GaussNewton` and `Spec.misfit` are in `Verif/Spec/GaussNewton.lean`.
-/

set_option linter.unusedSectionVars false

namespace BFL.Props

open Matrix Spec

variable {K : Type} [Field K] [LinearOrder K] [IsStrictOrderedRing K] {n m : Nat} {U : Type}

theorem one_by_one_pd {A : Matrix (Fin 1) (Fin 1) K} (hA : 0 < A 0 0) : PD A := by
  refine ⟨by ext i j; fin_cases i; fin_cases j; rfl, fun x hx => ?_⟩
  have h0 : x 0 ≠ 0 := by
    intro h
    apply hx
    ext i
    fin_cases i
    exact h
  have : x ⬝ᵥ A *ᵥ x = A 0 0 * (x 0 * x 0) := by
    simp only [dotProduct, mulVec, Fin.sum_univ_one]
    ring
  rw [this]
  exact mul_pos hA (mul_self_pos.2 h0)

theorem unit_noise_pd : PD (!![1] : Matrix (Fin 1) (Fin 1) K) := one_by_one_pd one_pos

/-- One pass of the loop. -/
noncomputable def gnPoint (μ : Fin n → K) (P : Matrix (Fin n) (Fin n) K) (h : (Fin n → K) → Fin m → K)
    (H : (Fin n → K) → Matrix (Fin m) (Fin n) K) (R : (Fin n → K) → Matrix (Fin m) (Fin m) K) (z : Fin m → K)
    (x : Fin n → K) : Fin n → K :=
  μ + kgain P (H x) (R x) *ᵥ (z - (h x + H x *ᵥ (μ - x)))

theorem misfit_tangent (μ : Fin n → K) (P : Matrix (Fin n) (Fin n) K) (h : (Fin n → K) → Fin m → K)
    (H : Matrix (Fin m) (Fin n) K) (R : Matrix (Fin m) (Fin m) K) (z : Fin m → K) (x y : Fin n → K) :
    misfit μ P (tangent h H x) R z y = cost μ P H R z (h x + H *ᵥ (μ - x)) y := by
  have : h x + H *ᵥ (y - x) = h x + H *ᵥ (μ - x) + H *ᵥ (y - μ) := by
    rw [add_assoc, ← mulVec_add]
    congr 2
    abel
  rw [misfit, tangent, cost, this]

/-- The loop takes Gauss-Newton steps, and a step is unique. -/
theorem gaussNewton_iff {μ : Fin n → K} {P : Matrix (Fin n) (Fin n) K} (hP : PD P) {h : (Fin n → K) → Fin m → K}
    {H : (Fin n → K) → Matrix (Fin m) (Fin n) K} {R : (Fin n → K) → Matrix (Fin m) (Fin m) K}
    {x : Fin n → K} (hR : PD (R x)) {z : Fin m → K} {x' : Fin n → K} :
    GaussNewton μ P h (H x) (R x) z x x' ↔ x' = gnPoint μ P h H R z x := by
  have hS := (innovCov_pd (H := H x) hP.psd hR).det_ne
  have hk : (kcov P (H x) (R x)).det ≠ 0 := by
    intro h0
    have := det_kcov (P := P) hS hR.det_ne
    rw [h0, zero_mul] at this
    exact mul_ne_zero hP.det_ne hR.det_ne this.symm
  have hkp : PD (kcov P (H x) (R x))⁻¹ := by
    have h1 := kcov_information hS hR.det_ne hP.det_ne
    rw [h1]
    have := (hR.inv.psd).congr (H x)ᵀ
    rw [transpose_transpose] at this
    exact add_comm P⁻¹ _ ▸ this.add_pd hP.inv
  have hsplit : ∀ y, misfit μ P (tangent h (H x) x) (R x) z y =
      quad (kcov P (H x) (R x))⁻¹ (y - gnPoint μ P h H R z x) +
        quad (innovCov P (H x) (R x))⁻¹ (z - (h x + H x *ᵥ (μ - x))) := by
    intro y
    rw [misfit_tangent, cost_split hP.1 hR.1 hS hR.det_ne hP.det_ne, gnPoint, add_comm μ]
  have hmin : GaussNewton μ P h (H x) (R x) z x (gnPoint μ P h H R z x) := by
    intro y hy
    rw [hsplit, hsplit, sub_self]
    have := hkp.2 _ (sub_ne_zero.2 hy)
    simp only [quad] at this ⊢
    rw [mulVec_zero, dotProduct_zero]
    linarith
  constructor
  · intro h'
    by_contra hc
    exact absurd (h' _ (Ne.symm hc)) (not_lt.2 (hmin _ hc).le)
  · rintro rfl
    exact hmin

theorem loop_points {be : Backend} {meas : AnalyticModel K n m U} {s : Option U} {h : (Fin n → K) → Fin m → K}
    {H : (Fin n → K) → Matrix (Fin m) (Fin n) K} {R : (Fin n → K) → Matrix (Fin m) (Fin m) K}
    (hm : ∀ x, meas.Evaluates s x (h x) (H x) (R x)) (hR : ∀ x, PD (R x)) {z : Fin m → K}
    {chk : Option ((Fin n → K) → Bool)} {μ : Fin n → K} {P : Matrix (Fin n) (Fin n) K} (hP : PSD P) (k : Nat) :
    ∀ (xi : Fin n → K) buf, ∃ j, j ≤ k ∧
      (let x := fun i => (gnPoint μ P h H R z)^[i] xi
      KF.iekfLoop be meas z s chk μ P (k + 1) xi buf =
        .ok (some (h (x j) + H (x j) *ᵥ (μ - x j), H (x j), R (x j))) ∧
      (∀ i, i < j → KF.passes chk (x (i + 1) - x i) = true) ∧
      (j < k → KF.passes chk (x (j + 1) - x j) = false)) := by
  induction k with
  | zero =>
    intro xi buf
    refine ⟨0, le_rfl, ?_, fun i hi => absurd hi (by omega), fun hi => absurd hi (by omega)⟩
    rw [iekfLoop_step (hm xi) (innovCov_pd hP (hR xi)).det_ne, iekfLoop_stop, ite_self]
    rfl
  | succ k ih =>
    intro xi buf
    rw [iekfLoop_step (hm xi) (innovCov_pd hP (hR xi)).det_ne]
    split
    · rename_i hp
      obtain ⟨j, hj, e, h1, h2⟩ := ih (gnPoint μ P h H R z xi) (some (h xi + H xi *ᵥ (μ - xi), H xi, R xi))
      refine ⟨j + 1, by omega, e, fun i hi => ?_, fun hi => h2 (by omega)⟩
      cases i with
      | zero => exact hp
      | succ i => exact h1 i (by omega)
    · rename_i hp
      refine ⟨0, by omega, rfl, fun i hi => absurd hi (by omega), fun _ => ?_⟩
      exact Bool.eq_false_of_not_eq_true hp

/-- **C86.** The estimate of the iterated filter is reached by Gauss-Newton steps that start at the prior mean:
at least one and at most as many as asked for, all steps but the last pass the check of the user, and the filter
stops early only if the last step does not pass it. The reported covariance belongs to the posterior with the sensor
replaced by its tangent at the last but one point. -/
theorem C86_iterations (be : Backend) {nr : Nat} (hnr : 1 ≤ nr) (chk : Option ((Fin n → K) → Bool))
    {meas : AnalyticModel K n m U} {s : Option U} {h : (Fin n → K) → Fin m → K}
    {H : (Fin n → K) → Matrix (Fin m) (Fin n) K} {R : (Fin n → K) → Matrix (Fin m) (Fin m) K}
    (hm : ∀ x, meas.Evaluates s x (h x) (H x) (R x)) (hR : ∀ x, PD (R x)) (z : Fin m → K) (f : KF K n)
    (hP : PD f.sigma) :
    ∃ (x : Nat → Fin n → K) (k : Nat) (f' : KF K n), x 0 = f.mu ∧
      (∀ i, GaussNewton f.mu f.sigma h (H (x i)) (R (x i)) z (x i) (x (i + 1))) ∧
      k < nr ∧ f.iekfMeasUpdate be nr chk meas z s = .ok f' ∧ f'.mu = x (k + 1) ∧
      f'.sigma⁻¹ = f.sigma⁻¹ + (H (x k))ᵀ * (R (x k))⁻¹ * H (x k) ∧
      (∀ i, i < k → KF.passes chk (x (i + 1) - x i) = true) ∧
      (k + 1 < nr → KF.passes chk (x (k + 1) - x k) = false) := by
  obtain ⟨nr, rfl⟩ : ∃ r, nr = r + 1 := ⟨nr - 1, by omega⟩
  obtain ⟨k, hk, e, h1, h2⟩ := loop_points (be := be) hm hR (z := z) (chk := chk) (μ := f.mu) hP.psd nr f.mu none
  have hS := (innovCov_pd (H := H ((gnPoint f.mu f.sigma h H R z)^[k] f.mu)) hP.psd
    (hR ((gnPoint f.mu f.sigma h H R z)^[k] f.mu))).det_ne
  have hc := calculateMeasUpdate_ok be f z
    (h ((gnPoint f.mu f.sigma h H R z)^[k] f.mu) + H ((gnPoint f.mu f.sigma h H R z)^[k] f.mu) *ᵥ
      (f.mu - (gnPoint f.mu f.sigma h H R z)^[k] f.mu)) _ _ hS
  generalize hf' : KF.mk _ _ _ = f' at hc
  refine ⟨fun i => (gnPoint f.mu f.sigma h H R z)^[i] f.mu, k, f', rfl, fun i => ?_, by omega, ?_, ?_, ?_, h1,
    fun hh => h2 (by omega)⟩
  · exact (gaussNewton_iff hP (hR _)).2 (Function.iterate_succ_apply' _ _ _)
  · rw [KF.iekfMeasUpdate, e]
    exact hc
  · show _ = (gnPoint f.mu f.sigma h H R z)^[k + 1] f.mu
    rw [Function.iterate_succ_apply', gnPoint, add_comm, ← hf']
  · rw [← hf']
    show (be.toSym _)⁻¹ = _
    rw [be.toSym_of_symm (kcov_psd hP.psd (hR _)).1]
    exact kcov_information hS (hR _).det_ne hP.det_ne

/-- **C86.** The square root filter takes the same steps, for sensors that measure one number and a factor that is
up to date. -/
theorem C86_square_root (be : Backend) {Sens : Type} {sqrt : K → K} {eps : K} (hs : IsSqrt sqrt) (h0 : 0 < eps)
    (h1 : eps ≤ 1) (meas : ImplicitModel K n 1 Sens) (z : Fin 1 → K) (s : Sens) {nr : Nat} (hnr : 1 ≤ nr)
    (hm : ScalarNoise eps meas s) (f : SRKF K n) (hJ : f.JP * f.JPᵀ = f.base.sigma)
    (hP : PD f.base.sigma) :
    ∃ (x : Nat → Fin n → K) (f' : SRKF K n), x 0 = f.base.mu ∧
      (∀ i, GaussNewton f.base.mu f.base.sigma (meas.expected s) (meas.df s (x i)) (meas.cov s (x i)) z (x i)
        (x (i + 1))) ∧
      f.measUpdate be sqrt eps nr meas z s = .ok f' ∧ f'.base.mu = x nr := by
  have hR : ∀ x, PD (meas.cov s x) := fun x => one_by_one_pd (h0.trans_le (hm x).1)
  obtain ⟨k, rfl⟩ : ∃ k, nr = k + 1 := ⟨nr - 1, by omega⟩
  obtain ⟨f', e1, e2, -⟩ := C38_scalar be hs h0 h1 meas z s k hm f hJ
  obtain ⟨x, j, g, x0, xs, hj, e3, e4, -, -, hstop⟩ := C86_iterations be hnr none (meas := asAnalytic meas)
    (s := some s) (h := meas.expected s) (H := meas.df s) (R := meas.cov s) (fun x => ⟨rfl, rfl, rfl⟩) hR z f.base hP
  have hj' : j = k := by
    by_contra hc
    have := hstop (by omega)
    simp [KF.passes] at this
  rw [e2] at e3
  cases e3
  exact ⟨x, f', x0, xs, e1, by rw [e4, hj']⟩

/-- A point that the loop does not leave balances the pull of the prior and the pull of the measurement. -/
theorem gnPoint_fixed {μ : Fin n → K} {P : Matrix (Fin n) (Fin n) K} (hP : PD P) {h : (Fin n → K) → Fin m → K}
    {H : (Fin n → K) → Matrix (Fin m) (Fin n) K} {R : (Fin n → K) → Matrix (Fin m) (Fin m) K}
    {x : Fin n → K} (hR : PD (R x)) {z : Fin m → K} :
    gnPoint μ P h H R z x = x ↔ P⁻¹ *ᵥ (x - μ) - ((H x)ᵀ * (R x)⁻¹) *ᵥ (z - h x) = 0 := by
  have hS := (innovCov_pd (H := H x) hP.psd hR).det_ne
  have hk : (kcov P (H x) (R x)).det ≠ 0 := by
    intro h0
    have := det_kcov (P := P) hS hR.det_ne
    rw [h0, zero_mul] at this
    exact mul_ne_zero hP.det_ne hR.det_ne this.symm
  have hi := kcov_information hS hR.det_ne hP.det_ne
  set C := kcov P (H x) (R x) with hC
  have e1 : gnPoint μ P h H R z x = μ + C *ᵥ (((H x)ᵀ * (R x)⁻¹) *ᵥ (z - h x) +
      ((H x)ᵀ * (R x)⁻¹ * H x) *ᵥ (x - μ)) := by
    rw [gnPoint, kgain_eq hS hR.det_ne, Matrix.mul_assoc, ← mulVec_mulVec, ← mulVec_mulVec _ _ (H x), ← mulVec_add]
    congr 3
    rw [← neg_sub x μ, mulVec_neg]
    abel
  have e2 : ((H x)ᵀ * (R x)⁻¹ * H x) *ᵥ (x - μ) = C⁻¹ *ᵥ (x - μ) - P⁻¹ *ᵥ (x - μ) := by
    rw [hi, add_mulVec, add_sub_cancel_left]
  have e3 : gnPoint μ P h H R z x = x - C *ᵥ (P⁻¹ *ᵥ (x - μ) - ((H x)ᵀ * (R x)⁻¹) *ᵥ (z - h x)) := by
    rw [e1, e2]
    have : ((H x)ᵀ * (R x)⁻¹) *ᵥ (z - h x) + (C⁻¹ *ᵥ (x - μ) - P⁻¹ *ᵥ (x - μ)) =
        C⁻¹ *ᵥ (x - μ) - (P⁻¹ *ᵥ (x - μ) - ((H x)ᵀ * (R x)⁻¹) *ᵥ (z - h x)) := by abel
    rw [this, mulVec_sub, mulVec_mulVec, mul_nonsing_inv _ hk.isUnit, one_mulVec]
    abel
  rw [e3, sub_eq_self]
  constructor
  · intro h0
    have := congrArg (fun v => C⁻¹ *ᵥ v) h0
    simpa [mulVec_mulVec, nonsing_inv_mul _ hk.isUnit] using this
  · intro h0
    rw [h0, mulVec_zero]

/-- Derivative of a square. -/
theorem hasFDerivAt_quad {k : Nat} {W : Matrix (Fin k) (Fin k) ℝ} (hW : Wᵀ = W) {a : (Fin n → ℝ) → Fin k → ℝ}
    {a' : (Fin n → ℝ) →L[ℝ] (Fin k → ℝ)} {x : Fin n → ℝ} (ha : HasFDerivAt a a' x) :
    ∃ D : (Fin n → ℝ) →L[ℝ] ℝ, HasFDerivAt (fun y => quad W (a y)) D x ∧
      ∀ v, D v = 2 * ((W *ᵥ a x) ⬝ᵥ a' v) := by
  have hc := hasFDerivAt_pi'.1 ha
  have h1 : ∀ i, HasFDerivAt (fun y => (W *ᵥ a y) i)
      (∑ j, W i j • ((ContinuousLinearMap.proj j).comp a')) x := by
    intro i
    have := HasFDerivAt.fun_sum (u := Finset.univ) (A := fun j y => W i j * a y j)
      (A' := fun j => W i j • ((ContinuousLinearMap.proj j).comp a')) (x := x)
      (fun j _ => (hc j).const_mul (W i j))
    exact this
  have h2 := HasFDerivAt.fun_sum (u := Finset.univ) (A := fun i y => a y i * (W *ᵥ a y) i) (x := x)
    (fun i _ => (hc i).mul (h1 i))
  refine ⟨_, h2, fun v => ?_⟩
  have h3 : (W *ᵥ a' v) ⬝ᵥ a x = (W *ᵥ a x) ⬝ᵥ a' v := by
    rw [dotProduct_comm, quad_transpose, hW]
  rw [two_mul]
  conv_rhs => lhs; rw [← h3]
  simp only [_root_.sum_apply, _root_.add_apply, _root_.smul_apply,
    ContinuousLinearMap.comp_apply, ContinuousLinearMap.proj_apply, smul_eq_mul, Finset.sum_add_distrib]
  congr 1
  simp only [dotProduct, mulVec]
  exact Finset.sum_congr rfl fun i _ => mul_comm _ _

/-- The gradient of the misfit. -/
theorem hasFDerivAt_misfit {μ : Fin n → ℝ} {P : Matrix (Fin n) (Fin n) ℝ} (hP : PD P) {h : (Fin n → ℝ) → Fin m → ℝ}
    {H : Matrix (Fin m) (Fin n) ℝ} {R : Matrix (Fin m) (Fin m) ℝ} (hR : PD R) {x : Fin n → ℝ}
    (hd : HasFDerivAt h (LinearMap.toContinuousLinearMap H.mulVecLin) x) (z : Fin m → ℝ) :
    ∃ D : (Fin n → ℝ) →L[ℝ] ℝ, HasFDerivAt (misfit μ P h R z) D x ∧
      ∀ v, D v = 2 * ((P⁻¹ *ᵥ (x - μ) - (Hᵀ * R⁻¹) *ᵥ (z - h x)) ⬝ᵥ v) := by
  obtain ⟨D1, h1, e1⟩ := hasFDerivAt_quad (W := P⁻¹) (by rw [transpose_nonsing_inv, hP.1])
    ((hasFDerivAt_id x).sub_const μ)
  obtain ⟨D2, h2, e2⟩ := hasFDerivAt_quad (W := R⁻¹) (by rw [transpose_nonsing_inv, hR.1]) (hd.const_sub z)
  refine ⟨D1 + D2, h1.add h2, fun v => ?_⟩
  rw [_root_.add_apply, e1, e2, sub_dotProduct, mul_sub, sub_eq_add_neg]
  congr 1
  rw [← mul_neg, ← mulVec_mulVec]
  congr 1
  show (R⁻¹ *ᵥ (z - h x)) ⬝ᵥ (-(H *ᵥ v)) = _
  rw [dotProduct_neg, dotProduct_comm (Hᵀ *ᵥ _), quad_transpose Hᵀ, transpose_transpose, dotProduct_comm]

/-- **C86.** A state is a stationary point of the posterior density if and only if a Gauss-Newton step does not
leave it. -/
theorem C86_stationary {μ : Fin n → ℝ} {P : Matrix (Fin n) (Fin n) ℝ} (hP : PD P) {h : (Fin n → ℝ) → Fin m → ℝ}
    {H : Matrix (Fin m) (Fin n) ℝ} {R : Matrix (Fin m) (Fin m) ℝ} (hR : PD R) {x : Fin n → ℝ}
    (hd : HasFDerivAt h (LinearMap.toContinuousLinearMap H.mulVecLin) x) (z : Fin m → ℝ) :
    GaussNewton μ P h H R z x x ↔ HasFDerivAt (misfit μ P h R z) (0 : (Fin n → ℝ) →L[ℝ] ℝ) x := by
  obtain ⟨D, h1, e⟩ := hasFDerivAt_misfit (μ := μ) hP hR hd z
  have h2 := gaussNewton_iff (μ := μ) hP (h := h) (H := fun _ => H) (R := fun _ => R) (x := x) hR (z := z) (x' := x)
  have h3 := gnPoint_fixed (μ := μ) hP (h := h) (H := fun _ => H) (R := fun _ => R) (x := x) hR (z := z)
  rw [h2, eq_comm, h3]
  constructor
  · intro h0
    have : D = 0 := by
      ext1 v
      rw [e, h0, zero_dotProduct, mul_zero]
      rfl
    rwa [this] at h1
  · intro h0
    have h4 : D = 0 := h1.unique h0
    have h5 := e (P⁻¹ *ᵥ (x - μ) - (Hᵀ * R⁻¹) *ᵥ (z - h x))
    rw [h4] at h5
    have h6 : (P⁻¹ *ᵥ (x - μ) - (Hᵀ * R⁻¹) *ᵥ (z - h x)) ⬝ᵥ (P⁻¹ *ᵥ (x - μ) - (Hᵀ * R⁻¹) *ᵥ (z - h x)) = 0 := by
      have : (0 : ℝ) = 2 * ((P⁻¹ *ᵥ (x - μ) - (Hᵀ * R⁻¹) *ᵥ (z - h x)) ⬝ᵥ
        (P⁻¹ *ᵥ (x - μ) - (Hᵀ * R⁻¹) *ᵥ (z - h x))) := h5
      linarith
    exact dotProduct_self_eq_zero.1 h6

theorem norm_le_of_check {ε : ℝ} (hε : 0 < ε) {v : Fin n → ℝ}
    (h : KF.passes (some (KF.innovationCheck (ε ^ 2))) v = false) : ‖v‖ ≤ ε := by
  simp only [KF.passes, KF.innovationCheck, decide_eq_false_iff_not, not_le] at h
  rw [pi_norm_le_iff_of_nonneg hε.le]
  intro i
  have h1 : v i * v i ≤ v ⬝ᵥ v := Finset.single_le_sum (f := fun i => v i * v i)
    (fun j _ => mul_self_nonneg _) (Finset.mem_univ i)
  exact abs_le_of_sq_le_sq (by nlinarith) hε.le

/-- **C86.** If the Gauss-Newton steps contract on a closed set that holds the prior mean, the posterior density has
one stationary point in the set, the iterated filter converges to it geometrically, and an innovation check with the
threshold `ε²` stops it only nearby. A local maximum of the posterior density in the set is that point. -/
theorem C86_converges (be : Backend) {meas : AnalyticModel ℝ n m U} {s : Option U} {h : (Fin n → ℝ) → Fin m → ℝ}
    {H : (Fin n → ℝ) → Matrix (Fin m) (Fin n) ℝ} {R : Matrix (Fin m) (Fin m) ℝ}
    (hm : ∀ x, meas.Evaluates s x (h x) (H x) R) (hR : PD R) (z : Fin m → ℝ) (f : KF ℝ n) (hP : PD f.sigma)
    {S : Set (Fin n → ℝ)} (hS : IsClosed S) (h0 : f.mu ∈ S)
    (hd : ∀ x ∈ S, HasFDerivAt h (LinearMap.toContinuousLinearMap (H x).mulVecLin) x)
    {q : ℝ} (hq0 : 0 ≤ q) (hq : q < 1)
    (hstep : ∀ x ∈ S, ∀ x', GaussNewton f.mu f.sigma h (H x) R z x x' → x' ∈ S)
    (hcon : ∀ x ∈ S, ∀ y ∈ S, ∀ x' y', GaussNewton f.mu f.sigma h (H x) R z x x' →
      GaussNewton f.mu f.sigma h (H y) R z y y' → ‖x' - y'‖ ≤ q * ‖x - y‖) :
    ∃ x ∈ S, HasFDerivAt (misfit f.mu f.sigma h R z) (0 : (Fin n → ℝ) →L[ℝ] ℝ) x ∧
      (∀ y ∈ S, IsLocalMin (misfit f.mu f.sigma h R z) y → y = x) ∧
      (∀ nr, 1 ≤ nr → ∃ f', f.iekfMeasUpdate be nr none meas z s = .ok f' ∧ ‖f'.mu - x‖ ≤ q ^ nr * ‖f.mu - x‖) ∧
      (∀ nr ε, 1 ≤ nr → 0 < ε →
        ∃ f', f.iekfMeasUpdate be nr (some (KF.innovationCheck (ε ^ 2))) meas z s = .ok f' ∧
          (‖f'.mu - x‖ ≤ q ^ nr * ‖f.mu - x‖ ∨ ‖f'.mu - x‖ ≤ q / (1 - q) * ε)) := by
  set G := gnPoint f.mu f.sigma h H (fun _ => R) z with hG
  have hgn : ∀ x x', GaussNewton f.mu f.sigma h (H x) R z x x' ↔ x' = G x := fun x x' =>
    gaussNewton_iff (R := fun _ => R) hP hR
  have hmap : Set.MapsTo G S S := fun x hx => hstep x hx _ ((hgn _ _).2 rfl)
  have hcG : ∀ x ∈ S, ∀ y ∈ S, ‖G x - G y‖ ≤ q * ‖x - y‖ := fun x hx y hy =>
    hcon x hx y hy _ _ ((hgn _ _).2 rfl) ((hgn _ _).2 rfl)
  have hcw : ContractingWith ⟨q, hq0⟩ (hmap.restrict G S S) := by
    refine ⟨by exact_mod_cast hq, LipschitzWith.of_dist_le_mul fun a b => ?_⟩
    have := hcG a a.2 b b.2
    rw [← dist_eq_norm, ← dist_eq_norm] at this
    exact this
  obtain ⟨x, hx, hfix, -, -⟩ := hcw.exists_fixedPoint' hS.isComplete hmap h0 (edist_ne_top _ _)
  have hfx : G x = x := hfix
  have huniq : ∀ y ∈ S, G y = y → y = x := by
    intro y hy he
    have := hcG y hy x hx
    rw [he, hfx] at this
    have h1 : ‖y - x‖ = 0 := by nlinarith [norm_nonneg (y - x)]
    exact sub_eq_zero.1 (norm_eq_zero.1 h1)
  have hiter : ∀ k, G^[k] f.mu ∈ S ∧ ‖G^[k] f.mu - x‖ ≤ q ^ k * ‖f.mu - x‖ := by
    intro k
    induction k with
    | zero => exact ⟨h0, by simp⟩
    | succ k ih =>
      rw [Function.iterate_succ_apply']
      refine ⟨hmap ih.1, ?_⟩
      have := hcG _ ih.1 x hx
      rw [hfx] at this
      calc _ ≤ q * ‖G^[k] f.mu - x‖ := this
        _ ≤ q * (q ^ k * ‖f.mu - x‖) := mul_le_mul_of_nonneg_left ih.2 hq0
        _ = _ := by ring
  have hseq : ∀ p : Nat → Fin n → ℝ, p 0 = f.mu →
      (∀ i, GaussNewton f.mu f.sigma h (H (p i)) R z (p i) (p (i + 1))) → ∀ i, p i = G^[i] f.mu := by
    intro p p0 ps i
    induction i with
    | zero => exact p0
    | succ i ih => rw [(hgn _ _).1 (ps i), ih, Function.iterate_succ_apply']
  refine ⟨x, hx, (C86_stationary hP hR (hd x hx) z).1 ((hgn _ _).2 hfx.symm), ?_, ?_, ?_⟩
  · intro y hy hmin
    obtain ⟨D, h1, -⟩ := hasFDerivAt_misfit (μ := f.mu) hP hR (hd y hy) z
    have h2 := hmin.hasFDerivAt_eq_zero h1
    rw [h2] at h1
    exact huniq y hy (((hgn _ _).1 ((C86_stationary hP hR (hd y hy) z).2 h1)).symm)
  · intro nr hnr
    obtain ⟨p, k, f', p0, ps, hk, e, he, -, -, hstop⟩ := C86_iterations be hnr none hm (fun _ => hR) z f hP
    refine ⟨f', e, ?_⟩
    have hk' : k + 1 = nr := by
      by_contra hc
      have := hstop (by omega)
      simp [KF.passes] at this
    rw [he, hseq p p0 ps, hk']
    exact (hiter nr).2
  · intro nr ε hnr hε
    obtain ⟨p, k, f', p0, ps, hk, e, he, -, -, hstop⟩ :=
      C86_iterations be hnr (some (KF.innovationCheck (ε ^ 2))) hm (fun _ => hR) z f hP
    refine ⟨f', e, ?_⟩
    by_cases hk' : k + 1 = nr
    · left
      rw [he, hseq p p0 ps, hk']
      exact (hiter nr).2
    · right
      have h1 := norm_le_of_check hε (hstop (by omega))
      rw [he]
      have h2 : ‖p (k + 1) - x‖ ≤ q * ‖p k - x‖ := by
        have := hcG (p k) (by rw [hseq p p0 ps]; exact (hiter k).1) x hx
        rwa [hfx, ← (hgn _ _).1 (ps k)] at this
      have h3 : ‖p k - x‖ ≤ ‖p (k + 1) - p k‖ + ‖p (k + 1) - x‖ := by
        rw [norm_sub_rev (p (k + 1)) (p k)]
        exact norm_sub_le_norm_sub_add_norm_sub _ _ _
      have hq' : 0 < 1 - q := by linarith
      rw [div_mul_eq_mul_div, le_div_iff₀ hq']
      nlinarith [norm_nonneg (p (k + 1) - x), norm_nonneg (p (k + 1) - p k)]

/-! ## A sensor that squares -/

/-- A sensor that measures the square of the state, with noise of variance one. -/
def squareSensor : AnalyticModel K 1 1 Unit :=
  .noInput (fun x => ![x 0 * x 0]) (fun x => !![2 * x 0]) (fun _ => !![1])

/-- The step of the loop for `squareSensor` and a prior of variance one. -/
def squareStep (μ z x : K) : K := μ + 2 * x * (4 * x * x + 1)⁻¹ * (z - (x * x + 2 * x * (μ - x)))

theorem square_gnPoint (μ z x : K) : gnPoint ![μ] !![1] (fun x : Fin 1 → K => ![x 0 * x 0]) (fun x => !![2 * x 0])
    (fun _ => !![1]) ![z] ![x] = ![squareStep μ z x] := by
  have hpos : (2 * x) * 1 * (2 * x) + 1 ≠ 0 := by nlinarith [mul_self_nonneg x]
  have e1 : ![x] 0 = x := rfl
  have sub1 : ∀ a b : K, (![a] - ![b] : Fin 1 → K) = ![a - b] := by
    intro a b; ext i; fin_cases i; rfl
  have add1 : ∀ a b : K, (![a] + ![b] : Fin 1 → K) = ![a + b] := by
    intro a b; ext i; fin_cases i; rfl
  simp only [gnPoint, e1]
  rw [one_kgain hpos, sub1, one_mulVec_one, add1, sub1, one_mulVec_one, add1, squareStep]
  have : 2 * x * 1 * (2 * x) + 1 = 4 * x * x + 1 := by ring
  rw [this, one_mul]

theorem square_run (be : Backend) (μ z : K) {nr : Nat} (hnr : 1 ≤ nr) :
    ∃ f', (KF.mk ![μ] !![1] 0).iekfMeasUpdate be nr none squareSensor ![z] none = .ok f' ∧
      f'.mu = ![(squareStep μ z)^[nr] μ] := by
  obtain ⟨p, k, f', p0, ps, hk, e, he, -, -, hstop⟩ := C86_iterations be hnr none (meas := squareSensor (K := K))
    (s := none) (h := fun x => ![x 0 * x 0]) (H := fun x => !![2 * x 0]) (R := fun _ => !![1])
    (fun x => ⟨rfl, rfl, rfl⟩) (fun _ => unit_noise_pd) ![z] (KF.mk ![μ] !![1] 0) unit_noise_pd
  have hk' : k + 1 = nr := by
    by_contra hc
    have := hstop (by omega)
    simp [KF.passes] at this
  refine ⟨f', e, ?_⟩
  have hp : ∀ i, p i = ![(squareStep μ z)^[i] μ] := by
    intro i
    induction i with
    | zero => exact p0
    | succ i ih =>
      have := (gaussNewton_iff unit_noise_pd (H := fun x => !![2 * x 0]) (R := fun _ => !![1]) unit_noise_pd).1 (ps i)
      rw [this, ih, Function.iterate_succ_apply', ← square_gnPoint]
  rw [he, hp, hk']

theorem square_misfit (μ z x : K) : misfit ![μ] !![1] (fun x : Fin 1 → K => ![x 0 * x 0]) !![1] ![z] ![x] =
    (x - μ) * (x - μ) + (z - x * x) * (z - x * x) := by
  rw [misfit, one_inv one_ne_zero]
  simp [quad, dotProduct, mulVec]

/-- **C86.** The contraction is needed: with a prior at 1 and the reading -1 of a sensor that squares, two
iterations end at a less probable state than one. -/
theorem C86_worse (be : Backend) : ∃ f1 f2 : KF ℚ 1,
    (KF.mk ![1] !![1] 0).iekfMeasUpdate be 1 none squareSensor ![-1] none = .ok f1 ∧
      (KF.mk ![1] !![1] 0).iekfMeasUpdate be 2 none squareSensor ![-1] none = .ok f2 ∧
      misfit ![1] !![1] (fun x : Fin 1 → ℚ => ![x 0 * x 0]) !![1] ![-1] f1.mu <
        misfit ![1] !![1] (fun x : Fin 1 → ℚ => ![x 0 * x 0]) !![1] ![-1] f2.mu := by
  obtain ⟨f1, h1, e1⟩ := square_run (K := ℚ) be 1 (-1) (nr := 1) le_rfl
  obtain ⟨f2, h2, e2⟩ := square_run (K := ℚ) be 1 (-1) (nr := 2) (by norm_num)
  refine ⟨f1, f2, h1, h2, ?_⟩
  rw [e1, e2, square_misfit, square_misfit]
  decide +kernel

/-! ## Concrete cases -/

/-- The squaring sensor with a prior at 1 and the reading 3/2: the filter converges to the only stationary point
between 1 and 3/2, and halves its error with every iteration. -/
example (be : Backend) : ∃ x : Fin 1 → ℝ, (1 ≤ x 0 ∧ x 0 ≤ 3 / 2) ∧
    HasFDerivAt (misfit ![1] !![1] (fun x : Fin 1 → ℝ => ![x 0 * x 0]) !![1] ![3 / 2])
      (0 : (Fin 1 → ℝ) →L[ℝ] ℝ) x ∧
    ∀ nr, 1 ≤ nr → ∃ f', (KF.mk ![1] !![1] 0).iekfMeasUpdate be nr none squareSensor ![3 / 2] none = .ok f' ∧
      ‖f'.mu - x‖ ≤ (1 / 2) ^ nr * ‖![1] - x‖ := by
  have hone : ∀ x : Fin 1 → ℝ, x = ![x 0] := fun x => by ext i; fin_cases i; rfl
  have hgn : ∀ x x' : Fin 1 → ℝ, GaussNewton ![1] !![1] (fun x : Fin 1 → ℝ => ![x 0 * x 0]) !![2 * x 0] !![1] ![3 / 2] x x' →
      x' 0 = squareStep 1 (3 / 2) (x 0) := by
    intro x x' h
    have h1 := (gaussNewton_iff unit_noise_pd (H := fun x : Fin 1 → ℝ => !![2 * x 0]) (R := fun _ => !![1]) unit_noise_pd).1 h
    rw [hone x, square_gnPoint] at h1
    rw [h1]
    rfl
  have hstep : ∀ x : ℝ, squareStep 1 (3 / 2) x = 1 + 2 * x * (x * x - 2 * x + 3 / 2) / (4 * x * x + 1) := by
    intro x
    rw [squareStep]
    ring
  have hnorm : ∀ v : Fin 1 → ℝ, ‖v‖ = |v 0| := by
    intro v
    rw [hone v]
    simp [Pi.norm_def]
  obtain ⟨x, hx, h1, -, h2, -⟩ := C86_converges be (meas := squareSensor (K := ℝ)) (s := none)
    (h := fun x => ![x 0 * x 0]) (H := fun x => !![2 * x 0]) (R := !![1]) (fun x => ⟨rfl, rfl, rfl⟩) unit_noise_pd
    ![3 / 2] (KF.mk ![1] !![1] 0) unit_noise_pd (S := {x | 1 ≤ x 0 ∧ x 0 ≤ 3 / 2}) (q := 1 / 2)
    (IsClosed.inter (isClosed_le continuous_const (continuous_apply 0))
      (isClosed_le (continuous_apply 0) continuous_const))
    (by constructor <;> norm_num)
    (fun x _ => by
      rw [hasFDerivAt_pi']
      intro i
      have h0 : HasFDerivAt (fun x : Fin 1 → ℝ => x 0) (ContinuousLinearMap.proj (R := ℝ) 0) x := hasFDerivAt_apply 0 x
      have h2 := h0.mul h0
      fin_cases i
      refine HasFDerivAt.congr_fderiv h2 (ContinuousLinearMap.ext fun v => ?_)
      simp [dotProduct]
      ring)
    (by norm_num) (by norm_num)
    (fun x hx x' h => by
      obtain ⟨ha, hb⟩ := hx
      show 1 ≤ x' 0 ∧ x' 0 ≤ 3 / 2
      rw [hgn x x' h, hstep]
      generalize x 0 = a at ha hb
      have hd : 0 < 4 * a * a + 1 := by nlinarith
      constructor
      · have : 0 ≤ 2 * a * (a * a - 2 * a + 3 / 2) / (4 * a * a + 1) := by
          apply div_nonneg _ hd.le
          apply mul_nonneg (by linarith)
          nlinarith [sq_nonneg (a - 1)]
        linarith
      · have : 2 * a * (a * a - 2 * a + 3 / 2) / (4 * a * a + 1) ≤ 1 / 2 := by
          rw [div_le_iff₀ hd]
          nlinarith [mul_nonneg (sub_nonneg.2 ha) (sub_nonneg.2 hb), sq_nonneg (a - 1)]
        linarith)
    (fun x hx y hy x' y' h h' => by
      obtain ⟨ha, hb⟩ := hx
      obtain ⟨hc, hd⟩ := hy
      rw [hnorm, hnorm]
      show |x' 0 - y' 0| ≤ 1 / 2 * |x 0 - y 0|
      rw [hgn x x' h, hgn y y' h', hstep, hstep]
      generalize x 0 = a at ha hb
      generalize y 0 = b at hc hd
      have da : 5 ≤ 4 * a * a + 1 := by nlinarith
      have db : 5 ≤ 4 * b * b + 1 := by nlinarith
      have e : 1 + 2 * a * (a * a - 2 * a + 3 / 2) / (4 * a * a + 1) -
          (1 + 2 * b * (b * b - 2 * b + 3 / 2) / (4 * b * b + 1)) =
          (8 * a * a * b * b + 2 * (a * a + a * b + b * b) - 12 * a * b - 4 * (a + b) + 3) * (a - b) /
            ((4 * a * a + 1) * (4 * b * b + 1)) := by
        field_simp
        ring
      rw [e, abs_div, abs_mul, abs_of_pos (by positivity : 0 < (4 * a * a + 1) * (4 * b * b + 1)),
        div_le_iff₀ (by positivity)]
      have hab : 1 ≤ a * b := by nlinarith
      have hab2 : a * b ≤ a * a * b * b := by nlinarith
      have hQ : |8 * a * a * b * b + 2 * (a * a + a * b + b * b) - 12 * a * b - 4 * (a + b) + 3| ≤
          1 / 2 * ((4 * a * a + 1) * (4 * b * b + 1)) := by
        rw [abs_le]
        constructor
        · nlinarith [sq_nonneg (a - b), sq_nonneg (a - 1), sq_nonneg (b - 1)]
        · nlinarith [sq_nonneg (a - b), sq_nonneg (a - 1), sq_nonneg (b - 1)]
      calc _ ≤ 1 / 2 * ((4 * a * a + 1) * (4 * b * b + 1)) * |a - b| :=
            mul_le_mul_of_nonneg_right hQ (abs_nonneg _)
        _ = _ := by ring)
  exact ⟨x, hx, h1, h2⟩

/-- The state 1 is stationary for a prior at 1 and the reading 1 of the squaring sensor, the state 2 is not. -/
example : GaussNewton ![1] !![1] (fun x : Fin 1 → ℚ => ![x 0 * x 0]) !![2] !![1] ![1] ![1] ![1] ∧
    ¬ GaussNewton ![1] !![1] (fun x : Fin 1 → ℚ => ![x 0 * x 0]) !![4] !![1] ![1] ![2] ![2] := by
  have h1 := gaussNewton_iff (μ := ![1]) unit_noise_pd (h := fun x : Fin 1 → ℚ => ![x 0 * x 0]) (H := fun x => !![2 * x 0])
    (R := fun _ => !![1]) (x := ![1]) unit_noise_pd (z := ![1]) (x' := ![1])
  have h2 := gaussNewton_iff (μ := ![1]) unit_noise_pd (h := fun x : Fin 1 → ℚ => ![x 0 * x 0]) (H := fun x => !![2 * x 0])
    (R := fun _ => !![1]) (x := ![2]) unit_noise_pd (z := ![1]) (x' := ![2])
  rw [square_gnPoint] at h1 h2
  have e1 : (!![2 * ![(1 : ℚ)] 0] : Matrix (Fin 1) (Fin 1) ℚ) = !![2] := by norm_num
  have e2 : (!![2 * ![(2 : ℚ)] 0] : Matrix (Fin 1) (Fin 1) ℚ) = !![4] := by norm_num
  rw [e1] at h1
  rw [e2] at h2
  rw [h1, h2]
  decide +kernel

/-- Three iterations of the square root filter with a sensor that measures the product of two coordinates. -/
example : ∃ (x : Nat → Fin 2 → ℝ) (f' : SRKF ℝ 2), x 0 = ![1, 2] ∧
    (∀ i, GaussNewton ![1, 2] SRFixture.P (SRFixture.product.expected ()) (SRFixture.product.df () (x i))
      (SRFixture.product.cov () (x i)) ![5] (x i) (x (i + 1))) ∧
    (SRKF.make Real.sqrt (1 / 2 ^ 52) ![1, 2] SRFixture.P).measUpdate .boost Real.sqrt (1 / 2 ^ 52) 3
      SRFixture.product ![5] () = .ok f' ∧ f'.base.mu = x 3 :=
  C86_square_root .boost realSqrt_isSqrt (by positivity) (by norm_num) SRFixture.product ![5] () (nr := 3)
    (by norm_num) SRFixture.product_noise _ (C38_construction realSqrt_isSqrt (by positivity) (by norm_num)
      ![1, 2] SRFixture.P (SRFixture.P_pd _ (by norm_num))).1 (by
        have h := SRFixture.P_pd (1 / 16) (by norm_num)
        have h2 : PD ((1 / 16 : ℝ) • (1 : Matrix (Fin 2) (Fin 2) ℝ)) := by
          refine ⟨by simp, fun v hv => ?_⟩
          rw [smul_mulVec, one_mulVec, dotProduct_smul, smul_eq_mul]
          have := dotProduct_self_eq_zero (v := v)
          have h3 : 0 ≤ v ⬝ᵥ v := Finset.sum_nonneg fun i _ => mul_self_nonneg _
          have h4 : v ⬝ᵥ v ≠ 0 := fun h0 => hv (this.1 h0)
          have h5 : 0 < v ⬝ᵥ v := lt_of_le_of_ne h3 (Ne.symm h4)
          linarith
        have := h.add_pd h2
        rwa [sub_add_cancel] at this)

end BFL.Props
