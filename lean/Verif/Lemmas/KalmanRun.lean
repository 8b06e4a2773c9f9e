import Verif.Lemmas.KalmanStack

set_option linter.unusedSectionVars false

/-! Behaviour of the measurement updates; helper lemmas and the vocabulary of the statements in
`Verif/Props/Kalman.lean`. -/

namespace BFL

open Matrix Spec

variable {K : Type} [Field K] [LinearOrder K] {n m : Nat} {U : Type}

/-- Evaluating the model at state `x` with input `s` gives prediction `Z`, Jacobian `H` and noise
covariance `R`. -/
def AnalyticModel.Evaluates (mo : AnalyticModel K n m U) (s : Option U) (x : Fin n → K)
    (Z : Fin m → K) (H : Matrix (Fin m) (Fin n) K) (R : Matrix (Fin m) (Fin m) K) : Prop :=
  mo.predictionGet s x = .ok Z ∧ mo.dfGet s x = .ok H ∧ mo.covGet s x = .ok R

/-- The model, at input `s`, is `x ↦ A x + c` with constant noise covariance `R`. -/
def AnalyticModel.IsLinear (mo : AnalyticModel K n m U) (s : Option U)
    (A : Matrix (Fin m) (Fin n) K) (c : Fin m → K) (R : Matrix (Fin m) (Fin m) K) : Prop :=
  ∀ x, mo.Evaluates s x (A *ᵥ x + c) A R

/-- The filter performs at least one linearisation per measurement. -/
def KF.Kind.Runs : KF.Kind K n → Prop
  | .extended => True
  | .iterated nr _ => 1 ≤ nr

variable [IsStrictOrderedRing K]

theorem AnalyticModel.Evaluates.unique {mo : AnalyticModel K n m U} {s : Option U} {x : Fin n → K}
    {Z Z' : Fin m → K} {H H' : Matrix (Fin m) (Fin n) K} {R R' : Matrix (Fin m) (Fin m) K}
    (h : mo.Evaluates s x Z H R) (h' : mo.Evaluates s x Z' H' R') : Z = Z' ∧ H = H' ∧ R = R' := by
  obtain ⟨a, b, c⟩ := h
  obtain ⟨a', b', c'⟩ := h'
  rw [a] at a'; rw [b] at b'; rw [c] at c'
  cases a'; cases b'; cases c'
  exact ⟨rfl, rfl, rfl⟩

theorem ekf_eq {be : Backend} {meas : AnalyticModel K n m U} {s : Option U} {f : KF K n}
    {z Z : Fin m → K} {H : Matrix (Fin m) (Fin n) K} {R : Matrix (Fin m) (Fin m) K}
    (h : meas.Evaluates s f.mu Z H R) :
    f.ekfMeasUpdate be meas z s = f.calculateMeasUpdate be z Z H R := by
  simp only [KF.ekfMeasUpdate]
  rw [h.1, h.2.1, h.2.2]
  rfl

theorem ekf_inv {be : Backend} {meas : AnalyticModel K n m U} {s : Option U} {f f' : KF K n}
    {z : Fin m → K} (h : f.ekfMeasUpdate be meas z s = .ok f') :
    ∃ Z H R, meas.Evaluates s f.mu Z H R ∧ f.calculateMeasUpdate be z Z H R = .ok f' := by
  simp only [KF.ekfMeasUpdate, Outcome.bind_eq_ok] at h
  obtain ⟨Z, hZ, H, hH, R, hR, h⟩ := h
  exact ⟨Z, H, R, ⟨hZ, hH, hR⟩, h⟩

theorem sysUpdate_eq {be : Backend} {sys : AnalyticModel K n n U} {u : Option U} {f : KF K n}
    {J : Fin n → K} {F Q : Matrix (Fin n) (Fin n) K} (h : sys.Evaluates u f.mu J F Q) :
    f.sysUpdate be sys u = .ok ⟨J, be.toSym (F * f.sigma * Fᵀ + Q), f.timestep⟩ := by
  simp only [KF.sysUpdate]
  rw [h.1, h.2.1, h.2.2]
  simp [KF.calculateSysUpdate, KF.postMuSet, KF.postSigmaSet, Matrix.mul_assoc]

/-- One pass of the iterated filter's loop. -/
theorem iekfLoop_step {be : Backend} {meas : AnalyticModel K n m U} {s : Option U}
    {z h : Fin m → K} {chk : Option ((Fin n → K) → Bool)} {x xi : Fin n → K}
    {P : Matrix (Fin n) (Fin n) K} {H : Matrix (Fin m) (Fin n) K} {R : Matrix (Fin m) (Fin m) K}
    (he : meas.Evaluates s xi h H R) (hS : (innovCov P H R).det ≠ 0) (k : Nat)
    (buf : Option ((Fin m → K) × Matrix (Fin m) (Fin n) K × Matrix (Fin m) (Fin m) K)) :
    KF.iekfLoop be meas z s chk x P (k + 1) xi buf =
      if KF.passes chk (x + kgain P H R *ᵥ (z - (h + H *ᵥ (x - xi))) - xi) then
        KF.iekfLoop be meas z s chk x P k (x + kgain P H R *ᵥ (z - (h + H *ᵥ (x - xi))))
          (some (h + H *ᵥ (x - xi), H, R))
      else .ok (some (h + H *ᵥ (x - xi), H, R)) := by
  simp only [KF.iekfLoop]
  rw [he.1, he.2.1, he.2.2]
  simp only [Outcome.ok_bind]
  rw [be.inverse_of_det _ hS]
  rfl

theorem iekfLoop_stop {be : Backend} {meas : AnalyticModel K n m U} {s : Option U}
    {z : Fin m → K} {chk : Option ((Fin n → K) → Bool)} {x xi : Fin n → K}
    {P : Matrix (Fin n) (Fin n) K} {Z : Fin m → K} {H : Matrix (Fin m) (Fin n) K}
    {R : Matrix (Fin m) (Fin m) K} :
    KF.iekfLoop be meas z s chk x P 0 xi (some (Z, H, R)) = .ok (some (Z, H, R)) := by
  simp only [KF.iekfLoop]

/-- With valid noise the loop always ends with a linearisation at some point. -/
theorem iekfLoop_total {be : Backend} {meas : AnalyticModel K n m U} {s : Option U}
    {z : Fin m → K} {chk : Option ((Fin n → K) → Bool)} {x : Fin n → K}
    {P : Matrix (Fin n) (Fin n) K} (hP : PSD P)
    (hm : ∀ x, ∃ Z H R, meas.Evaluates s x Z H R ∧ PD R) (k : Nat) :
    ∀ (xi : Fin n → K) buf, ∃ xj h H R, meas.Evaluates s xj h H R ∧ PD R ∧
      KF.iekfLoop be meas z s chk x P (k + 1) xi buf = .ok (some (h + H *ᵥ (x - xj), H, R)) := by
  induction k with
  | zero =>
    intro xi buf
    obtain ⟨h, H, R, he, hR⟩ := hm xi
    refine ⟨xi, h, H, R, he, hR, ?_⟩
    rw [iekfLoop_step he (innovCov_pd hP hR).det_ne, iekfLoop_stop, ite_self]
  | succ k ih =>
    intro xi buf
    obtain ⟨h, H, R, he, hR⟩ := hm xi
    rw [iekfLoop_step he (innovCov_pd hP hR).det_ne]
    split
    · exact ih _ _
    · exact ⟨xi, h, H, R, he, hR, rfl⟩

theorem iekfLoop_linear {be : Backend} {meas : AnalyticModel K n m U} {s : Option U}
    {z c : Fin m → K} {chk : Option ((Fin n → K) → Bool)} {x : Fin n → K}
    {P : Matrix (Fin n) (Fin n) K} {H : Matrix (Fin m) (Fin n) K} {R : Matrix (Fin m) (Fin m) K}
    (hl : meas.IsLinear s H c R) (hS : (innovCov P H R).det ≠ 0) (k : Nat) :
    ∀ (xi : Fin n → K) buf, KF.iekfLoop be meas z s chk x P (k + 1) xi buf
      = .ok (some (H *ᵥ x + c, H, R)) := by
  have e : ∀ xi, H *ᵥ xi + c + H *ᵥ (x - xi) = H *ᵥ x + c := by
    intro xi; rw [mulVec_sub]; abel
  induction k with
  | zero =>
    intro xi buf
    rw [iekfLoop_step (hl xi) hS, iekfLoop_stop, ite_self, e]
  | succ k ih =>
    intro xi buf
    rw [iekfLoop_step (hl xi) hS]
    split
    · exact ih _ _
    · rw [e]

/-- A correction with a valid covariance and valid noise. -/
theorem calc_valid {be : Backend} {f : KF K n} {z Z : Fin m → K} {H : Matrix (Fin m) (Fin n) K}
    {R : Matrix (Fin m) (Fin m) K} (hP : PSD f.sigma) (hR : PD R) :
    f.calculateMeasUpdate be z Z H R = .ok
      ⟨kgain f.sigma H R *ᵥ (z - Z) + f.mu, kcov f.sigma H R, f.timestep⟩ := by
  rw [calculateMeasUpdate_ok be f z Z H R (innovCov_pd hP hR).det_ne,
    be.toSym_of_symm (kcov_psd hP hR).1]

theorem measUpdate_total {be : Backend} {kind : KF.Kind K n} (hk : kind.Runs)
    {meas : AnalyticModel K n m U} {s : Option U} {f : KF K n} {z : Fin m → K}
    (hP : PSD f.sigma) (hm : ∀ x, ∃ Z H R, meas.Evaluates s x Z H R ∧ PD R) :
    ∃ xj h H R, meas.Evaluates s xj h H R ∧ PD R ∧
      f.measUpdate be kind meas z s = .ok
        ⟨kgain f.sigma H R *ᵥ (z - (h + H *ᵥ (f.mu - xj))) + f.mu, kcov f.sigma H R,
          f.timestep⟩ := by
  cases kind with
  | extended =>
    obtain ⟨Z, H, R, he, hR⟩ := hm f.mu
    refine ⟨f.mu, Z, H, R, he, hR, ?_⟩
    simp only [KF.measUpdate]
    rw [ekf_eq he, sub_self, mulVec_zero, add_zero]
    exact calc_valid hP hR
  | iterated nr chk =>
    obtain ⟨k, rfl⟩ : ∃ k, nr = k + 1 := ⟨nr - 1, by simp only [KF.Kind.Runs] at hk; omega⟩
    obtain ⟨xj, h, H, R, he, hR, hl⟩ := iekfLoop_total (be := be) (z := z) (chk := chk)
      (x := f.mu) hP hm k f.mu none
    refine ⟨xj, h, H, R, he, hR, ?_⟩
    simp only [KF.measUpdate, KF.iekfMeasUpdate]
    rw [hl]
    exact calc_valid hP hR

/-- On linear models every kind of filter gives the extended filter's result, success or not. -/
theorem measUpdate_linear {be : Backend} {kind : KF.Kind K n} (hk : kind.Runs)
    {meas : AnalyticModel K n m U} {s : Option U} {f : KF K n} {z c : Fin m → K}
    {H : Matrix (Fin m) (Fin n) K} {R : Matrix (Fin m) (Fin m) K} (hl : meas.IsLinear s H c R) :
    f.measUpdate be kind meas z s = f.calculateMeasUpdate be z (H *ᵥ f.mu + c) H R := by
  cases kind with
  | extended => exact ekf_eq (hl f.mu)
  | iterated nr chk =>
    obtain ⟨k, rfl⟩ : ∃ k, nr = k + 1 := ⟨nr - 1, by simp only [KF.Kind.Runs] at hk; omega⟩
    simp only [KF.measUpdate, KF.iekfMeasUpdate]
    by_cases hS : (innovCov f.sigma H R).det = 0
    · have e : H * (f.sigma * Hᵀ) + R = innovCov f.sigma H R := by
        rw [innovCov, Matrix.mul_assoc]
      have he := hl f.mu
      simp only [KF.iekfLoop]
      rw [he.1, he.2.1, he.2.2]
      simp only [Outcome.ok_bind, KF.calculateMeasUpdate]
      rw [e]
      rcases be.inverse_singular _ hS with h1 | h1 <;> rw [h1] <;> rfl
    · rw [iekfLoop_linear hl hS]
      rfl

end BFL
