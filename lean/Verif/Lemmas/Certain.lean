import Verif.Spec.Certain
import Verif.Lemmas.KalmanRun

/-!
# What a Kalman filter knows for certain
-/

set_option linter.unusedSectionVars false

namespace BFL.Props

open Matrix Spec

variable {K : Type} [Field K] [LinearOrder K] [IsStrictOrderedRing K] {n m : Nat} {U : Type}

theorem kcov_certain {P : Matrix (Fin n) (Fin n) K} {H : Matrix (Fin m) (Fin n) K} {R : Matrix (Fin m) (Fin m) K}
    {a : Fin n → K} (h : P *ᵥ a = 0) : kcov P H R *ᵥ a = 0 := by
  rw [kcov, sub_mulVec, ← mulVec_mulVec, h]
  simp

theorem kgain_certain {P : Matrix (Fin n) (Fin n) K} {H : Matrix (Fin m) (Fin n) K} {R : Matrix (Fin m) (Fin m) K}
    {a : Fin n → K} (hP : Pᵀ = P) (h : P *ᵥ a = 0) (y : Fin m → K) : a ⬝ᵥ (kgain P H R *ᵥ y) = 0 := by
  have e : a ᵥ* P = 0 := by rw [← mulVec_transpose, hP, h]
  rw [dotProduct_mulVec, kgain, Matrix.mul_assoc, ← vecMul_vecMul, e]
  simp

/-- Whatever was evaluated: a correction does not touch what is certain. -/
theorem correction_certain {be : Backend} {f f' : KF K n} {z Z : Fin m → K} {H : Matrix (Fin m) (Fin n) K}
    {R : Matrix (Fin m) (Fin m) K} {a : Fin n → K} {v : K} (hP : f.sigmaᵀ = f.sigma) (hR : Rᵀ = R)
    (hc : Certain a v f) (h : f.calculateMeasUpdate be z Z H R = .ok f') :
    f'.sigmaᵀ = f'.sigma ∧ Certain a v f' := by
  obtain ⟨_, rfl⟩ := calculateMeasUpdate_eq_ok.1 h
  refine ⟨be.toSym_symm _, ?_, ?_⟩
  · show a ⬝ᵥ (kgain f.sigma H R *ᵥ (z - Z) + f.mu) = v
    rw [dotProduct_add, kgain_certain hP hc.2, zero_add, hc.1]
  · show be.toSym (kcov f.sigma H R) *ᵥ a = 0
    rw [be.toSym_of_symm (kcov_symm hP hR), kcov_certain hc.2]

/-- The noise covariance with which the loop of the iterated filter ends was given by the model. -/
theorem iekfLoop_noise {be : Backend} {meas : AnalyticModel K n m U} {z : Fin m → K} {s : Option U}
    (hn : SymmetricNoise meas s) {chk : Option ((Fin n → K) → Bool)} {x : Fin n → K}
    {P : Matrix (Fin n) (Fin n) K} (k : Nat) : ∀ {xi buf r}, (∀ b, buf = some b → b.2.2ᵀ = b.2.2) →
      KF.iekfLoop be meas z s chk x P k xi buf = .ok r → ∀ b, r = some b → b.2.2ᵀ = b.2.2 := by
  induction k with
  | zero =>
    intro xi buf r hb h
    simp only [KF.iekfLoop, Outcome.ok.injEq] at h
    exact h ▸ hb
  | succ k ih =>
    intro xi buf r hb h
    simp only [KF.iekfLoop, Outcome.bind_eq_ok] at h
    obtain ⟨H, _, R, hR, Si, _, h0, _, h⟩ := h
    have hs : ∀ b : (Fin m → K) × Matrix (Fin m) (Fin n) K × Matrix (Fin m) (Fin m) K,
        some (h0 + H *ᵥ (x - xi), H, R) = some b → b.2.2ᵀ = b.2.2 := by
      rintro b ⟨⟩
      exact hn _ _ hR
    split at h
    · exact ih hs h
    · simp only [Outcome.pure_eq, Outcome.ok.injEq] at h
      exact h ▸ hs

theorem measUpdate_certain {be : Backend} {kind : KF.Kind K n} {f f' : KF K n} {meas : AnalyticModel K n m U}
    {z : Fin m → K} {s : Option U} {a : Fin n → K} {v : K} (hn : SymmetricNoise meas s)
    (hP : f.sigmaᵀ = f.sigma) (hc : Certain a v f) (h : f.measUpdate be kind meas z s = .ok f') :
    f'.sigmaᵀ = f'.sigma ∧ Certain a v f' := by
  cases kind with
  | extended =>
    simp only [KF.measUpdate, KF.ekfMeasUpdate, Outcome.bind_eq_ok] at h
    obtain ⟨Z, _, H, _, R, hR, h⟩ := h
    exact correction_certain hP (hn _ _ hR) hc h
  | iterated nr chk =>
    simp only [KF.measUpdate, KF.iekfMeasUpdate, Outcome.bind_eq_ok] at h
    obtain ⟨buf, hb, h⟩ := h
    match buf, hb, h with
    | none, _, h => simp [KF.iekfFinish] at h
    | some (Z, H, R), hb, h =>
      exact correction_certain hP (iekfLoop_noise hn nr (by simp) hb _ rfl) hc h

theorem sysUpdate_certain {be : Backend} {f f' : KF K n} {sys : AnalyticModel K n n U} {u : Option U}
    {a : Fin n → K} {v : K} (hs : Conserves a sys u) (hP : f.sigmaᵀ = f.sigma) (hc : Certain a v f)
    (h : f.sysUpdate be sys u = .ok f') : f'.sigmaᵀ = f'.sigma ∧ Certain a v f' := by
  have h' := h
  simp only [KF.sysUpdate, Outcome.bind_eq_ok] at h'
  obtain ⟨J, hJ, F, hF, Q, hQ, _⟩ := h'
  obtain ⟨c1, c2, c3, c4⟩ := hs f.mu J F Q ⟨hJ, hF, hQ⟩
  rw [sysUpdate_eq ⟨hJ, hF, hQ⟩] at h
  cases h
  refine ⟨be.toSym_symm _, c1.trans hc.1, ?_⟩
  show be.toSym (F * f.sigma * Fᵀ + Q) *ᵥ a = 0
  rw [be.toSym_of_symm, add_mulVec, c3, ← mulVec_mulVec, c2, ← mulVec_mulVec, hc.2]
  · simp
  · rw [transpose_add, transpose_mul, transpose_mul, transpose_transpose, hP, c4, Matrix.mul_assoc]

end BFL.Props
