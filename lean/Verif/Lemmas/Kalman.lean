import Verif.Lemmas.Linear
import Verif.Model.Kalman

set_option linter.unusedSectionVars false

/-! Algebra of the Kalman correction; helper lemmas only. -/

namespace BFL

open Matrix Spec

section algebra

variable {K : Type} [Field K] {n m : Nat}
variable {P : Matrix (Fin n) (Fin n) K} {H : Matrix (Fin m) (Fin n) K}
  {R : Matrix (Fin m) (Fin m) K}

/-- Innovation covariance. -/
abbrev innovCov (P : Matrix (Fin n) (Fin n) K) (H : Matrix (Fin m) (Fin n) K)
    (R : Matrix (Fin m) (Fin m) K) : Matrix (Fin m) (Fin m) K := H * P * Hᵀ + R

/-- Kalman gain. -/
noncomputable abbrev kgain (P : Matrix (Fin n) (Fin n) K) (H : Matrix (Fin m) (Fin n) K)
    (R : Matrix (Fin m) (Fin m) K) : Matrix (Fin n) (Fin m) K := P * Hᵀ * (innovCov P H R)⁻¹

/-- Corrected covariance. -/
noncomputable abbrev kcov (P : Matrix (Fin n) (Fin n) K) (H : Matrix (Fin m) (Fin n) K)
    (R : Matrix (Fin m) (Fin m) K) : Matrix (Fin n) (Fin n) K := P - kgain P H R * H * P

theorem kgain_mul (hS : (innovCov P H R).det ≠ 0) : kgain P H R * innovCov P H R = P * Hᵀ := by
  rw [kgain, Matrix.mul_assoc, nonsing_inv_mul _ hS.isUnit, Matrix.mul_one]

theorem kcov_joseph (hS : (innovCov P H R).det ≠ 0) :
    kcov P H R = (1 - kgain P H R * H) * P * (1 - kgain P H R * H)ᵀ
      + kgain P H R * R * (kgain P H R)ᵀ := by
  have h := kgain_mul hS
  rw [kcov]
  generalize kgain P H R = G at *
  have e : G * R = P * Hᵀ - G * (H * P * Hᵀ) := by
    rw [← h, innovCov, Matrix.mul_add]; abel
  rw [e, transpose_sub, transpose_one, transpose_mul]
  simp only [Matrix.sub_mul, Matrix.mul_sub, Matrix.one_mul, Matrix.mul_one, Matrix.mul_assoc]
  abel

theorem kcov_mul_trans (hS : (innovCov P H R).det ≠ 0) : kcov P H R * Hᵀ = kgain P H R * R := by
  have h := kgain_mul hS
  rw [kcov]
  generalize kgain P H R = G at *
  rw [innovCov, Matrix.mul_add] at h
  have e : G * R = P * Hᵀ - G * (H * P * Hᵀ) := by rw [← h]; abel
  rw [e, Matrix.sub_mul]
  simp only [Matrix.mul_assoc]

theorem kgain_eq (hS : (innovCov P H R).det ≠ 0) (hR : R.det ≠ 0) :
    kgain P H R = kcov P H R * Hᵀ * R⁻¹ := by
  rw [kcov_mul_trans hS, Matrix.mul_assoc, mul_nonsing_inv _ hR.isUnit, Matrix.mul_one]

theorem mul_kcov (hS : (innovCov P H R).det ≠ 0) :
    H * kcov P H R = R * ((innovCov P H R)⁻¹ * (H * P)) := by
  have e : innovCov P H R * ((innovCov P H R)⁻¹ * (H * P)) = H * P := by
    rw [← Matrix.mul_assoc, mul_nonsing_inv _ hS.isUnit, Matrix.one_mul]
  rw [kcov, kgain, Matrix.mul_sub]
  conv_lhs => rw [← e]
  generalize (innovCov P H R)⁻¹ = T
  rw [innovCov]
  simp only [Matrix.add_mul, Matrix.mul_assoc]
  abel

theorem kcov_right (hS : (innovCov P H R).det ≠ 0) (hR : R.det ≠ 0) :
    (1 + P * (Hᵀ * R⁻¹ * H)) * kcov P H R = P := by
  have e := mul_kcov hS
  have : P * (Hᵀ * R⁻¹ * H) * kcov P H R = P * Hᵀ * R⁻¹ * (H * kcov P H R) := by
    simp only [Matrix.mul_assoc]
  rw [Matrix.add_mul, Matrix.one_mul, this, e]
  have : P * Hᵀ * R⁻¹ * (R * ((innovCov P H R)⁻¹ * (H * P)))
      = kgain P H R * H * P := by
    rw [Matrix.mul_assoc (P * Hᵀ), ← Matrix.mul_assoc R⁻¹, nonsing_inv_mul _ hR.isUnit,
      Matrix.one_mul, kgain]
    simp only [Matrix.mul_assoc]
  rw [this, kcov]; abel

theorem kcov_left (hS : (innovCov P H R).det ≠ 0) (hR : R.det ≠ 0) :
    kcov P H R * (1 + Hᵀ * R⁻¹ * H * P) = P := by
  have e := kgain_eq hS hR
  have : kcov P H R * (Hᵀ * R⁻¹ * H * P) = kgain P H R * H * P := by
    rw [e]; simp only [Matrix.mul_assoc]
  rw [Matrix.mul_add, Matrix.mul_one, this, kcov]; abel

theorem det_info (hR : R.det ≠ 0) :
    (1 + P * (Hᵀ * R⁻¹ * H)).det = R.det⁻¹ * (innovCov P H R).det := by
  have e : P * (Hᵀ * R⁻¹ * H) = P * Hᵀ * (R⁻¹ * H) := by simp only [Matrix.mul_assoc]
  rw [e, det_one_add_mul_comm]
  have : 1 + R⁻¹ * H * (P * Hᵀ) = R⁻¹ * innovCov P H R := by
    rw [innovCov, Matrix.mul_add, nonsing_inv_mul _ hR.isUnit]
    simp only [Matrix.mul_assoc]; abel
  rw [this, det_mul, det_nonsing_inv, Ring.inverse_eq_inv']

theorem kcov_eq_inv (hS : (innovCov P H R).det ≠ 0) (hR : R.det ≠ 0) :
    kcov P H R = (1 + P * (Hᵀ * R⁻¹ * H))⁻¹ * P := by
  have hd : (1 + P * (Hᵀ * R⁻¹ * H)).det ≠ 0 := by
    rw [det_info hR]; exact mul_ne_zero (inv_ne_zero hR) hS
  have h := congrArg (fun X => (1 + P * (Hᵀ * R⁻¹ * H))⁻¹ * X) (kcov_right (P := P) hS hR)
  rw [← Matrix.mul_assoc, nonsing_inv_mul _ hd.isUnit, Matrix.one_mul] at h
  exact h

theorem kcov_information (hS : (innovCov P H R).det ≠ 0) (hR : R.det ≠ 0) (hP : P.det ≠ 0) :
    (kcov P H R)⁻¹ = P⁻¹ + Hᵀ * R⁻¹ * H := by
  apply inv_eq_right_inv
  have : P⁻¹ + Hᵀ * R⁻¹ * H = (1 + Hᵀ * R⁻¹ * H * P) * P⁻¹ := by
    rw [Matrix.add_mul, Matrix.one_mul, Matrix.mul_assoc _ P, mul_nonsing_inv _ hP.isUnit,
      Matrix.mul_one]
  rw [this, ← Matrix.mul_assoc, kcov_left hS hR, mul_nonsing_inv _ hP.isUnit]

theorem det_kcov (hS : (innovCov P H R).det ≠ 0) (hR : R.det ≠ 0) :
    (kcov P H R).det * (innovCov P H R).det = P.det * R.det := by
  have h := congrArg Matrix.det (kcov_right (P := P) (H := H) hS hR)
  rw [det_mul, det_info hR] at h
  rw [← h]
  field_simp

theorem innovCov_symm (hP : Pᵀ = P) (hR : Rᵀ = R) : (innovCov P H R)ᵀ = innovCov P H R := by
  rw [innovCov, transpose_add, transpose_mul, transpose_mul, transpose_transpose, hP, hR,
    Matrix.mul_assoc]

theorem kcov_symm (hP : Pᵀ = P) (hR : Rᵀ = R) : (kcov P H R)ᵀ = kcov P H R := by
  rw [kcov, kgain, transpose_sub, transpose_mul, transpose_mul, transpose_mul, transpose_mul,
    transpose_nonsing_inv, transpose_transpose, hP, innovCov_symm hP hR]
  simp only [Matrix.mul_assoc]

end algebra

section order

variable {K : Type} [Field K] [LinearOrder K] [IsStrictOrderedRing K] {n m : Nat}
variable {P : Matrix (Fin n) (Fin n) K} {H : Matrix (Fin m) (Fin n) K}
  {R : Matrix (Fin m) (Fin m) K}

theorem innovCov_pd (hP : PSD P) (hR : PD R) : PD (innovCov P H R) := (hP.congr H).add_pd hR

theorem kcov_psd (hP : PSD P) (hR : PD R) : PSD (kcov P H R) := by
  rw [kcov_joseph (innovCov_pd hP hR).det_ne]
  exact (hP.congr _).add (hR.psd.congr _)

theorem sub_kcov_psd (hP : PSD P) (hR : PD R) : PSD (P - kcov P H R) := by
  have h := ((innovCov_pd (H := H) hP hR).inv.psd).congr (P * Hᵀ)
  have : P - kcov P H R = P * Hᵀ * (innovCov P H R)⁻¹ * (P * Hᵀ)ᵀ := by
    rw [kcov, kgain, transpose_mul, transpose_transpose, hP.1]
    simp only [Matrix.mul_assoc]; abel
  rw [this]; exact h

theorem quad_add_symm {W : Matrix (Fin n) (Fin n) K} (hW : Wᵀ = W) (x y : Fin n → K) :
    quad W (x + y) = quad W x + 2 * (x ⬝ᵥ (W *ᵥ y)) + quad W y := by
  have : y ⬝ᵥ (W *ᵥ x) = x ⬝ᵥ (W *ᵥ y) := by
    rw [quad_transpose, hW, dotProduct_comm]
  simp only [quad, mulVec_add, dotProduct_add, add_dotProduct, this]
  ring

theorem quad_neg' {W : Matrix (Fin n) (Fin n) K} (x : Fin n → K) : quad W (-x) = quad W x := by
  simp [quad, mulVec_neg]

/-- Completing the square. -/
theorem cost_split (hPs : Pᵀ = P) (hRs : Rᵀ = R) (hS : (innovCov P H R).det ≠ 0)
    (hR : R.det ≠ 0) (hP : P.det ≠ 0) (μ x : Fin n → K) (z Z : Fin m → K) :
    cost μ P H R z Z x = quad (kcov P H R)⁻¹ (x - (kgain P H R *ᵥ (z - Z) + μ))
      + quad (innovCov P H R)⁻¹ (z - Z) := by
  set ν := z - Z with hν
  set W := R⁻¹ with hW
  set G := kgain P H R with hG
  set e := x - (G *ᵥ ν + μ) with he
  have hd : x - μ = e + G *ᵥ ν := by rw [he]; abel
  have hr : z - (Z + H *ᵥ (x - μ)) = -(H *ᵥ e) + (ν - H *ᵥ (G *ᵥ ν)) := by
    rw [hd, mulVec_add, hν]; abel
  have hWs : Wᵀ = W := by rw [hW, transpose_nonsing_inv, hRs]
  have hPi : (P⁻¹)ᵀ = P⁻¹ := by rw [transpose_nonsing_inv, hPs]
  have hinfo := kcov_information hS hR hP
  have hPG : P⁻¹ * G = Hᵀ * (innovCov P H R)⁻¹ := by
    rw [hG, kgain, Matrix.mul_assoc P, ← Matrix.mul_assoc, nonsing_inv_mul _ hP.isUnit,
      Matrix.one_mul]
  have hWG : W * (1 - H * G) = (innovCov P H R)⁻¹ := by
    have : innovCov P H R * (innovCov P H R)⁻¹ = 1 := mul_nonsing_inv _ hS.isUnit
    have h1 : (1 : Matrix (Fin m) (Fin m) K) - H * G = R * (innovCov P H R)⁻¹ := by
      rw [hG, kgain]
      conv_lhs => rw [← this]
      generalize (innovCov P H R)⁻¹ = T
      rw [innovCov]; simp only [Matrix.add_mul, Matrix.mul_assoc]; abel
    rw [h1, ← Matrix.mul_assoc, hW, nonsing_inv_mul _ hR.isUnit, Matrix.one_mul]
  have hres : ν - H *ᵥ (G *ᵥ ν) = (1 - H * G) *ᵥ ν := by
    rw [sub_mulVec, one_mulVec, mulVec_mulVec]
  rw [cost, hr, hd, quad_add_symm hPi, quad_add_symm hWs, quad_neg', hres]
  have t1 : e ⬝ᵥ (P⁻¹ *ᵥ (G *ᵥ ν)) = e ⬝ᵥ (Hᵀ *ᵥ ((innovCov P H R)⁻¹ *ᵥ ν)) := by
    rw [mulVec_mulVec, hPG, ← mulVec_mulVec]
  have t2 : -(H *ᵥ e) ⬝ᵥ (W *ᵥ ((1 - H * G) *ᵥ ν)) = -(e ⬝ᵥ (Hᵀ *ᵥ ((innovCov P H R)⁻¹ *ᵥ ν))) := by
    rw [mulVec_mulVec, hWG, neg_dotProduct, quad_transpose Hᵀ, transpose_transpose]
  have t3 : quad (kcov P H R)⁻¹ e = quad P⁻¹ e + quad W (H *ᵥ e) := by
    rw [hinfo, quad, add_mulVec, dotProduct_add, quad, quad, ← mulVec_mulVec, ← mulVec_mulVec,
      quad_transpose Hᵀ, transpose_transpose]
  have t4 : quad P⁻¹ (G *ᵥ ν) + quad W ((1 - H * G) *ᵥ ν) = quad (innovCov P H R)⁻¹ ν := by
    simp only [quad]
    have a1 : (G *ᵥ ν) ⬝ᵥ (P⁻¹ *ᵥ (G *ᵥ ν))
        = (H *ᵥ (G *ᵥ ν)) ⬝ᵥ ((innovCov P H R)⁻¹ *ᵥ ν) := by
      rw [mulVec_mulVec _ P⁻¹, hPG, ← mulVec_mulVec _ Hᵀ, quad_transpose Hᵀ, transpose_transpose]
    rw [a1, mulVec_mulVec _ W, hWG, ← add_dotProduct, sub_mulVec, one_mulVec, mulVec_mulVec]
    congr 1
    abel
  rw [t1, t2, t3, ← t4]
  ring

end order

section model

variable {K : Type} [Field K] [LinearOrder K] [IsStrictOrderedRing K] {n m : Nat}

theorem calculateMeasUpdate_ok (be : Backend) (f : KF K n) (z Z : Fin m → K)
    (H : Matrix (Fin m) (Fin n) K) (R : Matrix (Fin m) (Fin m) K)
    (hS : (innovCov f.sigma H R).det ≠ 0) :
    f.calculateMeasUpdate be z Z H R = .ok
      ⟨kgain f.sigma H R *ᵥ (z - Z) + f.mu, be.toSym (kcov f.sigma H R), f.timestep⟩ := by
  have e : H * (f.sigma * Hᵀ) + R = innovCov f.sigma H R := by
    rw [innovCov, Matrix.mul_assoc]
  simp only [KF.calculateMeasUpdate]
  rw [e, be.inverse_of_det _ hS]
  simp [KF.postMuSet, KF.postSigmaSet]

theorem calculateMeasUpdate_eq_ok {be : Backend} {f f' : KF K n} {z Z : Fin m → K}
    {H : Matrix (Fin m) (Fin n) K} {R : Matrix (Fin m) (Fin m) K} :
    f.calculateMeasUpdate be z Z H R = .ok f' ↔ (innovCov f.sigma H R).det ≠ 0 ∧
      f' = ⟨kgain f.sigma H R *ᵥ (z - Z) + f.mu, be.toSym (kcov f.sigma H R), f.timestep⟩ := by
  constructor
  · intro h
    by_cases hS : (innovCov f.sigma H R).det = 0
    · have e : H * (f.sigma * Hᵀ) + R = innovCov f.sigma H R := by
        rw [innovCov, Matrix.mul_assoc]
      simp only [KF.calculateMeasUpdate] at h
      rw [e] at h
      rcases be.inverse_singular _ hS with h1 | h1 <;> rw [h1] at h <;> cases h
    · rw [calculateMeasUpdate_ok be f z Z H R hS] at h
      cases h; exact ⟨hS, rfl⟩
  · rintro ⟨hS, rfl⟩; exact calculateMeasUpdate_ok be f z Z H R hS

theorem calculateNis_ok (be : Backend) (f : KF K n) (z Z : Fin m → K)
    (H : Matrix (Fin m) (Fin n) K) (R : Matrix (Fin m) (Fin m) K)
    (hS : (innovCov f.sigma H R).det ≠ 0) :
    f.calculateNis be z Z H R = .ok (quad (innovCov f.sigma H R)⁻¹ (z - Z), f) := by
  have e : H * (f.sigma * Hᵀ) + R = innovCov f.sigma H R := by
    rw [innovCov, Matrix.mul_assoc]
  simp only [KF.calculateNis]
  rw [e, be.inverse_of_det _ hS]
  simp [quad]

end model

end BFL
