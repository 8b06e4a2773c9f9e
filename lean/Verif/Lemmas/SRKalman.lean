import Verif.Model.SRKalman
import Verif.Lemmas.Kalman
import Verif.Lemmas.CholeskyMain
import Verif.Spec.IteratedKalman

set_option linter.unusedSectionVars false

/-! Square root form of the Kalman correction; helper lemmas only. -/

namespace BFL

open Matrix Spec

section algebra

variable {K : Type} [Field K] {n m : Nat}

/-- What the factor update computes for arbitrary factors. -/
theorem sr_expand (J : Matrix (Fin n) (Fin n) K) (H : Matrix (Fin m) (Fin n) K)
    (B : Matrix (Fin m) (Fin m) K) :
    (J - J * Jᵀ * Hᵀ * B * H * J) * (J - J * Jᵀ * Hᵀ * B * H * J)ᵀ =
      J * Jᵀ - J * Jᵀ * Hᵀ * (B + Bᵀ - B * (H * (J * Jᵀ) * Hᵀ) * Bᵀ) * H * (J * Jᵀ) := by
  simp only [transpose_sub, transpose_mul, transpose_transpose, Matrix.sub_mul, Matrix.mul_sub,
    Matrix.mul_add, Matrix.add_mul, Matrix.mul_assoc]
  abel

theorem sr_middle {S R Sr Rv : Matrix (Fin m) (Fin m) K} (hS : Sr * Srᵀ = S) (hR : Rv * Rvᵀ = R)
    (hSr : Sr.det ≠ 0) (hT : (Rv + Sr).det ≠ 0) :
    ((Sr⁻¹)ᵀ * (Rv + Sr)⁻¹) + ((Sr⁻¹)ᵀ * (Rv + Sr)⁻¹)ᵀ
      - ((Sr⁻¹)ᵀ * (Rv + Sr)⁻¹) * (S - R) * ((Sr⁻¹)ᵀ * (Rv + Sr)⁻¹)ᵀ = S⁻¹ := by
  generalize hTd : Rv + Sr = T at *
  have t1 : T * T⁻¹ = 1 := mul_nonsing_inv _ hT.isUnit
  have t2 : T⁻¹ * T = 1 := nonsing_inv_mul _ hT.isUnit
  have s1 : Sr * Sr⁻¹ = 1 := mul_nonsing_inv _ hSr.isUnit
  have s2 : Sr⁻¹ * Sr = 1 := nonsing_inv_mul _ hSr.isUnit
  have t1' : (T⁻¹)ᵀ * Tᵀ = 1 := by rw [← transpose_mul, t1, transpose_one]
  have t2' : Tᵀ * (T⁻¹)ᵀ = 1 := by rw [← transpose_mul, t2, transpose_one]
  have s1' : (Sr⁻¹)ᵀ * Srᵀ = 1 := by rw [← transpose_mul, s1, transpose_one]
  have s2' : Srᵀ * (Sr⁻¹)ᵀ = 1 := by rw [← transpose_mul, s2, transpose_one]
  have hinv : S⁻¹ = (Sr⁻¹)ᵀ * Sr⁻¹ := by
    apply inv_eq_right_inv
    rw [← hS, Matrix.mul_assoc, ← Matrix.mul_assoc Srᵀ, s2', Matrix.one_mul, s1]
  have key : S - R = Sr * Tᵀ + T * Srᵀ - T * Tᵀ := by
    rw [← hS, ← hR, ← hTd, transpose_add]
    simp only [Matrix.mul_add, Matrix.add_mul]
    abel
  rw [hinv, key, transpose_mul, transpose_transpose]
  generalize (Sr⁻¹)ᵀ = A at *
  generalize (T⁻¹)ᵀ = D at *
  generalize Sr⁻¹ = E at *
  generalize T⁻¹ = C at *
  have e : A * C * (Sr * Tᵀ + T * Srᵀ - T * Tᵀ) * (D * E) =
      A * C * Sr * (Tᵀ * D) * E + A * (C * T) * Srᵀ * D * E - A * (C * T) * (Tᵀ * D) * E := by
    simp only [Matrix.mul_add, Matrix.add_mul, Matrix.mul_sub, Matrix.sub_mul, Matrix.mul_assoc]
  rw [e, t2', t2, Matrix.mul_one, Matrix.mul_one, s1', Matrix.one_mul, Matrix.mul_one,
    Matrix.mul_assoc (A * C), s1, Matrix.mul_one]
  abel

end algebra

section model

variable {K : Type} [Field K] [LinearOrder K] [IsStrictOrderedRing K] {n m : Nat} {U Sens : Type}

theorem diagonal_lower (d : Fin m → K) : LowerTriangular (diagonal d) := by
  intro i j h; exact diagonal_apply_ne _ h.ne

theorem isSqrt_pos {sqrt : K → K} (hs : IsSqrt sqrt) {x : K} (hx : 0 < x) : 0 < sqrt x := by
  obtain ⟨h1, h2⟩ := hs x hx.le
  exact lt_of_le_of_ne h1 fun h => by rw [← h, zero_mul] at h2; exact hx.ne h2

theorem diagonal_sq {sqrt : K → K} (hs : IsSqrt sqrt) {d : Fin m → K} (hd : ∀ i, 0 ≤ d i) :
    diagonal (fun i => sqrt (d i)) * (diagonal fun i => sqrt (d i))ᵀ = diagonal d := by
  rw [diagonal_transpose, diagonal_mul_diagonal]
  congr 1; funext i; exact (hs _ (hd i)).2

theorem cholesky_diagonal {sqrt : K → K} {eps : K} (hs : IsSqrt sqrt) (h0 : 0 < eps) (h1 : eps ≤ 1)
    {d : Fin m → K} (hd : ∀ i, eps ≤ d i) :
    cholesky sqrt eps (diagonal d) = (true, diagonal fun i => sqrt (d i)) := by
  have hp : ∀ i, 0 < d i := fun i => h0.trans_le (hd i)
  rw [← diagonal_sq hs fun i => (hp i).le]
  refine cholesky_trip hs h0 h1 (diagonal_lower _) fun j => Or.inr ?_
  rw [diagonal_apply_eq, (hs _ (hp j).le).2]
  exact ⟨isSqrt_pos hs (hp j), hd j⟩

namespace SRKF

theorem calculateCovariance_ok (be : Backend) (f : SRKF K n) (Rvf : Matrix (Fin m) (Fin m) K)
    (H : Matrix (Fin m) (Fin n) K) (invS Sr : Matrix (Fin m) (Fin m) K)
    (hT : (Rvf + Sr).det ≠ 0) :
    f.calculateCovariance be Rvf H invS Sr = .ok
      { base := { f.base with sigma := f.JP * f.JPᵀ - f.JP * f.JPᵀ * Hᵀ *
          ((invSᵀ * (Rvf + Sr)⁻¹) + (invSᵀ * (Rvf + Sr)⁻¹)ᵀ
            - (invSᵀ * (Rvf + Sr)⁻¹) * (H * (f.JP * f.JPᵀ) * Hᵀ) * (invSᵀ * (Rvf + Sr)⁻¹)ᵀ)
          * H * (f.JP * f.JPᵀ) }
        JP := f.JP - f.JP * f.JPᵀ * Hᵀ * (invSᵀ * (Rvf + Sr)⁻¹) * H * f.JP } := by
  simp only [calculateCovariance]
  rw [be.inverse_of_det _ hT]
  simp only [Outcome.ok_bind, Outcome.pure_eq]
  rw [← sr_expand, be.toSym_of_symm (by simp only [mul_transpose_symm]), mul_transpose_symm]
  simp only [KF.postSigmaSet, Matrix.mul_assoc]

theorem calculateMatrix_ok (be : Backend) {sqrt : K → K} {eps : K} (f : SRKF K n)
    (H : Matrix (Fin m) (Fin n) K) {R L : Matrix (Fin m) (Fin m) K} (hR : Rᵀ = R)
    (hL : (cholesky sqrt eps (H * (f.JP * f.JPᵀ) * Hᵀ + R)).2 = L) (hd : L.det ≠ 0) :
    f.calculateMatrix be sqrt eps H R = .ok
      ⟨(Lᵀ)⁻¹, f.JP * f.JPᵀ * Hᵀ * ((Lᵀ)⁻¹)ᵀ * (Lᵀ)⁻¹, Lᵀ⟩ := by
  have e : H * f.JP * f.JPᵀ * Hᵀ + R = H * (f.JP * f.JPᵀ) * Hᵀ + R := by
    simp only [Matrix.mul_assoc]
  have hsym : (H * (f.JP * f.JPᵀ) * Hᵀ + R)ᵀ = H * (f.JP * f.JPᵀ) * Hᵀ + R :=
    innovCov_symm (mul_transpose_symm _) hR
  simp only [calculateMatrix]
  rw [e, hsym, be.toSym_of_symm hsym, hL, be.inverse_of_det _ (by rwa [det_transpose])]
  rfl

/-- The covariance identity behind the square root filter. -/
theorem covariance_identity (be : Backend) (f : SRKF K n) {R Rv Sr : Matrix (Fin m) (Fin m) K}
    (H : Matrix (Fin m) (Fin n) K) (hS : Sr * Srᵀ = H * (f.JP * f.JPᵀ) * Hᵀ + R)
    (hR : Rv * Rvᵀ = R) (hSr : Sr.det ≠ 0) (hT : (Rv + Sr).det ≠ 0) :
    ∃ f', f.calculateCovariance be Rv H Sr⁻¹ Sr = .ok f' ∧ f'.base.mu = f.base.mu ∧
      f'.base.timestep = f.base.timestep ∧
      f'.base.sigma = posteriorCov (f.JP * f.JPᵀ) H R ∧ f'.JP * f'.JPᵀ = f'.base.sigma := by
  have hm := sr_middle hS hR hSr hT
  refine ⟨_, calculateCovariance_ok be f Rv H _ Sr hT, rfl, rfl, ?_, ?_⟩
  · simp only
    have e : H * (f.JP * f.JPᵀ) * Hᵀ = H * (f.JP * f.JPᵀ) * Hᵀ + R - R := by abel
    rw [e, hm, posteriorCov]
  · simp only; rw [sr_expand]

end SRKF

end model

end BFL
