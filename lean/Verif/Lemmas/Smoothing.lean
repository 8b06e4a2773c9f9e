import Verif.Model.RauchTungStriebel
import Verif.Spec.Smoothing
import Verif.Lemmas.KalmanRun

set_option linter.unusedSectionVars false

/-! Algebra of the Rauch-Tung-Striebel step; helper lemmas only. -/

namespace BFL

open Matrix Spec

variable {K : Type} [Field K] [LinearOrder K] [IsStrictOrderedRing K] {n m : Nat} {U : Type}

theorem smoothedCov_eq (P F Q S : Matrix (Fin n) (Fin n) K) :
    smoothedCov P F Q S =
      P - smootherGain P F Q * (F * P * Fᵀ + Q - S) * (smootherGain P F Q)ᵀ := by
  rw [smoothedCov, ← neg_sub (F * P * Fᵀ + Q) S, Matrix.mul_neg, Matrix.neg_mul, ← sub_eq_add_neg]

theorem smoothedCov_split {P F Q S : Matrix (Fin n) (Fin n) K} (hP : Pᵀ = P) (hQ : Qᵀ = Q)
    (hS : (innovCov P F Q).det ≠ 0) :
    smoothedCov P F Q S = kcov P F Q + smootherGain P F Q * S * (smootherGain P F Q)ᵀ := by
  have h1 : smootherGain P F Q * (F * P * Fᵀ + Q) = P * Fᵀ := kgain_mul hS
  have hsym := innovCov_symm (H := F) hP hQ
  have h2 : P * Fᵀ * (smootherGain P F Q)ᵀ = kgain P F Q * F * P := by
    simp only [smootherGain, kgain, transpose_mul, transpose_nonsing_inv, transpose_transpose, hP]
    rw [show (F * P * Fᵀ + Q)ᵀ = F * P * Fᵀ + Q from hsym]
    simp only [Matrix.mul_assoc, innovCov]
  rw [smoothedCov, Matrix.mul_sub, Matrix.sub_mul, h1, h2, kcov]
  abel

theorem smoothedCov_symm {P F Q S : Matrix (Fin n) (Fin n) K} (hP : Pᵀ = P) (hQ : Qᵀ = Q)
    (hS : Sᵀ = S) : (smoothedCov P F Q S)ᵀ = smoothedCov P F Q S := by
  have hsym : (F * P * Fᵀ + Q)ᵀ = F * P * Fᵀ + Q := innovCov_symm (H := F) hP hQ
  rw [smoothedCov]
  simp only [transpose_add, transpose_mul, transpose_sub, transpose_transpose, hP, hS]
  rw [hQ]
  simp only [Matrix.mul_assoc]

namespace RTS

theorem sysUpdate_ok (be : Backend) {sys : AnalyticModel K n n U} {u : Option U} {xf xpred : Fin n → K}
    {Pf F Q : Matrix (Fin n) (Fin n) K} {f : RTS K n} (hF : sys.dfGet u f.mu = .ok F)
    (hQ : sys.covGet u f.mu = .ok Q) (hx : sys.predictionGet u xf = .ok xpred)
    (hS : (innovCov Pf F Q).det ≠ 0) :
    f.sysUpdate be sys u xf Pf = .ok
      ⟨smoothedMean xf Pf F Q xpred f.mu, be.toSym (smoothedCov Pf F Q f.sigma), f.timestep⟩ := by
  simp only [sysUpdate]
  rw [hF, hQ]
  simp only [Outcome.ok_bind]
  rw [be.inverse_of_det _ hS, hx]
  simp only [Outcome.ok_bind, Outcome.pure_eq, postMuSet, postSigmaSet]
  rw [smoothedCov_eq]
  rfl

end RTS

theorem kcov_pd {P : Matrix (Fin n) (Fin n) K} {H : Matrix (Fin m) (Fin n) K}
    {R : Matrix (Fin m) (Fin m) K} (hP : PD P) (hR : PD R) : PD (kcov P H R) := by
  have hS := (innovCov_pd (H := H) hP.psd hR).det_ne
  have hi := kcov_information hS hR.det_ne hP.det_ne
  have hk : (kcov P H R).det ≠ 0 := by
    intro h0
    have := det_kcov (P := P) hS hR.det_ne
    rw [h0, zero_mul] at this
    exact mul_ne_zero hP.det_ne hR.det_ne this.symm
  have h1 : PSD (Hᵀ * R⁻¹ * Hᵀᵀ) := hR.inv.psd.congr Hᵀ
  rw [transpose_transpose] at h1
  have h2 : PD (P⁻¹ + Hᵀ * R⁻¹ * H) := by
    rw [add_comm]; exact h1.add_pd hP.inv
  rw [← hi] at h2
  have := h2.inv
  rwa [nonsing_inv_nonsing_inv _ hk.isUnit] at this

/-- Completing the square for one step of the system and one measurement. -/
theorem stage_split {P F Q : Matrix (Fin n) (Fin n) K} {H : Matrix (Fin m) (Fin n) K}
    {R : Matrix (Fin m) (Fin m) K} (hP : PD P) (hQ : PD Q) (hR : PD R) (μ c x y : Fin n → K)
    (z d : Fin m → K) :
    quad P⁻¹ (x - μ) + (quad Q⁻¹ (y - (F *ᵥ x + c)) + quad R⁻¹ (z - (H *ᵥ y + d))) =
      quad (kcov P F Q)⁻¹ (x - (kgain P F Q *ᵥ (y - (F *ᵥ μ + c)) + μ))
      + quad (kcov (innovCov P F Q) H R)⁻¹
          (y - (kgain (innovCov P F Q) H R *ᵥ (z - (H *ᵥ (F *ᵥ μ + c) + d)) + (F *ᵥ μ + c)))
      + quad (innovCov (innovCov P F Q) H R)⁻¹ (z - (H *ᵥ (F *ᵥ μ + c) + d)) := by
  have hS := innovCov_pd (H := F) hP.psd hQ
  have hS' := innovCov_pd (H := H) hS.psd hR
  have e1 := cost_split hP.1 hQ.1 hS.det_ne hQ.det_ne hP.det_ne μ x y (F *ᵥ μ + c)
  have e2 := cost_split hS.1 hR.1 hS'.det_ne hR.det_ne hS.det_ne (F *ᵥ μ + c) y z
    (H *ᵥ (F *ᵥ μ + c) + d)
  simp only [cost] at e1 e2
  rw [show F *ᵥ μ + c + F *ᵥ (x - μ) = F *ᵥ x + c by rw [mulVec_sub]; abel] at e1
  rw [show H *ᵥ (F *ᵥ μ + c) + d + H *ᵥ (y - (F *ᵥ μ + c)) = H *ᵥ y + d by
    rw [mulVec_sub]; abel] at e2
  linarith

/-- The cheapest successor of a given state, when the successor is smoothed to `(ŷ, S)`. -/
theorem profile_split {W G S : Matrix (Fin n) (Fin n) K} (hW : PD W) (hS : PD S)
    (a x y ŷ p : Fin n → K) :
    quad W⁻¹ (x - (G *ᵥ (y - p) + a)) + quad S⁻¹ (y - ŷ) =
      quad (kcov S G W)⁻¹ (y - (kgain S G W *ᵥ (x - (a + G *ᵥ (ŷ - p))) + ŷ))
      + quad (innovCov S G W)⁻¹ (x - (a + G *ᵥ (ŷ - p))) := by
  have hI := innovCov_pd (H := G) hS.psd hW
  have e := cost_split hS.1 hW.1 hI.det_ne hW.det_ne hS.det_ne ŷ y (x - (a + G *ᵥ (ŷ - p))) 0
  simp only [cost, sub_zero, zero_add] at e
  rw [show x - (a + G *ᵥ (ŷ - p)) - G *ᵥ (y - ŷ) = x - (G *ᵥ (y - p) + a) by
    simp only [mulVec_sub]; abel] at e
  linarith

theorem Spec.PD.quad_nonneg {W : Matrix (Fin n) (Fin n) K} (h : PD W) (x : Fin n → K) :
    0 ≤ quad W x := h.psd.2 x

theorem Spec.PD.quad_eq_zero {W : Matrix (Fin n) (Fin n) K} (h : PD W) {x : Fin n → K}
    (hx : quad W x = 0) : x = 0 := by
  by_contra h0
  exact absurd hx (h.2 x h0).ne'

@[simp] theorem quad_zero (W : Matrix (Fin n) (Fin n) K) : quad W 0 = 0 := by simp [quad]

end BFL
