import Verif.Lemmas.Kalman
import Mathlib.Algebra.BigOperators.Fin

set_option linter.unusedSectionVars false

/-! Stacked measurements; helper lemmas only. -/

namespace BFL

open Matrix Spec

variable {K : Type} [Field K] [LinearOrder K] {n m₁ m₂ : Nat}

theorem independent_mulVec (A : Matrix (Fin m₁) (Fin m₁) K) (B : Matrix (Fin m₂) (Fin m₂) K)
    (v : Fin m₁ → K) (w : Fin m₂ → K) :
    independent A B *ᵥ stackV v w = stackV (A *ᵥ v) (B *ᵥ w) := by
  ext i
  refine Fin.addCases (fun i => ?_) (fun i => ?_) i <;>
    simp [independent, stackV, mulVec, dotProduct, Fin.sum_univ_add]

theorem independent_mul (A C : Matrix (Fin m₁) (Fin m₁) K) (B D : Matrix (Fin m₂) (Fin m₂) K) :
    independent A B * independent C D = independent (A * C) (B * D) := by
  ext i j
  refine Fin.addCases (fun i => ?_) (fun i => ?_) i <;>
    refine Fin.addCases (fun j => ?_) (fun j => ?_) j <;>
    simp [independent, Matrix.mul_apply, Fin.sum_univ_add]

theorem independent_one : independent (1 : Matrix (Fin m₁) (Fin m₁) K) (1 : Matrix (Fin m₂) (Fin m₂) K)
    = 1 := by
  ext i j
  refine Fin.addCases (fun i => ?_) (fun i => ?_) i <;>
    refine Fin.addCases (fun j => ?_) (fun j => ?_) j <;>
    simp [independent, Matrix.one_apply, Fin.ext_iff] <;> omega

theorem independent_inv {A : Matrix (Fin m₁) (Fin m₁) K} {B : Matrix (Fin m₂) (Fin m₂) K}
    (hA : A.det ≠ 0) (hB : B.det ≠ 0) : (independent A B)⁻¹ = independent A⁻¹ B⁻¹ := by
  apply inv_eq_right_inv
  rw [independent_mul, mul_nonsing_inv _ hA.isUnit, mul_nonsing_inv _ hB.isUnit, independent_one]

theorem independent_det {A : Matrix (Fin m₁) (Fin m₁) K} {B : Matrix (Fin m₂) (Fin m₂) K}
    (hA : A.det ≠ 0) (hB : B.det ≠ 0) : (independent A B).det ≠ 0 := by
  intro h0
  have h : independent A B * independent A⁻¹ B⁻¹ = 1 := by
    rw [independent_mul, mul_nonsing_inv _ hA.isUnit, mul_nonsing_inv _ hB.isUnit, independent_one]
  have := congrArg Matrix.det h
  rw [det_mul, h0, zero_mul, det_one] at this
  exact zero_ne_one this

theorem independent_transpose (A : Matrix (Fin m₁) (Fin m₁) K) (B : Matrix (Fin m₂) (Fin m₂) K) :
    (independent A B)ᵀ = independent Aᵀ Bᵀ := by
  ext i j
  refine Fin.addCases (fun i => ?_) (fun i => ?_) i <;>
    refine Fin.addCases (fun j => ?_) (fun j => ?_) j <;> simp [independent]

theorem stackM_mulVec (H₁ : Matrix (Fin m₁) (Fin n) K) (H₂ : Matrix (Fin m₂) (Fin n) K)
    (x : Fin n → K) : stackM H₁ H₂ *ᵥ x = stackV (H₁ *ᵥ x) (H₂ *ᵥ x) := by
  ext i
  refine Fin.addCases (fun i => ?_) (fun i => ?_) i <;>
    simp [stackM, stackV, mulVec, dotProduct]

theorem stackM_trans_mulVec (H₁ : Matrix (Fin m₁) (Fin n) K) (H₂ : Matrix (Fin m₂) (Fin n) K)
    (v : Fin m₁ → K) (w : Fin m₂ → K) :
    (stackM H₁ H₂)ᵀ *ᵥ stackV v w = H₁ᵀ *ᵥ v + H₂ᵀ *ᵥ w := by
  ext i
  simp [stackM, stackV, mulVec, dotProduct, Fin.sum_univ_add]

theorem stack_info (H₁ : Matrix (Fin m₁) (Fin n) K) (H₂ : Matrix (Fin m₂) (Fin n) K)
    (A : Matrix (Fin m₁) (Fin m₁) K) (B : Matrix (Fin m₂) (Fin m₂) K) :
    (stackM H₁ H₂)ᵀ * independent A B * stackM H₁ H₂ = H₁ᵀ * A * H₁ + H₂ᵀ * B * H₂ := by
  apply Matrix.ext_of_mulVec_single
  intro i
  rw [add_mulVec]
  simp only [← mulVec_mulVec]
  rw [stackM_mulVec, independent_mulVec, stackM_trans_mulVec]

theorem stackV_sub (a c : Fin m₁ → K) (b d : Fin m₂ → K) :
    stackV a b - stackV c d = stackV (a - c) (b - d) := by
  ext i
  refine Fin.addCases (fun i => ?_) (fun i => ?_) i <;> simp [stackV]

theorem stackV_add (a c : Fin m₁ → K) (b d : Fin m₂ → K) :
    stackV a b + stackV c d = stackV (a + c) (b + d) := by
  ext i
  refine Fin.addCases (fun i => ?_) (fun i => ?_) i <;> simp [stackV]

theorem Spec.PD.independent [IsStrictOrderedRing K] {A : Matrix (Fin m₁) (Fin m₁) K}
    {B : Matrix (Fin m₂) (Fin m₂) K}
    (hA : PD A) (hB : PD B) : PD (Spec.independent A B) := by
  refine ⟨by rw [independent_transpose, hA.1, hB.1], fun x hx => ?_⟩
  have hsplit : x = stackV (fun i => x (Fin.castAdd m₂ i)) (fun i => x (Fin.natAdd m₁ i)) := by
    ext i
    refine Fin.addCases (fun i => ?_) (fun i => ?_) i <;> simp [stackV]
  generalize (fun i => x (Fin.castAdd m₂ i)) = v at hsplit
  generalize (fun i => x (Fin.natAdd m₁ i)) = w at hsplit
  subst hsplit
  have hd : stackV v w ⬝ᵥ stackV (A *ᵥ v) (B *ᵥ w) = v ⬝ᵥ (A *ᵥ v) + w ⬝ᵥ (B *ᵥ w) := by
    simp [stackV, dotProduct, Fin.sum_univ_add]
  rw [independent_mulVec, hd]
  by_cases hv : v = 0
  · have hw : w ≠ 0 := by
      rintro rfl
      apply hx
      ext i
      refine Fin.addCases (fun i => ?_) (fun i => ?_) i <;> simp [stackV, hv]
    exact add_pos_of_nonneg_of_pos (hA.psd.2 v) (hB.2 w hw)
  · exact add_pos_of_pos_of_nonneg (hA.2 v hv) (hB.psd.2 w)

section seq

variable {P : Matrix (Fin n) (Fin n) K} {H₁ : Matrix (Fin m₁) (Fin n) K}
  {R₁ : Matrix (Fin m₁) (Fin m₁) K} {H₂ : Matrix (Fin m₂) (Fin n) K}
  {R₂ : Matrix (Fin m₂) (Fin m₂) K}

theorem seq_factor (hS : (innovCov P H₁ R₁).det ≠ 0) (hR : R₁.det ≠ 0) :
    (1 + P * (H₁ᵀ * R₁⁻¹ * H₁)) * (1 + kcov P H₁ R₁ * (H₂ᵀ * R₂⁻¹ * H₂))
      = 1 + P * (H₁ᵀ * R₁⁻¹ * H₁ + H₂ᵀ * R₂⁻¹ * H₂) := by
  generalize H₂ᵀ * R₂⁻¹ * H₂ = L
  have h := kcov_right hS hR
  generalize H₁ᵀ * R₁⁻¹ * H₁ = L₁ at *
  rw [Matrix.mul_add, Matrix.mul_one, ← Matrix.mul_assoc, h, Matrix.mul_add]
  abel

/-- Covariance after two corrections. -/
theorem seq_cov (hS₁ : (innovCov P H₁ R₁).det ≠ 0) (hR₁ : R₁.det ≠ 0)
    (hS₂ : (innovCov (kcov P H₁ R₁) H₂ R₂).det ≠ 0) (hR₂ : R₂.det ≠ 0) :
    kcov (kcov P H₁ R₁) H₂ R₂
      = (1 + P * (H₁ᵀ * R₁⁻¹ * H₁ + H₂ᵀ * R₂⁻¹ * H₂))⁻¹ * P := by
  have h := kcov_eq_inv hS₁ hR₁
  rw [kcov_eq_inv hS₂ hR₂, ← seq_factor hS₁ hR₁, Matrix.mul_inv_rev]
  generalize H₂ᵀ * R₂⁻¹ * H₂ = L
  generalize H₁ᵀ * R₁⁻¹ * H₁ = L₁ at *
  rw [Matrix.mul_assoc, ← h]

theorem stack_det (hS₁ : (innovCov P H₁ R₁).det ≠ 0) (hR₁ : R₁.det ≠ 0)
    (hS₂ : (innovCov (kcov P H₁ R₁) H₂ R₂).det ≠ 0) (hR₂ : R₂.det ≠ 0) :
    (innovCov P (stackM H₁ H₂) (independent R₁ R₂)).det ≠ 0 := by
  have hd := independent_det hR₁ hR₂
  have h1 := det_info (P := P) (H := stackM H₁ H₂) hd
  rw [independent_inv hR₁ hR₂, stack_info, ← seq_factor hS₁ hR₁, det_mul, det_info hR₁,
    det_info hR₂] at h1
  intro h0
  rw [h0, mul_zero] at h1
  exact mul_ne_zero (mul_ne_zero (inv_ne_zero hR₁) hS₁) (mul_ne_zero (inv_ne_zero hR₂) hS₂) h1

theorem stack_cov (hS₁ : (innovCov P H₁ R₁).det ≠ 0) (hR₁ : R₁.det ≠ 0)
    (hS₂ : (innovCov (kcov P H₁ R₁) H₂ R₂).det ≠ 0) (hR₂ : R₂.det ≠ 0) :
    kcov P (stackM H₁ H₂) (independent R₁ R₂) = kcov (kcov P H₁ R₁) H₂ R₂ := by
  rw [seq_cov hS₁ hR₁ hS₂ hR₂, kcov_eq_inv (stack_det hS₁ hR₁ hS₂ hR₂) (independent_det hR₁ hR₂),
    independent_inv hR₁ hR₂, stack_info]

/-- Mean after two corrections, for predictions `H x + c`. -/
theorem seq_mean (hS₁ : (innovCov P H₁ R₁).det ≠ 0) (hR₁ : R₁.det ≠ 0)
    (hS₂ : (innovCov (kcov P H₁ R₁) H₂ R₂).det ≠ 0) (hR₂ : R₂.det ≠ 0)
    (μ μ₁ : Fin n → K) (z₁ c₁ : Fin m₁ → K) (z₂ c₂ : Fin m₂ → K)
    (hμ : μ₁ = kgain P H₁ R₁ *ᵥ (z₁ - (H₁ *ᵥ μ + c₁)) + μ) :
    kgain (kcov P H₁ R₁) H₂ R₂ *ᵥ (z₂ - (H₂ *ᵥ μ₁ + c₂)) + μ₁
      = kcov (kcov P H₁ R₁) H₂ R₂ *ᵥ ((H₁ᵀ * R₁⁻¹) *ᵥ (z₁ - (H₁ *ᵥ μ + c₁))
          + (H₂ᵀ * R₂⁻¹) *ᵥ (z₂ - (H₂ *ᵥ μ + c₂))) + μ := by
  have g₁ : kgain P H₁ R₁ = kcov P H₁ R₁ * (H₁ᵀ * R₁⁻¹) := by
    rw [kgain_eq hS₁ hR₁, Matrix.mul_assoc]
  have g₂ : kgain (kcov P H₁ R₁) H₂ R₂ = kcov (kcov P H₁ R₁) H₂ R₂ * (H₂ᵀ * R₂⁻¹) := by
    rw [kgain_eq hS₂ hR₂, Matrix.mul_assoc]
  have hl := kcov_left (P := kcov P H₁ R₁) (H := H₂) hS₂ hR₂
  rw [g₁] at hμ
  rw [g₂]
  generalize kcov (kcov P H₁ R₁) H₂ R₂ = P₂ at *
  generalize kcov P H₁ R₁ = P₁ at *
  generalize hb : (H₁ᵀ * R₁⁻¹) *ᵥ (z₁ - (H₁ *ᵥ μ + c₁)) = b at *
  rw [← mulVec_mulVec, hb] at hμ
  have hz : z₂ - (H₂ *ᵥ μ₁ + c₂) = (z₂ - (H₂ *ᵥ μ + c₂)) - H₂ *ᵥ (P₁ *ᵥ b) := by
    rw [hμ, mulVec_add]; abel
  have hP : P₁ *ᵥ b = P₂ *ᵥ b + P₂ *ᵥ ((H₂ᵀ * R₂⁻¹ * H₂ * P₁) *ᵥ b) := by
    conv_lhs => rw [← hl]
    rw [← mulVec_mulVec, add_mulVec, one_mulVec, mulVec_add]
  rw [hz, hμ, mulVec_sub, mulVec_add]
  have e : (P₂ * (H₂ᵀ * R₂⁻¹)) *ᵥ (H₂ *ᵥ (P₁ *ᵥ b)) = P₂ *ᵥ ((H₂ᵀ * R₂⁻¹ * H₂ * P₁) *ᵥ b) := by
    simp only [mulVec_mulVec, Matrix.mul_assoc]
  rw [e, ← mulVec_mulVec]
  generalize (H₂ᵀ * R₂⁻¹) *ᵥ (z₂ - (H₂ *ᵥ μ + c₂)) = w
  rw [hP]
  abel

theorem stack_mean (hS₁ : (innovCov P H₁ R₁).det ≠ 0) (hR₁ : R₁.det ≠ 0)
    (hS₂ : (innovCov (kcov P H₁ R₁) H₂ R₂).det ≠ 0) (hR₂ : R₂.det ≠ 0)
    (μ μ₁ : Fin n → K) (z₁ c₁ : Fin m₁ → K) (z₂ c₂ : Fin m₂ → K)
    (hμ : μ₁ = kgain P H₁ R₁ *ᵥ (z₁ - (H₁ *ᵥ μ + c₁)) + μ) :
    kgain P (stackM H₁ H₂) (independent R₁ R₂) *ᵥ
        (stackV z₁ z₂ - (stackM H₁ H₂ *ᵥ μ + stackV c₁ c₂)) + μ
      = kgain (kcov P H₁ R₁) H₂ R₂ *ᵥ (z₂ - (H₂ *ᵥ μ₁ + c₂)) + μ₁ := by
  rw [seq_mean hS₁ hR₁ hS₂ hR₂ μ μ₁ z₁ c₁ z₂ c₂ hμ,
    kgain_eq (stack_det hS₁ hR₁ hS₂ hR₂) (independent_det hR₁ hR₂), stack_cov hS₁ hR₁ hS₂ hR₂,
    independent_inv hR₁ hR₂, stackM_mulVec, stackV_add, stackV_sub, ← mulVec_mulVec,
    ← mulVec_mulVec, independent_mulVec, stackM_trans_mulVec, mulVec_mulVec _ H₁ᵀ,
    mulVec_mulVec _ H₂ᵀ]

end seq

end BFL
