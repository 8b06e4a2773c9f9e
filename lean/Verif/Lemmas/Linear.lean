import Verif.Model.MatrixWrapper
import Verif.Spec.Linear
import Mathlib.LinearAlgebra.Matrix.NonsingularInverse
import Mathlib.LinearAlgebra.Matrix.ToLinearEquiv
import Mathlib.LinearAlgebra.Matrix.SchurComplement
import Mathlib.Tactic.NoncommRing
import Mathlib.Tactic.FieldSimp
import Mathlib.Tactic.Linarith

set_option linter.unusedSectionVars false

namespace BFL

open Matrix Spec

variable {K : Type} [Field K] [LinearOrder K] [IsStrictOrderedRing K] {n m : Nat}

section wrapper

theorem Backend.inverse_of_det (be : Backend) (a : Matrix (Fin n) (Fin n) K) (h : a.det ≠ 0) :
    be.inverse a = .ok a⁻¹ := by
  have e : a⁻¹ = a.det⁻¹ • a.adjugate := by
    rw [Matrix.inv_def, Ring.inverse_eq_inv']
  match n, a, h, e with
  | 0, a, h, e => simp only [Backend.inverse]; rw [if_neg h, e]
  | 1, a, h, e =>
    simp only [Backend.inverse]
    rw [det_fin_one] at h e
    rw [if_neg h, e, adjugate_fin_one]
    congr 1; ext i j; fin_cases i; fin_cases j; simp
  | 2, a, h, e =>
    simp only [Backend.inverse]
    rw [det_fin_two] at h e
    rw [if_neg h, e, adjugate_fin_two]
    congr 1; ext i j; fin_cases i <;> fin_cases j <;> simp <;> ring
  | k + 3, a, h, e => simp only [Backend.inverse]; rw [if_neg h, e]

theorem Backend.inverse_singular (be : Backend) (a : Matrix (Fin n) (Fin n) K) (h : a.det = 0) :
    be.inverse a = .ub ∨ be.inverse a = .abort := by
  match n, a, h with
  | 0, a, h => simp at h
  | 1, a, h =>
    rw [det_fin_one] at h
    left; simp only [Backend.inverse]; rw [if_pos h]
  | 2, a, h =>
    rw [det_fin_two] at h
    left; simp only [Backend.inverse]; rw [if_pos h]
  | k + 3, a, h =>
    simp only [Backend.inverse]; rw [if_pos h]
    cases be <;> simp

theorem Backend.inverse_eq_ok {be : Backend} {a b : Matrix (Fin n) (Fin n) K} :
    be.inverse a = .ok b ↔ a.det ≠ 0 ∧ b = a⁻¹ := by
  constructor
  · intro h
    by_cases h0 : a.det = 0
    · rcases be.inverse_singular a h0 with h1 | h1 <;> rw [h1] at h <;> cases h
    · rw [be.inverse_of_det a h0] at h
      cases h; exact ⟨h0, rfl⟩
  · rintro ⟨h0, rfl⟩; exact be.inverse_of_det a h0

theorem Backend.toSym_of_symm (be : Backend) {a : Matrix (Fin n) (Fin n) K} (h : aᵀ = a) :
    be.toSym a = a := by
  have e : ∀ i j, a j i = a i j := fun i j => congrFun (congrFun h i) j
  cases be <;> ext i j <;> simp [Backend.toSym, e]

theorem Backend.toSym_symm (be : Backend) (a : Matrix (Fin n) (Fin n) K) :
    (be.toSym a)ᵀ = be.toSym a := by
  cases be <;> ext i j <;> simp only [Backend.toSym, transpose_apply, of_apply] <;>
    rcases lt_trichotomy i j with h | h | h <;> simp [h, h.le, not_le.mpr]

end wrapper

section psd

theorem quad_transpose (A : Matrix (Fin n) (Fin m) K) (x : Fin n → K) (y : Fin m → K) :
    x ⬝ᵥ (A *ᵥ y) = (Aᵀ *ᵥ x) ⬝ᵥ y := by
  rw [dotProduct_mulVec, mulVec_transpose]

theorem Spec.PSD.congr {P : Matrix (Fin n) (Fin n) K} (h : PSD P) (F : Matrix (Fin m) (Fin n) K) :
    PSD (F * P * Fᵀ) := by
  refine ⟨?_, fun x => ?_⟩
  · rw [transpose_mul, transpose_mul, transpose_transpose, h.1, Matrix.mul_assoc]
  · have : x ⬝ᵥ ((F * P * Fᵀ) *ᵥ x) = (Fᵀ *ᵥ x) ⬝ᵥ (P *ᵥ (Fᵀ *ᵥ x)) := by
      rw [← quad_transpose, mulVec_mulVec, mulVec_mulVec, Matrix.mul_assoc]
    rw [this]; exact h.2 _

theorem Spec.PSD.add {P Q : Matrix (Fin n) (Fin n) K} (h : PSD P) (h' : PSD Q) : PSD (P + Q) := by
  refine ⟨by rw [transpose_add, h.1, h'.1], fun x => ?_⟩
  rw [add_mulVec, dotProduct_add]
  exact add_nonneg (h.2 x) (h'.2 x)

theorem Spec.PD.psd {P : Matrix (Fin n) (Fin n) K} (h : PD P) : PSD P := by
  refine ⟨h.1, fun x => ?_⟩
  by_cases hx : x = 0
  · subst hx; simp
  · exact (h.2 x hx).le

theorem Spec.PSD.add_pd {P Q : Matrix (Fin n) (Fin n) K} (h : PSD P) (h' : PD Q) : PD (P + Q) := by
  refine ⟨by rw [transpose_add, h.1, h'.1], fun x hx => ?_⟩
  rw [add_mulVec, dotProduct_add]
  exact add_pos_of_nonneg_of_pos (h.2 x) (h'.2 x hx)

theorem Spec.PD.det_ne {P : Matrix (Fin n) (Fin n) K} (h : PD P) : P.det ≠ 0 := by
  intro h0
  obtain ⟨v, hv, h1⟩ := Matrix.exists_mulVec_eq_zero_iff.mpr h0
  have := h.2 v hv
  rw [h1, dotProduct_zero] at this
  exact lt_irrefl _ this

theorem Spec.PD.inv {P : Matrix (Fin n) (Fin n) K} (h : PD P) : PD P⁻¹ := by
  have hu : IsUnit P.det := h.det_ne.isUnit
  refine ⟨by rw [transpose_nonsing_inv, h.1], fun x hx => ?_⟩
  have e : P *ᵥ (P⁻¹ *ᵥ x) = x := by
    rw [mulVec_mulVec, mul_nonsing_inv _ hu, one_mulVec]
  have hy : P⁻¹ *ᵥ x ≠ 0 := by
    intro h0; rw [h0, mulVec_zero] at e; exact hx e.symm
  have := h.2 _ hy
  rw [e, dotProduct_comm] at this
  exact this

end psd

end BFL
