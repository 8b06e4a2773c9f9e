import Verif.Lemmas.Gaussian
import Mathlib.Algebra.Field.Rat
import Mathlib.Tactic.NormNum

/-!
# C47: inverse and determinant of matrices with one or two rows

The sizes for which the Boost back end uses explicit formulas. The specification is Mathlib's
determinant and the identity matrix.
-/

set_option linter.unusedSectionVars false

namespace BFL.Props

open Matrix

variable {K : Type} [Field K] [LinearOrder K] [IsStrictOrderedRing K] {n : Nat}

/-- **C47**: `determinant()` is the determinant, for one or two rows. -/
theorem C47_determinant (be : Backend) (hn : n = 1 ∨ n = 2) (a : Matrix (Fin n) (Fin n) K) :
    be.determinant a = .ok a.det := by
  rcases hn with rfl | rfl
  · simp [Backend.determinant]
  · simp only [Backend.determinant, det_fin_two]
    rw [mul_comm (a 1 0)]

/-- **C47**: if `determinant()` returns a non-zero number then `inverse()` returns a matrix that
times the original, on either side, is the identity. -/
theorem C47_inverse (be : Backend) (hn : n = 1 ∨ n = 2) (a : Matrix (Fin n) (Fin n) K) (d : K)
    (hd : be.determinant a = .ok d) (h : d ≠ 0) :
    ∃ b, be.inverse a = .ok b ∧ b * a = 1 ∧ a * b = 1 := by
  rw [C47_determinant be hn] at hd
  cases hd
  have hu : IsUnit a.det := isUnit_iff_ne_zero.mpr h
  exact ⟨_, be.inverse_of_det a h, nonsing_inv_mul a hu, mul_nonsing_inv a hu⟩

/-- **C47**: if `determinant()` returns zero then `inverse()` divides by zero. -/
theorem C47_singular (be : Backend) (hn : n = 1 ∨ n = 2) (a : Matrix (Fin n) (Fin n) K)
    (hd : be.determinant a = .ok 0) : be.inverse a = .ub := by
  rw [C47_determinant be hn] at hd
  simp only [Outcome.ok.injEq] at hd
  rcases hn with rfl | rfl
  · rw [det_fin_one] at hd
    simp only [Backend.inverse, hd, if_pos]
  · rw [det_fin_two] at hd
    simp only [Backend.inverse, hd, if_pos]

/-- **C47**, symmetric matrices: the inverse of a symmetric matrix with non-zero determinant is
symmetric, and is the inverse. -/
theorem C47_symInverse (be : Backend) (hn : n = 1 ∨ n = 2) (a : Matrix (Fin n) (Fin n) K)
    (hs : aᵀ = a) (d : K) (hd : be.determinant a = .ok d) (h : d ≠ 0) :
    ∃ b, be.symInverse a = .ok b ∧ bᵀ = b ∧ b * a = 1 ∧ a * b = 1 := by
  rw [C47_determinant be hn] at hd
  cases hd
  have hu : IsUnit a.det := isUnit_iff_ne_zero.mpr h
  exact ⟨_, be.symInverse_of_det hs h, by rw [transpose_nonsing_inv, hs], nonsing_inv_mul a hu,
    mul_nonsing_inv a hu⟩

/-! Concrete cases. -/

example : Backend.boost.determinant !![(2 : ℚ), 1; 1, 3] = .ok 5 := by decide +kernel
example : Backend.boost.inverse !![(2 : ℚ), 1; 1, 3] =
    .ok !![3 / 5, -1 / 5; -1 / 5, 2 / 5] := by decide +kernel
example : (!![(2 : ℚ), 1; 1, 3])ᵀ = !![2, 1; 1, 3] := by decide +kernel
example : Backend.eigen.determinant !![(2 : ℚ), 1; 4, 2] = .ok 0 := by decide +kernel

end BFL.Props
