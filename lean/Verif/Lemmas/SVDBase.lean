import Verif.Model.SVD
import Mathlib.LinearAlgebra.Matrix.NonsingularInverse
import Mathlib.Tactic.Linarith
import Mathlib.Tactic.FieldSimp
import Mathlib.Tactic.Ring

/-!
# Lemmas about the singular value decomposition: loops, rotations, reflections
-/

set_option linter.unusedSectionVars false

namespace BFL.SVD

open Finset Matrix

/-! ## Loops -/

theorem nonzero_of {d : ℝ} (h : d ≠ 0) : nonzero d = .ok () := if_neg h

theorem loopUp_inv {σ : Type} {f : ℕ → σ → Outcome σ} (Inv : ℕ → σ → Prop) :
    ∀ (k i : ℕ) (s : σ), Inv i s →
      (∀ j s, i ≤ j → j < i + k → Inv j s → ∃ s', f j s = .ok s' ∧ Inv (j + 1) s') →
      ∃ s', loopUp f k i s = .ok s' ∧ Inv (i + k) s' := by
  intro k
  induction k with
  | zero => intro i s h _; exact ⟨s, rfl, h⟩
  | succ k ih =>
    intro i s h hstep
    obtain ⟨s1, h1, h2⟩ := hstep i s le_rfl (by omega) h
    obtain ⟨s2, h3, h4⟩ := ih (i + 1) s1 h2 fun j s hj hk => hstep j s (by omega) (by omega)
    refine ⟨s2, ?_, ?_⟩
    · simp only [loopUp, h1, Outcome.ok_bind, h3]
    · rw [show i + (k + 1) = i + 1 + k by omega]; exact h4

theorem loopDown_inv {σ : Type} {f : ℕ → σ → Outcome σ} (Inv : ℕ → σ → Prop) :
    ∀ (k : ℕ) (s : σ), Inv k s →
      (∀ j s, j + 1 ≤ k → Inv (j + 1) s → ∃ s', f (j + 1) s = .ok s' ∧ Inv j s') →
      ∃ s', loopDown f k s = .ok s' ∧ Inv 0 s' := by
  intro k
  induction k with
  | zero => intro s h _; exact ⟨s, rfl, h⟩
  | succ k ih =>
    intro s h hstep
    obtain ⟨s1, h1, h2⟩ := hstep k s le_rfl h
    obtain ⟨s2, h3, h4⟩ := ih s1 h2 fun j s hj => hstep j s (by omega)
    exact ⟨s2, by simp only [loopDown, h1, Outcome.ok_bind, h3], h4⟩

/-! ## Scalars -/

theorem pythag_eq (a b : ℝ) : pythag a b = √(a * a + b * b) := by
  have key : ∀ x y : ℝ, 0 < |x| → |x| * √(1 + |y| / |x| * (|y| / |x|)) = √(x * x + y * y) := by
    intro x y hx
    have h1 : x * x + y * y = |x| ^ 2 * (1 + |y| / |x| * (|y| / |x|)) := by
      field_simp
      rw [sq_abs, sq_abs]
    rw [h1, Real.sqrt_mul (sq_nonneg _), Real.sqrt_sq (abs_nonneg x)]
  unfold pythag
  split
  · rename_i h
    exact key a b (lt_of_le_of_lt (abs_nonneg b) h)
  · split
    · rename_i h1 h2
      have hb : b = 0 := abs_eq_zero.mp h2
      have ha : a = 0 := by
        have : |a| ≤ 0 := by rw [← h2]; exact not_lt.mp h1
        exact abs_eq_zero.mp (le_antisymm this (abs_nonneg a))
      simp [ha, hb]
    · rename_i h1 h2
      rw [key b a (lt_of_le_of_ne (abs_nonneg b) (Ne.symm h2)), add_comm]

theorem pythag_nonneg (a b : ℝ) : 0 ≤ pythag a b := by rw [pythag_eq]; exact Real.sqrt_nonneg _

theorem pythag_mul_self (a b : ℝ) : pythag a b * pythag a b = a * a + b * b := by
  rw [pythag_eq, Real.mul_self_sqrt (by nlinarith [mul_self_nonneg a, mul_self_nonneg b])]

theorem pythag_eq_zero {a b : ℝ} : pythag a b = 0 ↔ a = 0 ∧ b = 0 := by
  constructor
  · intro h
    have := pythag_mul_self a b
    rw [h] at this
    constructor <;> nlinarith [mul_self_nonneg a, mul_self_nonneg b]
  · rintro ⟨rfl, rfl⟩; simp [pythag_eq]

theorem sign_mul_self (a b : ℝ) : sign a b * sign a b = a * a := by
  unfold sign
  split
  · exact abs_mul_abs_self a
  · rw [neg_mul_neg]; exact abs_mul_abs_self a

theorem sign_mul_nonneg (a b : ℝ) : 0 ≤ sign a b * b := by
  unfold sign
  split
  · rename_i h; exact mul_nonneg (abs_nonneg a) h
  · rename_i h
    rw [neg_mul, neg_nonneg]
    exact mul_nonpos_of_nonneg_of_nonpos (abs_nonneg a) (le_of_lt (not_le.mp h))

theorem add_sign_ne_zero {a b : ℝ} (ha : a ≠ 0) : b + sign a b ≠ 0 := by
  intro h
  have h1 : sign a b = -b := by linarith
  have h2 := sign_mul_nonneg a b
  have h3 := sign_mul_self a b
  rw [h1] at h2 h3
  have h4 : b * b = 0 := le_antisymm (by linarith) (mul_self_nonneg b)
  have h5 : a * a = 0 := by linarith
  exact ha (mul_self_eq_zero.mp h5)

/-! ## From arrays to matrices -/

/-- The identity array. -/
def delta : Arr2 := fun a b => if a = b then 1 else 0

theorem toMat_delta (n : ℕ) : toMat n n delta = 1 := by
  ext a b
  simp only [toMat, delta, Matrix.one_apply, Fin.ext_iff, Nat.add_right_cancel_iff]

theorem sum_fin_eq (n : ℕ) (f : ℕ → ℝ) : ∑ k : Fin n, f (k + 1) = ∑ k ∈ Icc 1 n, f k := by
  rw [Fin.sum_univ_eq_sum_range (fun k => f (k + 1)) n, Finset.range_eq_Ico,
    Finset.sum_Ico_add' f 0 n 1]
  rfl

theorem sum_fin_from (n i : ℕ) (hi : 1 ≤ i) (f : ℕ → ℝ) :
    ∑ k : Fin n, (if i ≤ (k : ℕ) + 1 then f (k + 1) else 0) = ∑ k ∈ Icc i n, f k := by
  rw [sum_fin_eq n fun k => if i ≤ k then f k else 0, ← Finset.sum_filter]
  congr 1
  ext k
  simp only [mem_filter, mem_Icc]
  omega

theorem mul_toMat (m n p : ℕ) (M N : Arr2) (a : Fin m) (b : Fin p) :
    (toMat m n M * toMat n p N) a b = ∑ k ∈ Icc 1 n, M (a + 1) k * N k (b + 1) := by
  rw [Matrix.mul_apply, ← sum_fin_eq n fun k => M (a + 1) k * N k (b + 1)]
  rfl

/-! ## Rotations -/

/-- The same rotation of two rows. -/
def rotR (M : Arr2) (j i : ℕ) (c s : ℝ) : Arr2 := fun a b =>
  if a = j then M j b * c + M i b * s else if a = i then M i b * c - M j b * s else M a b

/-- The rotation as a matrix. -/
def rotM (n j i : ℕ) (c s : ℝ) : Matrix (Fin n) (Fin n) ℝ := toMat n n (rot delta j i c s)

theorem toMat_rot {m n j i : ℕ} (M : Arr2) (c s : ℝ) (hj : 1 ≤ j ∧ j ≤ n) (hi : 1 ≤ i ∧ i ≤ n) :
    toMat m n (rot M j i c s) = toMat m n M * rotM n j i c s := by
  ext a b
  rw [rotM, mul_toMat]
  have hsum : ∀ (x : ℕ), 1 ≤ x ∧ x ≤ n →
      ∑ k ∈ Icc 1 n, M (a + 1) k * delta k x = M (a + 1) x := by
    intro x hx
    simp only [delta, mul_ite, mul_one, mul_zero]
    rw [Finset.sum_ite_eq' (Icc 1 n) x, if_pos (by simp only [mem_Icc]; exact hx)]
  simp only [toMat, rot]
  by_cases h1 : (b : ℕ) + 1 = j
  · simp only [if_pos h1, mul_add, ← mul_assoc]
    rw [Finset.sum_add_distrib, ← Finset.sum_mul, ← Finset.sum_mul, hsum j hj, hsum i hi]
  · by_cases h2 : (b : ℕ) + 1 = i
    · simp only [if_neg h1, if_pos h2, mul_sub, ← mul_assoc]
      rw [Finset.sum_sub_distrib, ← Finset.sum_mul, ← Finset.sum_mul, hsum j hj, hsum i hi]
    · simp only [if_neg h1, if_neg h2]
      rw [hsum _ ⟨by omega, by omega⟩]

theorem transpose_toMat (m n : ℕ) (M : Arr2) : (toMat m n M)ᵀ = toMat n m fun a b => M b a := rfl

theorem toMat_rotR {m n j i : ℕ} (M : Arr2) (c s : ℝ) (hj : 1 ≤ j ∧ j ≤ m) (hi : 1 ≤ i ∧ i ≤ m) :
    toMat m n (rotR M j i c s) = (rotM m j i c s)ᵀ * toMat m n M := by
  have h := toMat_rot (m := n) (fun a b => M b a) c s hj hi
  have h1 := congrArg Matrix.transpose h
  rw [Matrix.transpose_mul] at h1
  exact h1

theorem rotM_transpose_mul {n j i : ℕ} {c s : ℝ} (hj : 1 ≤ j ∧ j ≤ n) (hi : 1 ≤ i ∧ i ≤ n)
    (hij : j ≠ i) (hcs : c * c + s * s = 1) : (rotM n j i c s)ᵀ * rotM n j i c s = 1 := by
  rw [← toMat_delta n]
  conv_lhs => rw [rotM, transpose_toMat, ← rotM, ← toMat_rot _ _ _ hj hi]
  ext a b
  simp only [toMat, rot, delta]
  generalize (a : ℕ) + 1 = x
  generalize (b : ℕ) + 1 = y
  rcases eq_or_ne x j with ha | ha <;> rcases eq_or_ne x i with ha' | ha' <;>
    rcases eq_or_ne y j with hb | hb <;> rcases eq_or_ne y i with hb' | hb' <;>
    first
    | omega
    | (simp (disch := omega) only [if_pos, if_neg, if_true]; linarith)
    | skip
  simp (disch := omega) only [if_neg]
  by_cases h : x = y
  · rw [if_pos h, if_pos h.symm]
  · rw [if_neg h, if_neg (Ne.symm h)]

theorem rotM_mul_transpose {n j i : ℕ} {c s : ℝ} (hj : 1 ≤ j ∧ j ≤ n) (hi : 1 ≤ i ∧ i ≤ n)
    (hij : j ≠ i) (hcs : c * c + s * s = 1) : rotM n j i c s * (rotM n j i c s)ᵀ = 1 :=
  mul_eq_one_comm.mp (rotM_transpose_mul hj hi hij hcs)

/-! ## Reflections -/

/-- `1 + v vᵀ / d`; the identity if `d` is zero. -/
noncomputable def refl {N : ℕ} (v : Fin N → ℝ) (d : ℝ) : Matrix (Fin N) (Fin N) ℝ :=
  1 + d⁻¹ • vecMulVec v v

theorem refl_transpose {N : ℕ} (v : Fin N → ℝ) (d : ℝ) : (refl v d)ᵀ = refl v d := by
  simp only [refl, transpose_add, transpose_one, transpose_smul, transpose_vecMulVec]

theorem refl_mul_self {N : ℕ} {v : Fin N → ℝ} {d : ℝ} (h : v ⬝ᵥ v = -2 * d) :
    refl v d * refl v d = 1 := by
  have h1 : vecMulVec v v * vecMulVec v v = (-2 * d) • vecMulVec v v := by
    rw [vecMulVec_mul_vecMulVec, h]
    ext a b
    simp [vecMulVec_apply]
    ring
  simp only [refl, mul_add, add_mul, one_mul, mul_one, smul_mul_smul_comm, h1, smul_smul]
  have h2 : d⁻¹ * d⁻¹ * (-2 * d) = -2 * d⁻¹ := by
    rcases eq_or_ne d 0 with rfl | hd
    · simp
    · field_simp
  rw [h2, neg_mul, neg_smul, two_mul, add_smul]
  abel

theorem refl_mul_apply {N p : ℕ} (v : Fin N → ℝ) (d : ℝ) (L : Matrix (Fin N) (Fin p) ℝ) (a : Fin N)
    (b : Fin p) : (refl v d * L) a b = L a b + (∑ k, v k * L k b) / d * v a := by
  rw [refl, Matrix.add_mul, Matrix.one_mul, Matrix.add_apply, Matrix.smul_mul, Matrix.smul_apply, Matrix.mul_apply]
  simp only [vecMulVec_apply, smul_eq_mul, mul_assoc, ← Finset.mul_sum]
  ring

theorem refl_zero {N : ℕ} {v : Fin N → ℝ} (d : ℝ) (h : v = 0) : refl v d = 1 := by
  simp [refl, h]

end BFL.SVD
