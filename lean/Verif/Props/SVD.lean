import Verif.Lemmas.Pseudoinverse
import Mathlib.Tactic.NormNum

/-!
# C48 and C59: singular value decomposition and pseudo-inverse

The specification is in `Verif.Spec.SVD`: what a singular value decomposition is, and the four
Moore-Penrose conditions.
-/

set_option linter.unusedSectionVars false

namespace BFL.Props

open Matrix Spec SVD
open SVD (IsSVD.eigen IsSVD.truncate IsSVD.column_ne_zero)

variable {m n : ℕ}

/-! ## C59 -/

/-- **C59**: for every matrix, of any shape and rank, and whatever the output arguments hold before
the call, `SVD` neither divides by zero nor reads outside the arrays, and if it returns true the
three results are a singular value decomposition of the matrix. -/
theorem C59_svd (A : Matrix (Fin m) (Fin n) ℝ) (w0 : Arr) (V0 : Arr2) :
    svd m n (toArr A) w0 V0 = .ok none ∨
    ∃ U w V, svd m n (toArr A) w0 V0 = .ok (some (U, w, V)) ∧
      IsSVD A (toMat m n U) (fun i => w (i + 1)) (toMat n n V) := by
  obtain ⟨o, e, h⟩ := svd_ok A w0 V0
  cases o with
  | none => exact Or.inl e
  | some x =>
    obtain ⟨U, w, V⟩ := x
    exact Or.inr ⟨U, w, V, e, h U w V rfl⟩

/-- **C59**: a matrix with at most two columns is always decomposed. -/
theorem C59_two_columns (A : Matrix (Fin m) (Fin n) ℝ) (hn : n ≤ 2) (w0 : Arr) (V0 : Arr2) :
    ∃ U w V, svd m n (toArr A) w0 V0 = .ok (some (U, w, V)) ∧
      IsSVD A (toMat m n U) (fun i => w (i + 1)) (toMat n n V) := by
  obtain ⟨U, w, V, e⟩ := svd_two A hn w0 V0
  rcases C59_svd A w0 V0 with h | ⟨U', w', V', e', h⟩
  · rw [e] at h; cases h
  · exact ⟨U', w', V', e', h⟩

/-- **C59**: if `SVD` returns true, the squares of the returned values are eigenvalues of `AᵀA`, with
the columns of `V` as eigenvectors. -/
theorem C59_eigenvalues (A : Matrix (Fin m) (Fin n) ℝ) (w0 : Arr) (V0 : Arr2) (U : Arr2) (w : Arr)
    (V : Arr2) (h : svd m n (toArr A) w0 V0 = .ok (some (U, w, V))) (j : Fin n) :
    (fun i => toMat n n V i j) ≠ 0 ∧
    (Aᵀ * A) *ᵥ (fun i => toMat n n V i j)
      = (w (j + 1) * w (j + 1)) • (fun i => toMat n n V i j) := by
  rcases C59_svd A w0 V0 with h' | ⟨U', w', V', e, hs⟩
  · rw [h] at h'; cases h'
  · rw [h] at e
    cases e
    exact ⟨IsSVD.column_ne_zero hs j, IsSVD.eigen hs j⟩

/-- A matrix with more rows than columns, not of full rank. -/
example : ∃ U w V, svd 3 2 (toArr !![1, 2; 2, 4; -1, -2]) (fun _ => 7) (fun _ _ => 7)
      = .ok (some (U, w, V)) ∧
    IsSVD !![1, 2; 2, 4; -1, -2] (toMat 3 2 U) (fun i => w (i + 1)) (toMat 2 2 V) :=
  C59_two_columns _ le_rfl _ _

/-- A matrix with fewer rows than columns. -/
example : ∃ U w V, svd 1 2 (toArr !![3, 4]) (fun _ => 7) (fun _ _ => 7) = .ok (some (U, w, V)) ∧
    ((!![3, 4] : Matrix (Fin 1) (Fin 2) ℝ)ᵀ * (!![3, 4] : Matrix (Fin 1) (Fin 2) ℝ)) *ᵥ (fun i => toMat 2 2 V i 0)
      = (w 1 * w 1) • (fun i => toMat 2 2 V i 0) := by
  obtain ⟨U, w, V, e, _⟩ := C59_two_columns !![3, 4] le_rfl (fun _ => 7) (fun _ _ => 7)
  exact ⟨U, w, V, e, (C59_eigenvalues _ _ _ U w V e 0).2⟩

/-! ## C48 -/

/-- The pseudo-inverse is unique. -/
theorem pseudoinverse_unique {A : Matrix (Fin m) (Fin n) ℝ} {X Y : Matrix (Fin n) (Fin m) ℝ}
    (hX : IsPseudoinverse A X) (hY : IsPseudoinverse A Y) : X = Y := by
  have h1 : A * X = A * Y := by
    have e : A * X = A * Y * (A * X) := by
      rw [← Matrix.mul_assoc, hY.axa]
    rw [e, ← hX.ax, ← hY.ax, ← transpose_mul, ← Matrix.mul_assoc, hX.axa]
  have h2 : X * A = Y * A := by
    have e : X * A = X * A * (Y * A) := by
      rw [Matrix.mul_assoc, ← Matrix.mul_assoc A, hY.axa]
    rw [e, ← hX.xa, ← hY.xa, ← transpose_mul, Matrix.mul_assoc, ← Matrix.mul_assoc A, hX.axa]
  rw [← hX.xax, h2, Matrix.mul_assoc, h1, ← Matrix.mul_assoc, hY.xax]

/-- **C48**: if every non-zero eigenvalue of `AᵀA` is at least `epsilon²`, that is, if every non-zero
singular value is at least `epsilon`, then `pseudoinverse(epsilon)` stops at the assertion that the
decomposition has converged, or it returns the pseudo-inverse. -/
theorem C48_pseudoinverse (A : Matrix (Fin m) (Fin n) ℝ) (ε : ℝ) (hε : 0 < ε)
    (gap : ∀ (x : Fin n → ℝ) (μ : ℝ), x ≠ 0 → (Aᵀ * A) *ᵥ x = μ • x → μ = 0 ∨ ε * ε ≤ μ)
    (w0 : Arr) (V0 : Arr2) :
    pseudoinverse A ε w0 V0 = .abort ∨
    ∃ X, pseudoinverse A ε w0 V0 = .ok X ∧ IsPseudoinverse A X := by
  rcases pseudoinverse_ok A hε w0 V0 with ⟨_, h⟩ | ⟨U, w, V, _, hs, h⟩
  · exact Or.inl h
  · refine Or.inr ⟨_, h, ?_⟩
    have ht := IsSVD.truncate hs hε
    have e : (fun i : Fin n => if w (i + 1) < ε then 0 else w (i + 1)) = fun i : Fin n => w (i + 1) := by
      funext i
      split
      · rename_i hi
        have h0 := hs.nonneg i
        rcases gap _ _ (IsSVD.column_ne_zero hs i) (IsSVD.eigen hs i) with h1 | h1
        · exact (mul_self_eq_zero.mp h1).symm
        · exfalso
          have : w (i + 1) * w (i + 1) < ε * ε := mul_self_lt_mul_self h0 hi
          exact absurd h1 (not_le.mpr this)
      · rfl
    simp only [e] at ht
    rw [← hs.eq] at ht
    exact ht

/-- **C48**: with at most two columns the assertion always holds, so the pseudo-inverse is returned. -/
theorem C48_two_columns (A : Matrix (Fin m) (Fin n) ℝ) (hn : n ≤ 2) (ε : ℝ) (hε : 0 < ε)
    (gap : ∀ (x : Fin n → ℝ) (μ : ℝ), x ≠ 0 → (Aᵀ * A) *ᵥ x = μ • x → μ = 0 ∨ ε * ε ≤ μ)
    (w0 : Arr) (V0 : Arr2) :
    ∃ X, pseudoinverse A ε w0 V0 = .ok X ∧ IsPseudoinverse A X := by
  rcases C48_pseudoinverse A ε hε gap w0 V0 with h | h
  · rcases pseudoinverse_ok A hε w0 V0 with ⟨h', _⟩ | ⟨U, w, V, _, _, h'⟩
    · obtain ⟨U, w, V, e⟩ := svd_two A hn w0 V0
      rw [e] at h'; cases h'
    · rw [h] at h'; cases h'
  · exact h

/-- **C48**: for an invertible matrix whose singular values are at least `epsilon` the returned
matrix is the inverse. -/
theorem C48_invertible (A B : Matrix (Fin n) (Fin n) ℝ) (hB : A * B = 1) (ε : ℝ) (hε : 0 < ε)
    (gap : ∀ (x : Fin n → ℝ) (μ : ℝ), x ≠ 0 → (Aᵀ * A) *ᵥ x = μ • x → ε * ε ≤ μ)
    (w0 : Arr) (V0 : Arr2) :
    pseudoinverse A ε w0 V0 = .abort ∨ pseudoinverse A ε w0 V0 = .ok B := by
  have hB' : B * A = 1 := mul_eq_one_comm.mp hB
  rcases C48_pseudoinverse A ε hε (fun x μ h1 h2 => Or.inr (gap x μ h1 h2)) w0 V0 with h | ⟨X, h, hX⟩
  · exact Or.inl h
  · right
    have : X = B := pseudoinverse_unique hX
      ⟨by rw [hB, Matrix.one_mul], by rw [hB', Matrix.one_mul], by rw [hB, transpose_one],
        by rw [hB', transpose_one]⟩
    rw [h, this]

/-- **C48**, in general: what is returned is the pseudo-inverse of the matrix in which the singular
values below `epsilon` have been replaced by zero. -/
theorem C48_truncated (A : Matrix (Fin m) (Fin n) ℝ) (ε : ℝ) (hε : 0 < ε) (w0 : Arr) (V0 : Arr2)
    (X : Matrix (Fin n) (Fin m) ℝ) (h : pseudoinverse A ε w0 V0 = .ok X) :
    ∃ U w V, IsSVD A U w V ∧
      IsPseudoinverse (U * diagonal (fun i => if w i < ε then 0 else w i) * Vᵀ) X := by
  rcases pseudoinverse_ok A hε w0 V0 with ⟨_, h'⟩ | ⟨U, w, V, _, hs, h'⟩
  · rw [h] at h'; cases h'
  · rw [h] at h'
    cases h'
    exact ⟨_, _, _, hs, IsSVD.truncate hs hε⟩

/-- **C48**: a matrix all of whose singular values are below `epsilon` is treated as zero. -/
theorem C48_small (A : Matrix (Fin m) (Fin n) ℝ) (ε : ℝ) (hε : 0 < ε)
    (small : ∀ (x : Fin n → ℝ) (μ : ℝ), x ≠ 0 → (Aᵀ * A) *ᵥ x = μ • x → μ < ε * ε)
    (w0 : Arr) (V0 : Arr2) :
    pseudoinverse A ε w0 V0 = .abort ∨ pseudoinverse A ε w0 V0 = .ok 0 := by
  rcases pseudoinverse_ok A hε w0 V0 with ⟨_, h⟩ | ⟨U, w, V, _, hs, h⟩
  · exact Or.inl h
  · right
    have e : (fun i : Fin n => if w (i + 1) < ε then 0 else 1 / w (i + 1)) = fun _ => 0 := by
      funext i
      have h1 := small _ _ (IsSVD.column_ne_zero hs i) (IsSVD.eigen hs i)
      have : w (i + 1) < ε := by
        by_contra hge
        have hge := not_lt.mp hge
        have := mul_self_le_mul_self (le_of_lt hε) hge
        exact absurd h1 (not_lt.mpr this)
      exact if_pos this
    rw [h, e, diagonal_zero, Matrix.mul_zero, Matrix.zero_mul]

/-- The statement of C48 without the condition on small singular values is false: with the default
argument `epsilon = 0.01` the pseudo-inverse of the invertible matrix `(1/200)` is `0`. -/
theorem C48_default_epsilon :
    pseudoinverse (!![1 / 200] : Matrix (Fin 1) (Fin 1) ℝ) (1 / 100) (fun _ => 0) (fun _ _ => 0)
      = .ok 0 ∧ ¬ IsPseudoinverse (!![1 / 200] : Matrix (Fin 1) (Fin 1) ℝ) 0 := by
  constructor
  · have small : ∀ (x : Fin 1 → ℝ) (μ : ℝ), x ≠ 0 →
        ((!![1 / 200] : Matrix (Fin 1) (Fin 1) ℝ)ᵀ * !![1 / 200]) *ᵥ x = μ • x →
        μ < 1 / 100 * (1 / 100) := by
      intro x μ hx h
      have h0 := congrFun h 0
      have hx0 : x 0 ≠ 0 := by
        intro h'
        apply hx
        funext i
        rw [Subsingleton.elim i 0]
        exact h'
      simp [mulVec, dotProduct, Matrix.mul_apply, hx0] at h0
      rw [← h0]
      norm_num
    rcases C48_small (!![1 / 200] : Matrix (Fin 1) (Fin 1) ℝ) (1 / 100) (by norm_num) small (fun _ => 0)
      (fun _ _ => 0) with h | h
    · rcases pseudoinverse_ok (!![1 / 200] : Matrix (Fin 1) (Fin 1) ℝ) (ε := 1 / 100) (by norm_num)
        (fun _ => 0) (fun _ _ => 0) with ⟨h', _⟩ | ⟨U, w, V, _, _, h'⟩
      · obtain ⟨U, w, V, e⟩ := svd_two (!![1 / 200] : Matrix (Fin 1) (Fin 1) ℝ) (by norm_num)
          (fun _ => 0) (fun _ _ => 0)
        rw [e] at h'; cases h'
      · rw [h] at h'; cases h'
    · exact h
  · intro h
    have := congrFun (congrFun h.axa 0) 0
    simp at this

/-- **C48**: the precondition `epsilon > 0` is needed: a singular matrix and `epsilon = 0` lead to a
division by zero. -/
theorem C48_epsilon_zero :
    pseudoinverse (0 : Matrix (Fin 1) (Fin 1) ℝ) 0 (fun _ => 0) (fun _ _ => 0) = .ub := by
  obtain ⟨U, w, V, e, hs⟩ := C59_two_columns (0 : Matrix (Fin 1) (Fin 1) ℝ) (by norm_num) (fun _ => 0)
    (fun _ _ => 0)
  have hw : w 1 = 0 := by
    have h1 := IsSVD.eigen hs 0
    rw [transpose_zero, Matrix.zero_mul, zero_mulVec] at h1
    rcases smul_eq_zero.mp h1.symm with h2 | h2
    · exact mul_self_eq_zero.mp h2
    · exact absurd h2 (IsSVD.column_ne_zero hs 0)
  unfold pseudoinverse
  rw [e]
  simp only [Outcome.ok_bind, invertDiag, hw, lt_irrefl, if_false, nonzero, if_true]
  rfl

/-- The condition on the eigenvalues holds for a matrix of rank one, and the result is known. -/
example (w0 : Arr) (V0 : Arr2) :
    pseudoinverse (!![2, 0; 0, 0] : Matrix (Fin 2) (Fin 2) ℝ) (1 / 100) w0 V0
      = .ok !![1 / 2, 0; 0, 0] := by
  obtain ⟨X, e, hX⟩ := C48_two_columns (!![2, 0; 0, 0] : Matrix (Fin 2) (Fin 2) ℝ) le_rfl (1 / 100)
    (by norm_num) (by
      intro x μ hx h
      have h0 := congrFun h 0
      have h1 := congrFun h 1
      simp [mulVec, dotProduct, Matrix.mul_apply, Fin.sum_univ_two] at h0 h1
      rcases h1 with h1 | h1
      · exact Or.inl h1
      · right
        have hx0 : x 0 ≠ 0 := by
          intro h'
          apply hx
          funext i
          fin_cases i
          · exact h'
          · exact h1
        rw [← h0.resolve_right hx0]; norm_num) w0 V0
  rw [e, pseudoinverse_unique hX (Y := !![1 / 2, 0; 0, 0])]
  constructor <;> ext i j <;> fin_cases i <;> fin_cases j <;>
    norm_num [Matrix.mul_apply, Fin.sum_univ_two]

end BFL.Props
