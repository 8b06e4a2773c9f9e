import Verif.Lemmas.SVDTwo

/-!
# Lemmas about the pseudo-inverse
-/

set_option linter.unusedSectionVars false

namespace BFL.SVD

open Finset Matrix Spec

variable {m n : ℕ}

theorem invertDiag_ok {ε : ℝ} (hε : 0 < ε) (D : Arr) : ∀ n, ∃ R, invertDiag ε D n = .ok R ∧
    ∀ k, 1 ≤ k → k ≤ n → R k = if D k < ε then 0 else 1 / D k := by
  intro n
  induction n with
  | zero => exact ⟨_, rfl, fun k h1 h2 => by omega⟩
  | succ n ih =>
    obtain ⟨R, e, h⟩ := ih
    unfold invertDiag
    rw [e, Outcome.ok_bind]
    by_cases hD : D (n + 1) < ε
    · rw [if_pos hD]
      refine ⟨_, rfl, fun k h1 h2 => ?_⟩
      by_cases hk : k = n + 1
      · subst hk; rw [upd_same, if_pos hD]
      · rw [upd_ne hk]; exact h k h1 (by omega)
    · rw [if_neg hD, nonzero_of (by intro h0; rw [h0] at hD; exact hD hε)]
      refine ⟨_, rfl, fun k h1 h2 => ?_⟩
      by_cases hk : k = n + 1
      · subst hk; rw [upd_same, if_neg hD]
      · rw [upd_ne hk]; exact h k h1 (by omega)

/-- The pseudo-inverse of the matrix with the small singular values removed. -/
theorem IsSVD.truncate {A : Matrix (Fin m) (Fin n) ℝ} {U : Matrix (Fin m) (Fin n) ℝ} {w : Fin n → ℝ}
    {V : Matrix (Fin n) (Fin n) ℝ} (h : IsSVD A U w V) {ε : ℝ} (hε : 0 < ε) :
    IsPseudoinverse (U * diagonal (fun i => if w i < ε then 0 else w i) * Vᵀ)
      (V * diagonal (fun i => if w i < ε then 0 else 1 / w i) * Uᵀ) := by
  obtain ⟨d, hd⟩ : ∃ d : Fin n → ℝ, d = fun i => if w i < ε then 0 else w i := ⟨_, rfl⟩
  obtain ⟨p, hp⟩ : ∃ p : Fin n → ℝ, p = fun i => if w i < ε then 0 else 1 / w i := ⟨_, rfl⟩
  rw [← hd, ← hp]
  have hU : Uᵀ * U * diagonal d = diagonal d := by
    ext i j
    rw [mul_diagonal, diagonal_apply]
    by_cases hj : w j < ε
    · have : d j = 0 := by rw [hd]; exact if_pos hj
      rw [this, mul_zero]
      split
      · rename_i hij; rw [hij, this]
      · rfl
    · rw [h.orthU i j (by intro h0; rw [h0] at hj; exact hj hε)]
      split
      · rename_i hij; rw [one_mul, hij]
      · rw [zero_mul]
  have hdp : ∀ i, d i * p i * d i = d i ∧ p i * d i * p i = p i := by
    intro i
    rw [hd, hp]
    by_cases hi : w i < ε
    · simp only [if_pos hi]
      exact ⟨by ring, by ring⟩
    · simp only [if_neg hi]
      have : w i ≠ 0 := by intro h0; rw [h0] at hi; exact hi hε
      exact ⟨by field_simp, by field_simp⟩
  have e1 : diagonal d * diagonal p * diagonal d = diagonal d := by
    rw [diagonal_mul_diagonal, diagonal_mul_diagonal]
    congr 1; funext i; exact (hdp i).1
  have e2 : diagonal p * diagonal d * diagonal p = diagonal p := by
    rw [diagonal_mul_diagonal, diagonal_mul_diagonal]
    congr 1; funext i; exact (hdp i).2
  have eAX : U * diagonal d * Vᵀ * (V * diagonal p * Uᵀ) = U * (diagonal d * diagonal p) * Uᵀ := by
    have : U * diagonal d * Vᵀ * (V * diagonal p * Uᵀ)
        = U * diagonal d * (Vᵀ * V) * (diagonal p * Uᵀ) := by simp only [Matrix.mul_assoc]
    rw [this, h.orthV, Matrix.mul_one]
    simp only [Matrix.mul_assoc]
  have eXA : V * diagonal p * Uᵀ * (U * diagonal d * Vᵀ) = V * (diagonal p * diagonal d) * Vᵀ := by
    have : V * diagonal p * Uᵀ * (U * diagonal d * Vᵀ)
        = V * diagonal p * (Uᵀ * U * diagonal d) * Vᵀ := by simp only [Matrix.mul_assoc]
    rw [this, hU]
    simp only [Matrix.mul_assoc]
  refine ⟨?_, ?_, ?_, ?_⟩
  · rw [eAX]
    have : U * (diagonal d * diagonal p) * Uᵀ * (U * diagonal d * Vᵀ)
        = U * (diagonal d * diagonal p) * (Uᵀ * U * diagonal d) * Vᵀ := by
      simp only [Matrix.mul_assoc]
    rw [this, hU, Matrix.mul_assoc U, e1]
  · rw [eXA]
    have : V * (diagonal p * diagonal d) * Vᵀ * (V * diagonal p * Uᵀ)
        = V * (diagonal p * diagonal d) * (Vᵀ * V) * diagonal p * Uᵀ := by
      simp only [Matrix.mul_assoc]
    rw [this, h.orthV, Matrix.mul_one, Matrix.mul_assoc V, e2]
  · rw [eAX, diagonal_mul_diagonal, transpose_mul, transpose_mul, diagonal_transpose,
      transpose_transpose, Matrix.mul_assoc]
  · rw [eXA, diagonal_mul_diagonal, transpose_mul, transpose_mul, diagonal_transpose,
      transpose_transpose, Matrix.mul_assoc]

/-- The columns of `V` are eigenvectors of `AᵀA`. -/
theorem IsSVD.eigen {A : Matrix (Fin m) (Fin n) ℝ} {U : Matrix (Fin m) (Fin n) ℝ} {w : Fin n → ℝ}
    {V : Matrix (Fin n) (Fin n) ℝ} (h : IsSVD A U w V) (j : Fin n) :
    (Aᵀ * A) *ᵥ (fun i => V i j) = (w j * w j) • (fun i => V i j) := by
  have hU : Uᵀ * U * diagonal w = diagonal w := by
    ext i j
    rw [mul_diagonal, diagonal_apply]
    by_cases hj : w j = 0
    · rw [hj, mul_zero]
      split
      · rename_i hij; rw [hij, hj]
      · rfl
    · rw [h.orthU i j hj]
      split
      · rename_i hij; rw [one_mul, hij]
      · rw [zero_mul]
  have e : Aᵀ * A * V = V * diagonal (fun i => w i * w i) := by
    rw [h.eq, transpose_mul, transpose_mul, transpose_transpose, diagonal_transpose]
    have : V * (diagonal w * Uᵀ) * (U * diagonal w * Vᵀ) * V
        = V * diagonal w * (Uᵀ * U * diagonal w) * (Vᵀ * V) := by simp only [Matrix.mul_assoc]
    rw [this, hU, h.orthV, Matrix.mul_one, Matrix.mul_assoc, diagonal_mul_diagonal]
  funext i
  have := congrFun (congrFun e i) j
  rw [mul_diagonal] at this
  rw [Pi.smul_apply, smul_eq_mul, mul_comm, ← this]
  rfl

theorem IsSVD.column_ne_zero {A : Matrix (Fin m) (Fin n) ℝ} {U : Matrix (Fin m) (Fin n) ℝ}
    {w : Fin n → ℝ} {V : Matrix (Fin n) (Fin n) ℝ} (h : IsSVD A U w V) (j : Fin n) :
    (fun i => V i j) ≠ 0 := by
  intro h0
  have := congrFun (congrFun h.orthV j) j
  rw [Matrix.mul_apply, Matrix.one_apply_eq] at this
  have h1 : ∀ i, V i j = 0 := fun i => congrFun h0 i
  simp only [h1, mul_zero, Finset.sum_const_zero] at this
  exact zero_ne_one this

theorem pseudoinverse_ok (A : Matrix (Fin m) (Fin n) ℝ) {ε : ℝ} (hε : 0 < ε) (w0 : Arr) (V0 : Arr2) :
    (svd m n (toArr A) w0 V0 = .ok none ∧ pseudoinverse A ε w0 V0 = .abort) ∨
    ∃ U w V, svd m n (toArr A) w0 V0 = .ok (some (U, w, V)) ∧
      IsSVD A (toMat m n U) (fun i => w (i + 1)) (toMat n n V) ∧
      pseudoinverse A ε w0 V0 = .ok (toMat n n V
        * diagonal (fun i : Fin n => if w (i + 1) < ε then 0 else 1 / w (i + 1)) * (toMat m n U)ᵀ) := by
  obtain ⟨o, e, h⟩ := svd_ok A w0 V0
  unfold pseudoinverse
  rw [e, Outcome.ok_bind]
  cases o with
  | none => exact Or.inl ⟨rfl, rfl⟩
  | some x =>
    obtain ⟨U, w, V⟩ := x
    obtain ⟨R, eR, hR⟩ := invertDiag_ok hε w n
    refine Or.inr ⟨U, w, V, rfl, h U w V rfl, ?_⟩
    simp only [eR, Outcome.ok_bind, Outcome.pure_eq]
    congr 3
    congr 1
    funext i
    exact hR _ (by omega) (by omega)

end BFL.SVD
