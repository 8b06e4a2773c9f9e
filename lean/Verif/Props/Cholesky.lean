import Verif.Lemmas.CholeskyMain
import Mathlib.Analysis.SpecialFunctions.Sqrt

/-!
# C42: the Cholesky factorisation of `SymmetricMatrix::cholesky_semidefinite`

`sqrt` is any function that computes square roots (`Spec.IsSqrt`, met by `Real.sqrt`), and `eps`
any threshold in `(0, 1]`; the code uses the machine epsilon `2^-52`.
-/

set_option linter.unusedSectionVars false

namespace BFL.Props

open Matrix Spec

variable {K : Type} [Field K] [LinearOrder K] [IsStrictOrderedRing K] {n : Nat}

/-- The real square root is a square root. -/
theorem realSqrt_isSqrt : IsSqrt Real.sqrt :=
  fun x hx => ⟨Real.sqrt_nonneg x, Real.mul_self_sqrt hx⟩

/-- **C42, semidefinite.** On every positive semidefinite matrix the function reports success and
returns a lower triangular matrix with non-negative diagonal. Column `j` of the product is exact
unless the `j`-th diagonal entry of the result is zero, and the error in row `i` never exceeds
`sqrt (eps * A i i)`. -/
theorem C42_semidefinite {sqrt : K → K} {eps : K} (hs : IsSqrt sqrt) (h0 : 0 < eps) (h1 : eps ≤ 1)
    {A : Matrix (Fin n) (Fin n) K} (hA : PSD A) :
    ∃ L, cholesky sqrt eps A = (true, L) ∧ LowerTriangular L ∧ (∀ j, 0 ≤ L j j) ∧
      (∀ i j, j ≤ i → L j j ≠ 0 → (L * Lᵀ) i j = A i j) ∧
      (∀ i j, j ≤ i → ((L * Lᵀ) i j - A i j) ^ 2 ≤ eps * A i i) := by
  obtain ⟨a, ha, hi⟩ := cholesky_err hs h0 h1 hA
  refine ⟨finished n a, ha, finished_lower a, fun j => ?_, fun i j hij hj => ?_, fun i j hij => ?_⟩
  · rw [finished_diag]; exact (hi.inv.done j j le_rfl j.isLt).1
  · rw [finished_diag] at hj; exact hi.inv.exact hij hj
  · have := hi.err i j hij j.isLt
    rw [residual, Matrix.sub_apply] at this
    linarith [sq ((finished n a * (finished n a)ᵀ) i j - A i j),
      sq (A i j - (finished n a * (finished n a)ᵀ) i j),
      sub_sq_comm ((finished n a * (finished n a)ᵀ) i j) (A i j)]

/-- The matrix with entries 4, 2, 2, 1: semidefinite and singular. -/
theorem singular_psd : PSD (!![4, 2; 2, 1] : Matrix (Fin 2) (Fin 2) ℝ) := by
  refine ⟨by ext i j; fin_cases i <;> fin_cases j <;> rfl, fun x => ?_⟩
  have : x ⬝ᵥ (!![4, 2; 2, 1] *ᵥ x) = (2 * x 0 + x 1) ^ 2 := by
    simp [mulVec, dotProduct, Fin.sum_univ_two]; ring
  rw [this]; positivity

example : ∃ L, cholesky Real.sqrt (1 / 2 ^ 52) (!![4, 2; 2, 1] : Matrix (Fin 2) (Fin 2) ℝ) =
    (true, L) ∧ LowerTriangular L :=
  let ⟨L, h, h', _⟩ := C42_semidefinite realSqrt_isSqrt (by positivity) (by norm_num) singular_psd
  ⟨L, h, h'⟩

/-- **C42, definite.** If no eigenvalue is below `eps` the result is an exact factorisation. -/
theorem C42_definite {sqrt : K → K} {eps : K} (hs : IsSqrt sqrt) (h0 : 0 < eps) (h1 : eps ≤ 1)
    {A : Matrix (Fin n) (Fin n) K} (hA : PSD (A - eps • (1 : Matrix (Fin n) (Fin n) K))) :
    ∃ L, cholesky sqrt eps A = (true, L) ∧ LowerTriangular L ∧ (∀ j, 0 < L j j) ∧ L * Lᵀ = A := by
  have hsym : Aᵀ = A := by
    have := hA.1
    rw [transpose_sub, transpose_smul, transpose_one] at this
    exact sub_left_injective this
  obtain ⟨a, ha, hi⟩ := cholesky_pos hs h0 h1 hA hsym
  refine ⟨finished n a, ha, finished_lower a, fun j => ?_, ?_⟩
  · rw [finished_diag]; exact hi.pos j j.isLt
  · exact eq_of_lower (mul_transpose_symm _) hsym
      fun i j hij => hi.inv.exact hij (hi.pos j j.isLt).ne'

example : ∃ L, cholesky Real.sqrt (1 / 2 ^ 52) (!![5, 2; 2, 2] : Matrix (Fin 2) (Fin 2) ℝ) =
    (true, L) ∧ L * Lᵀ = !![5, 2; 2, 2] := by
  obtain ⟨L, h, _, _, h'⟩ := C42_definite (n := 2) (A := !![5, 2; 2, 2]) realSqrt_isSqrt
    (eps := 1 / 2 ^ 52) (by positivity) (by norm_num) (by
      refine ⟨by ext i j; fin_cases i <;> fin_cases j <;> simp, fun x => ?_⟩
      have : x ⬝ᵥ ((!![5, 2; 2, 2] - (1 / 2 ^ 52 : ℝ) • (1 : Matrix (Fin 2) (Fin 2) ℝ)) *ᵥ x) =
          (2 * x 0 + x 1) ^ 2 + (1 - 1 / 2 ^ 52) * (x 0 ^ 2 + x 1 ^ 2) := by
        simp [mulVec, dotProduct, Fin.sum_univ_two]; ring
      rw [this]
      have : (0 : ℝ) ≤ 1 - 1 / 2 ^ 52 := by norm_num
      positivity)
  exact ⟨L, h, h'⟩

/-- **C42, round trip.** A lower triangular matrix each of whose columns is zero, or has a positive
diagonal entry with square at least `eps`, is recovered from its product with its transpose. -/
theorem C42_round_trip {sqrt : K → K} {eps : K} (hs : IsSqrt sqrt) (h0 : 0 < eps) (h1 : eps ≤ 1)
    {L : Matrix (Fin n) (Fin n) K} (hL : LowerTriangular L)
    (hd : ∀ j, (∀ i, L i j = 0) ∨ (0 < L j j ∧ eps ≤ L j j * L j j)) :
    cholesky sqrt eps (L * Lᵀ) = (true, L) :=
  cholesky_trip hs h0 h1 hL hd

example : cholesky Real.sqrt (1 / 2 ^ 52) (!![4, 2; 2, 1] : Matrix (Fin 2) (Fin 2) ℝ) =
    (true, !![2, 0; 1, 0]) := by
  have e : (!![4, 2; 2, 1] : Matrix (Fin 2) (Fin 2) ℝ) = !![2, 0; 1, 0] * !![2, 0; 1, 0]ᵀ := by
    ext i j; fin_cases i <;> fin_cases j <;>
      simp [Matrix.mul_apply, Fin.sum_univ_two, transpose_apply] <;> norm_num
  rw [e]
  refine C42_round_trip realSqrt_isSqrt (by positivity) (by norm_num) ?_ ?_
  · intro i j h; fin_cases i <;> fin_cases j <;> simp at h ⊢
  · intro j; fin_cases j
    · right; norm_num
    · left; intro i; fin_cases i <;> simp

/-- **C42, what success means (partial: needs the diagonal of the result to be free of zeros, see
`C42_success_false`).** If the function reports success on a symmetric matrix and returns a matrix
without zeros on the diagonal, then the result is a factorisation. -/
theorem C42_success_partial {sqrt : K → K} {eps : K} (hs : IsSqrt sqrt) (h0 : 0 < eps) (h1 : eps ≤ 1)
    {A L : Matrix (Fin n) (Fin n) K} (hA : Aᵀ = A) (h : cholesky sqrt eps A = (true, L))
    (hL : ∀ j, L j j ≠ 0) :
    LowerTriangular L ∧ (∀ j, 0 < L j j) ∧ L * Lᵀ = A := by
  rcases cholesky_true hs h0 h1 hA with ⟨a, ha, hi⟩ | ⟨ha, _⟩
  · rw [ha] at h
    have e : finished n a = L := (Prod.mk.inj h).2
    subst e
    have hL' : ∀ j, a j j ≠ 0 := fun j => by rw [← finished_diag a j]; exact hL j
    refine ⟨finished_lower a, fun j => ?_, ?_⟩
    · exact lt_of_le_of_ne (by rw [finished_diag]; exact (hi.done j j le_rfl j.isLt).1) (hL j).symm
    · exact eq_of_lower (mul_transpose_symm _) hA fun i j hij => hi.exact hij (hL' j)
  · rw [ha] at h; cases (Prod.mk.inj h).1

example (L : Matrix (Fin 2) (Fin 2) ℝ)
    (h : cholesky Real.sqrt (1 / 2 ^ 52) (!![5, 2; 2, 2] : Matrix (Fin 2) (Fin 2) ℝ) = (true, L))
    (hL : ∀ j, L j j ≠ 0) : L * Lᵀ = !![5, 2; 2, 2] :=
  (C42_success_partial realSqrt_isSqrt (by positivity) (by norm_num)
    (by ext i j; fin_cases i <;> fin_cases j <;> rfl) h hL).2.2

/-- **C42, negative diagonal.** A symmetric matrix with a diagonal entry of at most `-eps` is always
rejected. -/
theorem C42_negative {sqrt : K → K} {eps : K} (hs : IsSqrt sqrt) (h0 : 0 < eps) (h1 : eps ≤ 1)
    {A : Matrix (Fin n) (Fin n) K} (hA : Aᵀ = A) (j : Fin n) (hj : A j j ≤ -eps) :
    cholesky sqrt eps A = (false, 0) := by
  rcases cholesky_true hs h0 h1 hA with ⟨a, _, hi⟩ | ⟨ha, _⟩
  · exfalso
    have h2 := residual_diag_le A a n j
    obtain ⟨_, ⟨_, h4⟩ | ⟨_, _, _, h4⟩⟩ := hi.done j j le_rfl j.isLt <;> linarith
  · exact ha

example : cholesky Real.sqrt (1 / 2 ^ 52) (!![1, 2; 2, -3] : Matrix (Fin 2) (Fin 2) ℝ) = (false, 0) :=
  C42_negative realSqrt_isSqrt (by positivity) (by norm_num)
    (by ext i j; fin_cases i <;> fin_cases j <;> rfl) 1 (by norm_num)

/-- **C42, failure.** Failure is only reported for matrices that are not positive semidefinite, and
the result is then the zero matrix. -/
theorem C42_failure {sqrt : K → K} {eps : K} (hs : IsSqrt sqrt) (h0 : 0 < eps) (h1 : eps ≤ 1)
    {A L : Matrix (Fin n) (Fin n) K} (hA : Aᵀ = A) (h : cholesky sqrt eps A = (false, L)) :
    L = 0 ∧ ∃ x : Fin n → K, x ⬝ᵥ (A *ᵥ x) < 0 := by
  rcases cholesky_true hs h0 h1 hA with ⟨a, ha, _⟩ | ⟨ha, j, b, hb, hneg⟩
  · rw [ha] at h; cases (Prod.mk.inj h).1
  · rw [ha] at h
    obtain ⟨x, _, hx⟩ := hb.pivot j le_rfl
    refine ⟨(Prod.mk.inj h).2.symm, x, ?_⟩
    rw [hx, ← hb.rest j j le_rfl le_rfl]
    linarith

example : ∃ x : Fin 2 → ℝ, x ⬝ᵥ (!![1, 2; 2, -3] *ᵥ x) < 0 :=
  (C42_failure realSqrt_isSqrt (eps := 1 / 2 ^ 52) (by positivity) (by norm_num)
    (by ext i j; fin_cases i <;> fin_cases j <;> rfl)
    (C42_negative realSqrt_isSqrt (by positivity) (by norm_num)
      (by ext i j; fin_cases i <;> fin_cases j <;> rfl) 1 (by norm_num))).2

/-- A two by two matrix with zero diagonal is reported as factorised, with result zero. -/
theorem cholesky_hollow {sqrt : K → K} {eps : K} (hs : IsSqrt sqrt) (h0 : 0 < eps) (t : K) :
    cholesky sqrt eps !![0, t; t, 0] = (true, 0) := by
  have hf : List.finRange 2 = [0, 1] := by decide
  have ha : above (0 : Fin 2) = [1] := by decide
  have ha' : above (1 : Fin 2) = [] := by decide
  have hb : fromIndex (1 : Fin 2) = [1] := by decide
  have hz := isSqrt_zero hs
  simp only [cholesky, cholLoop, hf]
  have e1 : cholSnap eps !![0, t; t, 0] (0 : Fin 2) = !![0, t; t, 0] := by
    rw [cholSnap, if_pos (by simp [h0])]
    ext i j; fin_cases i <;> fin_cases j <;> simp [setEntry]
  have e2 : setEntry !![0, t; t, 0] (0 : Fin 2) 0 (sqrt 0) = !![0, t; t, 0] := by
    ext i j; fin_cases i <;> fin_cases j <;> simp [setEntry, hz]
  have e3 : cholScale eps !![0, t; t, 0] (0 : Fin 2) = !![0, t; 0, 0] := by
    ext i j; fin_cases i <;> fin_cases j <;> simp [cholScale, ha, setEntry, h0]
  have e4 : cholReduce !![0, t; 0, 0] (0 : Fin 2) = !![0, t; 0, 0] := by
    ext i j; fin_cases i <;> fin_cases j <;> simp [cholReduce, cholReduceColumn, ha, hb, setEntry]
  have e5 : cholSnap eps !![0, t; 0, 0] (1 : Fin 2) = !![0, t; 0, 0] := by
    rw [cholSnap, if_pos (by simp [h0])]
    ext i j; fin_cases i <;> fin_cases j <;> simp [setEntry]
  have e6 : setEntry !![0, t; 0, 0] (1 : Fin 2) 1 (sqrt 0) = !![0, t; 0, 0] := by
    ext i j; fin_cases i <;> fin_cases j <;> simp [setEntry, hz]
  have e7 : cholScale eps !![0, t; 0, 0] (1 : Fin 2) = !![0, t; 0, 0] := by simp [cholScale, ha']
  have e8 : cholReduce !![0, t; 0, 0] (1 : Fin 2) = !![0, t; 0, 0] := by simp [cholReduce, ha']
  have e9 : zeroUpper !![0, t; (0 : K), 0] = 0 := by
    ext i j; fin_cases i <;> fin_cases j <;> simp [zeroUpper, hf, ha, ha', setEntry]
  have d0 : (!![0, t; t, 0] : Matrix (Fin 2) (Fin 2) K) 0 0 = 0 := rfl
  have d1 : (!![0, t; 0, 0] : Matrix (Fin 2) (Fin 2) K) 1 1 = 0 := rfl
  rw [e1, d0, e2, e3, e4, e5, d1, e6, e7, e8, if_neg (lt_irrefl _), if_neg (lt_irrefl _)]
  simp only [e9]

/-- **C42, disagreement.** Success does not mean that the result is a factorisation: for every
number `t ≠ 0` the matrix with zeros on and `t` off the diagonal, which is indefinite, is reported
as factorised, with the zero matrix as result. -/
theorem C42_success_false {sqrt : K → K} {eps : K} (hs : IsSqrt sqrt) (h0 : 0 < eps) (t : K)
    (ht : t ≠ 0) :
    ∃ A L : Matrix (Fin 2) (Fin 2) K, Aᵀ = A ∧ (∃ x, x ⬝ᵥ (A *ᵥ x) < 0) ∧
      cholesky sqrt eps A = (true, L) ∧ (L * Lᵀ) 1 0 - A 1 0 = -t := by
  refine ⟨!![0, t; t, 0], 0, by ext i j; fin_cases i <;> fin_cases j <;> rfl, ⟨![1, -t], ?_⟩,
    cholesky_hollow hs h0 t, by simp⟩
  have : ![1, -t] ⬝ᵥ (!![0, t; t, 0] *ᵥ ![1, -t]) = -(2 * t ^ 2) := by
    simp [mulVec, dotProduct, Fin.sum_univ_two]; ring
  rw [this]
  have : 0 < t ^ 2 := by positivity
  linarith

example : ∃ A L : Matrix (Fin 2) (Fin 2) ℝ, Aᵀ = A ∧ (∃ x, x ⬝ᵥ (A *ᵥ x) < 0) ∧
    cholesky Real.sqrt (1 / 2 ^ 52) A = (true, L) ∧ (L * Lᵀ) 1 0 - A 1 0 = -1000 :=
  C42_success_false realSqrt_isSqrt (by positivity) 1000 (by norm_num)

/-- **C42, disagreement.** On a positive definite matrix with a small entry the result is not a
factorisation: the one by one matrix `t` with `0 < t < eps` is factorised into zero. -/
theorem C42_small_false {sqrt : K → K} {eps : K} (hs : IsSqrt sqrt) (t : K) (ht : 0 < t)
    (ht' : t < eps) :
    PD (!![t] : Matrix (Fin 1) (Fin 1) K) ∧ cholesky sqrt eps !![t] = (true, !![0]) := by
  refine ⟨⟨by ext i j; fin_cases i; fin_cases j; rfl, fun x hx => ?_⟩, ?_⟩
  · have h0 : x 0 ≠ 0 := fun h => hx (by ext i; fin_cases i; exact h)
    have : x ⬝ᵥ (!![t] *ᵥ x) = t * (x 0 * x 0) := by
      simp [mulVec, dotProduct]; ring
    rw [this]
    exact mul_pos ht (mul_self_pos.mpr h0)
  · have hf : List.finRange 1 = [0] := by decide
    have ha : above (0 : Fin 1) = [] := by decide
    have e1 : cholSnap eps !![t] (0 : Fin 1) = !![0] := by
      rw [cholSnap, if_pos ⟨by simpa using ht', by simp; linarith⟩]
      ext i j; fin_cases i; fin_cases j; simp [setEntry]
    have e2 : setEntry !![0] (0 : Fin 1) 0 (sqrt 0) = !![0] := by
      ext i j; fin_cases i; fin_cases j; simp [setEntry, isSqrt_zero hs]
    have d : (!![0] : Matrix (Fin 1) (Fin 1) K) 0 0 = 0 := rfl
    simp only [cholesky, cholLoop, hf, e1]
    rw [d, e2, if_neg (lt_irrefl _)]
    simp [cholScale, cholReduce, zeroUpper, ha, hf]

example : PD (!![1 / 2 ^ 53] : Matrix (Fin 1) (Fin 1) ℝ) ∧
    cholesky Real.sqrt (1 / 2 ^ 52) !![(1 : ℝ) / 2 ^ 53] = (true, !![0]) :=
  C42_small_false realSqrt_isSqrt _ (by positivity) (by norm_num)

end BFL.Props
