import Verif.Lemmas.Cholesky
import Mathlib.Tactic.NormNum

set_option linter.unusedSectionVars false

namespace BFL

open Matrix Spec

variable {K : Type} [Field K] [LinearOrder K] [IsStrictOrderedRing K] {n : Nat}

theorem finished_full (a : Matrix (Fin n) (Fin n) K) (i j : Fin n) :
    finished n a i j = if j ≤ i then a i j else 0 := by
  simp [finished]

theorem finished_lower (a : Matrix (Fin n) (Fin n) K) : LowerTriangular (finished n a) := by
  intro i j h
  rw [finished_full, if_neg (not_le_of_gt h)]

theorem finished_diag (a : Matrix (Fin n) (Fin n) K) (j : Fin n) : finished n a j j = a j j := by
  rw [finished_full, if_pos le_rfl]

/-- A positive semidefinite form bounds its mixed entries. -/
theorem cauchy_entries {S : Matrix (Fin n) (Fin n) K} (hS : Sᵀ = S) (i k : Fin n)
    (h : ∀ s t : K, 0 ≤ (s • Pi.single i 1 + t • Pi.single k 1) ⬝ᵥ
      (S *ᵥ (s • Pi.single i 1 + t • Pi.single k 1))) :
    S i k * S i k ≤ S k k * S i i := by
  have e : ∀ t : K, 0 ≤ S k k * (t * t) + (2 * S i k) * t + S i i := by
    intro t
    have := h 1 t
    rw [quad_shift hS, one_smul] at this
    have e1 : (Pi.single i 1 : Fin n → K) ⬝ᵥ (S *ᵥ Pi.single i 1) = S i i := by
      rw [single_dotProduct, one_mul, mulVec_single_one]; rfl
    have e2 : (S *ᵥ Pi.single i 1) k = S i k := by
      rw [mulVec_single_one]; exact congrFun (congrFun hS i) k
    rw [e1, e2] at this
    linarith
  have := discrim_le_zero (a := S k k) (b := 2 * S i k) (c := S i i) e
  rw [discrim] at this
  nlinarith

/-- The pivots of a positive semidefinite matrix are never negative. -/
theorem cholesky_psd {sqrt : K → K} {eps : K} (hs : IsSqrt sqrt) (h0 : 0 < eps) (h1 : eps ≤ 1)
    {A : Matrix (Fin n) (Fin n) K} (hA : PSD A) :
    ∃ a, cholesky sqrt eps A = (true, finished n a) ∧ CholInv eps A n a := by
  rcases cholesky_true hs h0 h1 hA.1 with h | ⟨_, j, b, hb, hneg⟩
  · exact h
  · obtain ⟨x, _, hx⟩ := hb.pivot j le_rfl
    rw [hb.rest j j le_rfl le_rfl, ← hx] at hneg
    have := hA.2 x
    linarith

theorem CholInv.exact {eps : K} {A a : Matrix (Fin n) (Fin n) K} (h : CholInv eps A n a)
    {i j : Fin n} (hij : j ≤ i) (hj : a j j ≠ 0) :
    (finished n a * (finished n a)ᵀ) i j = A i j := by
  obtain ⟨_, ⟨_, h2⟩ | ⟨h2, _⟩⟩ := h.done i j hij j.isLt
  · rw [residual, Matrix.sub_apply] at h2
    linarith
  · exact absurd h2 hj

/-- The diagonal of the residual only shrinks. -/
theorem residual_diag_le (A a : Matrix (Fin n) (Fin n) K) (k : Nat) (i : Fin n) :
    residual A k a i i ≤ A i i := by
  rw [residual, Matrix.sub_apply, Matrix.mul_apply]
  have : 0 ≤ ∑ c, finished k a i c * (finished k a)ᵀ c i :=
    Finset.sum_nonneg fun c _ => mul_self_nonneg _
  linarith

/-- The residual of a positive semidefinite matrix after the whole factorisation, entry by
entry. -/
structure CholErr (eps : K) (A : Matrix (Fin n) (Fin n) K) (k : Nat)
    (a : Matrix (Fin n) (Fin n) K) : Prop where
  inv : CholInv eps A k a
  err : ∀ i j, j ≤ i → j.val < k → residual A k a i j * residual A k a i j ≤ eps * A i i

theorem cholErr_step {sqrt : K → K} {eps : K} (hs : IsSqrt sqrt) (h0 : 0 < eps) (h1 : eps ≤ 1)
    {A : Matrix (Fin n) (Fin n) K} (hA : PSD A) {a : Matrix (Fin n) (Fin n) K} {k : Fin n}
    (h : CholErr eps A k.val a) (hp : ¬ snapped eps (a k k) < 0) :
    CholErr eps A (k.val + 1) (cholStep sqrt eps a k) := by
  refine ⟨cholInv_step hs h0 h1 hA.1 h.inv hp, ?_⟩
  intro i j hij hj
  have hr := residual_step sqrt eps A a k
  have hnn : ∀ i, 0 ≤ A i i := by
    intro i
    have := hA.2 (Pi.single i 1)
    rw [single_dotProduct, one_mul, mulVec_single_one] at this
    exact this
  rcases Nat.lt_succ_iff_lt_or_eq.mp hj with hlt | heq
  · have hn : ¬ k ≤ j := not_le_of_gt (show j < k from hlt)
    rw [hr, if_neg hn, mul_zero, sub_zero]
    exact h.err i j hij hlt
  · have : j = k := Fin.ext heq
    subst this
    rw [hr, if_pos hij, if_pos le_rfl]
    rcases cholCol_cases hs h0 h1 a j hp with ⟨h2, h3, h4⟩ | ⟨h2, r, h3, h4, h5⟩
    · rw [h4 i, zero_mul, sub_zero]
      have hjj : residual A j.val a j j < eps := by
        rw [← h.inv.rest j j le_rfl le_rfl]; exact h3
      have hle := residual_diag_le A a j.val i
      obtain ⟨x, _, hx⟩ := h.inv.pivot j le_rfl
      have hjn : 0 ≤ residual A j.val a j j := by rw [← hx]; exact hA.2 x
      obtain ⟨x', _, hx'⟩ := h.inv.pivot i hij
      have hin : 0 ≤ residual A j.val a i i := by rw [← hx']; exact hA.2 x'
      by_cases e : i = j
      · subst e
        nlinarith
      · have hc := cauchy_entries (residual_symm hA.1 j.val a) i j (by
          intro s t
          obtain ⟨x, _, hx⟩ := h.inv.reach (s • Pi.single i 1 + t • Pi.single j 1) (by
            intro c hc
            have e1 : c ≠ j := fun e => by subst e; omega
            have e2 : c ≠ i := fun e => by
              subst e
              have : j.val ≤ c.val := hij
              omega
            simp [e1, e2])
          rw [← hx]; exact hA.2 x)
        calc _ ≤ residual A j.val a j j * residual A j.val a i i := hc
          _ ≤ eps * A i i := mul_le_mul hjj.le hle hin h0.le
    · have hjr : a j j / r = r := by rw [div_eq_iff h3.ne', h4]
      rw [h5, h5, hjr, ← h.inv.rest i j hij le_rfl, div_mul_cancel₀ _ h3.ne', sub_self]
      simpa using mul_nonneg h0.le (hnn i)

theorem cholesky_err {sqrt : K → K} {eps : K} (hs : IsSqrt sqrt) (h0 : 0 < eps) (h1 : eps ≤ 1)
    {A : Matrix (Fin n) (Fin n) K} (hA : PSD A) :
    ∃ a, cholesky sqrt eps A = (true, finished n a) ∧ CholErr eps A n a := by
  rcases cholesky_induct (sqrt := sqrt) h0 (CholErr eps A)
    ⟨cholInv_init eps A, fun i j _ h => absurd h (Nat.not_lt_zero _)⟩
    (fun k a h hp => cholErr_step hs h0 h1 hA h hp) with h | ⟨_, j, b, hb, hneg⟩
  · exact h
  · obtain ⟨x, _, hx⟩ := hb.inv.pivot j le_rfl
    rw [hb.inv.rest j j le_rfl le_rfl, ← hx] at hneg
    have := hA.2 x
    linarith

/-- With all eigenvalues at least `eps` no pivot is dropped. -/
structure CholPos (eps : K) (A : Matrix (Fin n) (Fin n) K) (k : Nat)
    (a : Matrix (Fin n) (Fin n) K) : Prop where
  inv : CholInv eps A k a
  pos : ∀ j : Fin n, j.val < k → 0 < a j j

theorem cholPos_pivot {eps : K} (h0 : 0 < eps) {A a : Matrix (Fin n) (Fin n) K}
    (hA : PSD (A - eps • (1 : Matrix (Fin n) (Fin n) K))) {k : Fin n} (h : CholInv eps A k.val a) :
    eps ≤ a k k := by
  obtain ⟨x, hx1, hx2⟩ := h.pivot k le_rfl
  rw [h.rest k k le_rfl le_rfl, ← hx2]
  have h2 := hA.2 x
  rw [sub_mulVec, dotProduct_sub, smul_mulVec, one_mulVec, dotProduct_smul, smul_eq_mul] at h2
  have h3 : 1 ≤ x ⬝ᵥ x := by
    rw [dotProduct]
    calc (1 : K) = x k * x k := by rw [hx1]; ring
      _ ≤ ∑ i, x i * x i :=
        Finset.single_le_sum (f := fun i => x i * x i) (fun i _ => mul_self_nonneg _)
          (Finset.mem_univ k)
  nlinarith

theorem cholPos_step {sqrt : K → K} {eps : K} (hs : IsSqrt sqrt) (h0 : 0 < eps) (h1 : eps ≤ 1)
    {A : Matrix (Fin n) (Fin n) K} (hA : PSD (A - eps • (1 : Matrix (Fin n) (Fin n) K)))
    (hsym : Aᵀ = A) {a : Matrix (Fin n) (Fin n) K} {k : Fin n}
    (h : CholPos eps A k.val a) (hp : ¬ snapped eps (a k k) < 0) :
    CholPos eps A (k.val + 1) (cholStep sqrt eps a k) := by
  refine ⟨cholInv_step hs h0 h1 hsym h.inv hp, fun j hj => ?_⟩
  rw [cholStep_apply sqrt eps a k j j le_rfl]
  rcases Nat.lt_succ_iff_lt_or_eq.mp hj with hlt | heq
  · rw [if_pos (show j < k from hlt)]; exact h.pos j hlt
  · have : j = k := Fin.ext heq
    subst this
    rw [if_neg (lt_irrefl _), if_pos rfl]
    have hpiv := cholPos_pivot h0 hA h.inv
    rcases cholCol_cases hs h0 h1 a j hp with ⟨_, h3, _⟩ | ⟨_, r, h3, h4, h5⟩
    · linarith
    · rw [h5, ← h4]; exact div_pos (mul_pos h3 h3) h3

theorem cholesky_pos {sqrt : K → K} {eps : K} (hs : IsSqrt sqrt) (h0 : 0 < eps) (h1 : eps ≤ 1)
    {A : Matrix (Fin n) (Fin n) K} (hA : PSD (A - eps • (1 : Matrix (Fin n) (Fin n) K)))
    (hsym : Aᵀ = A) :
    ∃ a, cholesky sqrt eps A = (true, finished n a) ∧ CholPos eps A n a := by
  rcases cholesky_induct (sqrt := sqrt) h0 (CholPos eps A)
    ⟨cholInv_init eps A, fun j h => absurd h (Nat.not_lt_zero _)⟩
    (fun k a h hp => cholPos_step hs h0 h1 hA hsym h hp) with h | ⟨_, j, b, hb, hneg⟩
  · exact h
  · have := cholPos_pivot h0 hA hb.inv
    linarith

/-- Lower and upper parts of a symmetric product agree. -/
theorem eq_of_lower {A B : Matrix (Fin n) (Fin n) K} (hA : Aᵀ = A) (hB : Bᵀ = B)
    (h : ∀ i j, j ≤ i → A i j = B i j) : A = B := by
  ext i j
  rcases le_total j i with hij | hij
  · exact h i j hij
  · have e1 : A i j = A j i := congrFun (congrFun hA j) i |>.symm ▸ rfl
    have e2 : B i j = B j i := congrFun (congrFun hB j) i |>.symm ▸ rfl
    rw [e1, e2]; exact h j i hij

theorem mul_transpose_symm (L : Matrix (Fin n) (Fin n) K) : (L * Lᵀ)ᵀ = L * Lᵀ := by
  rw [transpose_mul, transpose_transpose]

/-- State of the factorisation of `L * Lᵀ` after `k` columns. -/
structure CholTrip (L : Matrix (Fin n) (Fin n) K) (k : Nat) (a : Matrix (Fin n) (Fin n) K) :
    Prop where
  fin : ∀ i j, j ≤ i → j.val < k → a i j = L i j
  rest : ∀ i j, j ≤ i → k ≤ j.val → a i j = ∑ c, if k ≤ c.val then L i c * L j c else 0

theorem cholTrip_pivot {L a : Matrix (Fin n) (Fin n) K} (hL : LowerTriangular L) {k : Fin n}
    (h : CholTrip L k.val a) (i : Fin n) (hi : k ≤ i) : a i k = L i k * L k k := by
  rw [h.rest i k hi le_rfl, Finset.sum_eq_single k]
  · simp
  · intro c _ hc
    split
    · next h1 =>
      have : k < c := lt_of_le_of_ne (show k ≤ c from h1) hc.symm
      rw [hL k c this, mul_zero]
    · rfl
  · simp

theorem cholTrip_step {sqrt : K → K} {eps : K} (hs : IsSqrt sqrt) (h0 : 0 < eps) (h1 : eps ≤ 1)
    {L : Matrix (Fin n) (Fin n) K} (hL : LowerTriangular L)
    (hd : ∀ j, (∀ i, L i j = 0) ∨ (0 < L j j ∧ eps ≤ L j j * L j j))
    {a : Matrix (Fin n) (Fin n) K} {k : Fin n}
    (h : CholTrip L k.val a) (hp : ¬ snapped eps (a k k) < 0) :
    CholTrip L (k.val + 1) (cholStep sqrt eps a k) := by
  have hcol : ∀ i, k ≤ i → cholCol sqrt eps a k i = L i k := by
    intro i hi
    rcases cholCol_cases hs h0 h1 a k hp with ⟨_, h3, h4⟩ | ⟨h2, r, h3, h4, h5⟩
    · rw [h4]
      rcases hd k with hz | ⟨_, hz⟩
      · exact (hz i).symm
      · rw [cholTrip_pivot hL h k le_rfl] at h3; linarith
    · rw [cholTrip_pivot hL h k le_rfl] at h2 h4
      rcases hd k with hz | ⟨hz, _⟩
      · rw [hz k] at h2; linarith
      · have : r = L k k := by
          have : (r - L k k) * (r + L k k) = 0 := by linear_combination h4
          rcases mul_eq_zero.mp this with e | e <;> linarith
        rw [h5, cholTrip_pivot hL h i hi, this, mul_div_assoc, div_self hz.ne', mul_one]
  constructor
  · intro i j hij hj
    rw [cholStep_apply sqrt eps a k i j hij]
    rcases Nat.lt_succ_iff_lt_or_eq.mp hj with hlt | heq
    · rw [if_pos (show j < k from hlt)]; exact h.fin i j hij hlt
    · have : j = k := Fin.ext heq
      subst this
      rw [if_neg (lt_irrefl _), if_pos rfl, hcol i hij]
  · intro i j hij hj
    have hkj : k < j := hj
    rw [cholStep_apply sqrt eps a k i j hij, if_neg (not_lt_of_gt hkj), if_neg hkj.ne',
      h.rest i j hij (Nat.le_of_succ_le hj), hcol i (hkj.le.trans hij), hcol j hkj.le]
    have e : ∀ c : Fin n, (if k.val ≤ c.val then L i c * L j c else 0) =
        (if k.val + 1 ≤ c.val then L i c * L j c else 0) + if c = k then L i k * L j k else 0 := by
      intro c
      by_cases hc : c = k
      · subst hc; simp
      · have : c.val ≠ k.val := fun e => hc (Fin.ext e)
        by_cases hc2 : k.val ≤ c.val
        · rw [if_pos hc2, if_pos (by omega), if_neg hc, add_zero]
        · rw [if_neg hc2, if_neg (by omega), if_neg hc, add_zero]
    simp only [e]
    rw [Finset.sum_add_distrib, Finset.sum_ite_eq' Finset.univ k]
    simp only [Finset.mem_univ, if_true]
    ring

theorem cholesky_trip {sqrt : K → K} {eps : K} (hs : IsSqrt sqrt) (h0 : 0 < eps) (h1 : eps ≤ 1)
    {L : Matrix (Fin n) (Fin n) K} (hL : LowerTriangular L)
    (hd : ∀ j, (∀ i, L i j = 0) ∨ (0 < L j j ∧ eps ≤ L j j * L j j)) :
    cholesky sqrt eps (L * Lᵀ) = (true, L) := by
  rcases cholesky_induct (sqrt := sqrt) (A := L * Lᵀ) h0 (CholTrip L)
    ⟨fun i j _ h => absurd h (Nat.not_lt_zero _), fun i j _ _ => by simp [Matrix.mul_apply]⟩
    (fun k a h hp => cholTrip_step hs h0 h1 hL hd h hp) with ⟨a, ha, hi⟩ | ⟨_, j, b, hb, hneg⟩
  · rw [ha]
    refine congrArg (Prod.mk true) ?_
    ext i j
    rw [finished_full]
    split
    · next h => exact hi.fin i j h j.isLt
    · next h => exact (hL i j (lt_of_not_ge h)).symm
  · rw [cholTrip_pivot hL hb j le_rfl] at hneg
    have := mul_self_nonneg (L j j)
    linarith

end BFL
