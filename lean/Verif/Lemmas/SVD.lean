import Verif.Lemmas.SVDBidiag
import Verif.Spec.SVD

/-!
# Lemmas about the singular value decomposition: the whole function
-/

set_option linter.unusedSectionVars false

namespace BFL.SVD

open Finset Matrix

variable {m n : ℕ}

theorem prodTo_H_beyond (U : Arr2) (w : Arr) : ∀ d, prodTo (H m U w) (m + d) = prodTo (H m U w) m := by
  intro d
  induction d with
  | zero => rfl
  | succ d ih =>
    have h1 : H m U w (m + d + 1) = 1 := by
      unfold H
      refine refl_zero _ ?_
      funext a
      unfold cv
      rw [if_neg (by omega)]
      rfl
    rw [← Nat.add_assoc, prodTo, ih, h1, Matrix.mul_one]

theorem prodTo_H_min (U : Arr2) (w : Arr) :
    prodTo (H m U w) (min n m) = prodTo (H m U w) n := by
  rcases Nat.le_total n m with h | h
  · rw [Nat.min_eq_left h]
  · rw [Nat.min_eq_right h]
    obtain ⟨d, rfl⟩ : ∃ d, n = m + d := ⟨n - m, by omega⟩
    rw [prodTo_H_beyond]

theorem delta_mul {p : ℕ} (M : Arr2) :
    toMat m n delta * toMat n p M
      = toMat m p fun a b => if a ≤ n then M a b else 0 := by
  ext a b
  rw [mul_toMat]
  simp only [delta, ite_mul, one_mul, zero_mul]
  rw [Finset.sum_ite_eq (Icc 1 n) ((a : ℕ) + 1)]
  simp only [toMat, Finset.mem_Icc]
  refine if_congr ?_ rfl rfl
  omega

theorem delta_transpose : (toMat m n delta)ᵀ = toMat n m delta := by
  rw [transpose_toMat]
  congr 1
  funext a b
  unfold delta
  exact if_congr eq_comm rfl rfl

theorem bid_bound {N : ℝ} {w r : Arr} (hr : r 1 = 0) (hrn : r (n + 1) = 0)
    (h : ∀ k, 1 ≤ k → k ≤ n → |w k| + |r k| ≤ N) (x : Fin n → ℝ) :
    (toMat n n (bid w r) *ᵥ x) ⬝ᵥ (toMat n n (bid w r) *ᵥ x) ≤ 2 * (N * N) * (x ⬝ᵥ x) := by
  obtain ⟨y, hy⟩ : ∃ y : ℕ → ℝ, ∀ i : Fin n, y (i + 1) = x i :=
    ⟨fun k => if h : k - 1 < n then x ⟨k - 1, h⟩ else 0, fun i => by simp⟩
  have hrow : ∀ i : Fin n, (toMat n n (bid w r) *ᵥ x) i
      = w (i + 1) * y (i + 1) + r (i + 2) * y (i + 2) := by
    intro i
    have e : (toMat n n (bid w r) *ᵥ x) i = ∑ k ∈ Icc 1 n, bid w r (i + 1) k * y k := by
      rw [← sum_fin_eq n fun k => bid w r (i + 1) k * y k]
      simp only [mulVec, dotProduct, toMat, hy]
    rw [e]
    have e2 : ∀ k ∈ Icc 1 n, bid w r (i + 1) k * y k
        = (if (i : ℕ) + 1 = k then w k * y k else 0) + if (i : ℕ) + 2 = k then r k * y k else 0 := by
      intro k _
      unfold bid
      by_cases h1 : (i : ℕ) + 1 = k
      · rw [if_pos h1, if_pos h1, if_neg (by omega), h1]; ring
      · rw [if_neg h1, if_neg h1]
        by_cases h2 : (i : ℕ) + 2 = k
        · rw [if_pos (by omega), if_pos h2]; ring
        · rw [if_neg (by omega), if_neg h2]; ring
    rw [Finset.sum_congr rfl e2, Finset.sum_add_distrib, Finset.sum_ite_eq, Finset.sum_ite_eq,
      if_pos (Finset.mem_Icc.mpr ⟨by omega, by omega⟩)]
    congr 1
    by_cases h3 : (i : ℕ) + 2 ≤ n
    · rw [if_pos (Finset.mem_Icc.mpr ⟨by omega, h3⟩)]
    · rw [if_neg (by rw [Finset.mem_Icc]; omega), show (i : ℕ) + 2 = n + 1 by omega, hrn, zero_mul]
  have hxx : x ⬝ᵥ x = ∑ k ∈ Icc 1 n, y k * y k := by
    rw [← sum_fin_eq n fun k => y k * y k]
    simp only [dotProduct, hy]
  have hle : ∀ i : Fin n, (toMat n n (bid w r) *ᵥ x) i * (toMat n n (bid w r) *ᵥ x) i
      ≤ 2 * (w (i + 1) * y (i + 1) * (w (i + 1) * y (i + 1)))
        + 2 * (r (i + 1 + 1) * y (i + 1 + 1) * (r (i + 1 + 1) * y (i + 1 + 1))) := by
    intro i
    rw [hrow i]
    nlinarith [mul_self_nonneg (w (i + 1) * y (i + 1) - r (i + 2) * y (i + 2))]
  have hsum1 : (toMat n n (bid w r) *ᵥ x) ⬝ᵥ (toMat n n (bid w r) *ᵥ x)
      ≤ ∑ i : Fin n, 2 * (w (i + 1) * y (i + 1) * (w (i + 1) * y (i + 1)))
        + ∑ i : Fin n, 2 * (r (i + 1 + 1) * y (i + 1 + 1) * (r (i + 1 + 1) * y (i + 1 + 1))) := by
    rw [← Finset.sum_add_distrib]
    exact Finset.sum_le_sum fun i _ => hle i
  have hshift : ∑ i : Fin n, 2 * (r (i + 1 + 1) * y (i + 1 + 1) * (r (i + 1 + 1) * y (i + 1 + 1)))
      = ∑ k ∈ Icc 1 n, 2 * (r k * y k * (r k * y k)) := by
    rw [sum_fin_eq n fun k => 2 * (r (k + 1) * y (k + 1) * (r (k + 1) * y (k + 1)))]
    have e1 : ∑ k ∈ Icc 1 n, 2 * (r (k + 1) * y (k + 1) * (r (k + 1) * y (k + 1)))
        = ∑ k ∈ Icc 2 (n + 1), 2 * (r k * y k * (r k * y k)) := by
      refine Finset.sum_bij (fun k _ => k + 1) ?_ ?_ ?_ ?_
      · intro k hk; rw [Finset.mem_Icc] at hk ⊢; omega
      · intro a _ b _ h; omega
      · intro b hb
        rw [Finset.mem_Icc] at hb
        exact ⟨b - 1, by rw [Finset.mem_Icc]; omega, by omega⟩
      · intro k _; rfl
    rw [e1]
    have e2 : Icc 1 (n + 1) = insert 1 (Icc 2 (n + 1)) := by
      ext k; simp only [Finset.mem_insert, Finset.mem_Icc]; omega
    have e3 : Icc 1 (n + 1) = insert (n + 1) (Icc 1 n) := by
      ext k; simp only [Finset.mem_insert, Finset.mem_Icc]; omega
    have e4 := congrArg (fun s => ∑ k ∈ s, 2 * (r k * y k * (r k * y k))) (e2.symm.trans e3)
    rw [Finset.sum_insert (by simp), Finset.sum_insert (by simp), hr, hrn] at e4
    linarith
  rw [hshift, sum_fin_eq n fun k => 2 * (w k * y k * (w k * y k)), ← Finset.sum_add_distrib] at hsum1
  refine le_trans hsum1 ?_
  rw [hxx, Finset.mul_sum]
  refine Finset.sum_le_sum fun k hk => ?_
  have hk' := Finset.mem_Icc.mp hk
  have h1 := h k hk'.1 hk'.2
  have h2 : w k * w k + r k * r k ≤ N * N := by
    have ha := abs_nonneg (w k)
    have hb := abs_nonneg (r k)
    rw [← abs_mul_abs_self (w k), ← abs_mul_abs_self (r k)]
    nlinarith [mul_nonneg ha hb]
  nlinarith [mul_le_mul_of_nonneg_right h2 (mul_self_nonneg (y k))]

theorem toMat_toArr (A : Matrix (Fin m) (Fin n) ℝ) : toMat m n (toArr A) = A := by
  ext a b
  simp only [toMat, toArr]
  rw [dif_pos ⟨⟨by omega, by omega⟩, by omega, by omega⟩]
  rfl

theorem start_ok {A : Matrix (Fin m) (Fin n) ℝ} {st : Bi} (h : LoopInv A n st) (V0 : Arr2) :
    ∃ V U, loopDown (fun i V => rightStep n st.U i V (st.rv1 (i + 1))) n V0 = .ok V ∧
      loopDown (leftStep m n st.w) (min n m) st.U = .ok U ∧
      Inv A st.anorm n ⟨U, V, st.w, st.rv1⟩ := by
  have hb := h.bi
  have hp : pend n st = st.rv1 := upd_self (by rw [h.last rfl]; exact h.rest (n + 1) (by omega))
  rw [hp] at hb
  obtain ⟨V, eV, hV⟩ := rightLoop_ok hb.nzG V0
  obtain ⟨U, eU, hU⟩ := leftLoop_ok (m := m) (n := n) (U0 := st.U) (w := st.w)
    fun k h1 h2 => hb.nzH k h1 (by omega)
  have hrn : st.rv1 (n + 1) = 0 := h.rest (n + 1) (by omega)
  rw [prodTo_H_min] at hU
  refine ⟨V, U, eV, eU, ⟨?_, hb.r1, fun l hl => ⟨h.rest l hl, fun h => by omega⟩⟩⟩
  show Good A st.anorm (toMat m n U) (toMat n n (bid st.w st.rv1)) (toMat n n V)
  have oP := prodTo_orth (H_transpose m st.U st.w) hb.orthH
  have oQ := prodTo_orth (G_transpose n st.U st.rv1) hb.orthG
  have eA := hb.eq
  rw [hU, hV]
  generalize prodTo (H m st.U st.w) n = P at oP eA ⊢
  generalize prodTo (G n st.U st.rv1) n = Q at oQ eA ⊢
  have eB : toMat m n delta * toMat n n (bid st.w st.rv1)
      = toMat m n (bidTo n st.U st.w st.rv1) := by
    rw [delta_mul]
    ext a b
    simp only [toMat, bidTo]
    rw [if_pos (by omega : (a : ℕ) + 1 ≤ n ∨ (b : ℕ) + 1 ≤ n)]
    split
    · rfl
    · unfold bid
      rw [if_neg (by omega), if_neg (by omega)]
  have eU : ∀ {p : ℕ} (X : Matrix (Fin n) (Fin p) ℝ), (P * toMat m n delta)ᵀ * (P * toMat m n delta) * X
      = toMat n m delta * (toMat m n delta * X) := by
    intro p X
    rw [transpose_mul, delta_transpose, Matrix.mul_assoc, Matrix.mul_assoc, Matrix.mul_assoc,
      ← Matrix.mul_assoc Pᵀ, oP, Matrix.one_mul]
  refine ⟨?_, oQ, ?_, ?_, ?_⟩
  · rw [eA, Matrix.mul_assoc P (toMat m n delta), eB]
  · rw [eU, eB, delta_mul]
    ext a b
    simp only [toMat, bidTo]
    rw [if_pos (by omega : (a : ℕ) + 1 ≤ n ∨ (b : ℕ) + 1 ≤ n)]
    split
    · rfl
    · rename_i hm
      unfold bid
      rw [hb.wz _ (by omega) (by omega)]
      split
      · rfl
      · split
        · rename_i h2
          rw [hb.rz _ (Or.inl (by omega))]
        · rfl
  · intro hnm
    have := eU (1 : Matrix (Fin n) (Fin n) ℝ)
    rw [Matrix.mul_one, Matrix.mul_one, delta_mul] at this
    rw [this, ← toMat_delta]
    ext a b
    simp only [toMat]
    rw [if_pos (by omega)]
  · exact bid_bound hb.r1 hrn h.norm

open Spec in
theorem Good.isSVD {A : Matrix (Fin m) (Fin n) ℝ} {N : ℝ} {d : Diag} (h : Inv A N 0 d) :
    IsSVD A (toMat m n d.U) (fun i => d.w (i + 1)) (toMat n n d.V) := by
  have e : toMat n n (bid d.w d.rv1) = diagonal fun i : Fin n => d.w (i + 1) := by
    ext a b
    simp only [toMat, bid, diagonal_apply, Fin.ext_iff, Nat.add_right_cancel_iff]
    split
    · rfl
    · rw [(h.tail _ (by omega)).1, ite_self]
  have hg := h.good
  rw [e] at hg
  refine ⟨hg.eq, fun i => (h.tail _ (by omega)).2 (by omega), hg.orthV, ?_, hg.orthU⟩
  intro i j hj
  have := congrFun (congrFun hg.proj i) j
  rw [mul_diagonal, diagonal_apply] at this
  split
  · rename_i hij
    rw [if_pos hij, hij] at this
    rw [hij]
    exact mul_right_cancel₀ hj (by rw [this, one_mul])
  · rename_i hij
    rw [if_neg hij] at this
    exact (mul_eq_zero.mp this).resolve_right hj

open Spec in
theorem svd_ok (A : Matrix (Fin m) (Fin n) ℝ) (w0 : Arr) (V0 : Arr2) :
    ∃ o, svd m n (toArr A) w0 V0 = .ok o ∧ ∀ U w V, o = some (U, w, V) →
      IsSVD A (toMat m n U) (fun i => w (i + 1)) (toMat n n V) := by
  obtain ⟨st, e1, h1⟩ := biLoop_ok A (toArr A) (toMat_toArr A) w0
  obtain ⟨V, U, e2, e3, h2⟩ := start_ok h1 V0
  obtain ⟨o, e4, h3⟩ := diagonalise_ok h1.norm0 n ⟨U, V, st.w, st.rv1⟩ le_rfl h2
  refine ⟨o.map fun d => (d.U, d.w, d.V), ?_, ?_⟩
  · unfold svd
    simp only [e1, Outcome.ok_bind, e2, e3, e4, Outcome.pure_eq]
  · intro U' w' V' h
    cases o with
    | none => cases h
    | some d =>
      simp only [Option.map_some, Option.some.injEq, Prod.mk.injEq] at h
      obtain ⟨rfl, rfl, rfl⟩ := h
      exact Good.isSVD (h3 d rfl)

end BFL.SVD
