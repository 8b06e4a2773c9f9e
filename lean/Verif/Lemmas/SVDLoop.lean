import Verif.Lemmas.SVDIterate

/-!
# Lemmas about the singular value decomposition: the loops of the diagonalisation
-/

set_option linter.unusedSectionVars false

namespace BFL.SVD

open Finset Matrix

variable {m n : ℕ}

/-- Entries of the arrays that the code divides by. -/
def NZ (p k : ℕ) (w r : Arr) : Prop := ∀ l, p < l → l ≤ k → r l ≠ 0 ∧ w (l - 1) ≠ 0

/-- The part that is already diagonal. -/
def Tail (n k : ℕ) (w r : Arr) : Prop := ∀ l, k < l → r l = 0 ∧ (l ≤ n → 0 ≤ w l)

/-- What holds at the head of every iteration for `k`. -/
structure Inv (A : Matrix (Fin m) (Fin n) ℝ) (N : ℝ) (k : ℕ) (d : Diag) : Prop where
  good : Good A N (toMat m n d.U) (toMat n n (bid d.w d.rv1)) (toMat n n d.V)
  first : d.rv1 1 = 0
  tail : Tail n k d.w d.rv1

theorem upd_self {v : Arr} {i : ℕ} {x : ℝ} (h : v i = x) : upd v i x = v := by
  funext j
  unfold upd
  split
  · rename_i hj; rw [hj, h]
  · rfl

theorem upd_same (v : Arr) (i : ℕ) (x : ℝ) : upd v i x i = x := if_pos rfl

theorem upd_ne {v : Arr} {i j : ℕ} {x : ℝ} (h : j ≠ i) : upd v i x j = v j := if_neg h

theorem toMat_bid_diag (w r : Arr) (i : Fin n) : toMat n n (bid w r) i i = w (i + 1) := by
  simp [toMat, bid]

theorem Good.diag {A : Matrix (Fin m) (Fin n) ℝ} {N : ℝ} {U : Matrix (Fin m) (Fin n) ℝ}
    {V : Matrix (Fin n) (Fin n) ℝ} {w r : Arr} (h : Good A N U (toMat n n (bid w r)) V) {l : ℕ}
    (h1 : 1 ≤ l) (h2 : l ≤ n) : w l * w l ≤ 2 * (N * N) := by
  have := h.entry ⟨l - 1, by omega⟩ ⟨l - 1, by omega⟩
  rw [toMat_bid_diag] at this
  simpa [Nat.sub_add_cancel h1] using this

/-! ## Looking for the split -/

theorem findSplit_ok {N : ℝ} (hN : 0 ≤ N) {w r : Arr} (h1 : r 1 = 0) :
    ∀ k, 1 ≤ k → (∀ l, 1 ≤ l → l ≤ k → w l * w l ≤ 2 * (N * N)) →
    ∃ p fl, findSplit N w r k = .ok (p, fl) ∧ 1 ≤ p ∧ p ≤ k ∧ NZ p k w r ∧
      (fl = false → r p = 0) ∧ (fl = true → 2 ≤ p ∧ w (p - 1) = 0) := by
  intro k
  induction k with
  | zero => intro h; omega
  | succ k ih =>
    intro _ hb
    unfold findSplit
    by_cases hr : |r (k + 1)| + N = N
    · refine ⟨k + 1, false, by rw [if_pos hr], by omega, le_rfl, ?_, ?_, ?_⟩
      · intro l h2 h3; omega
      · intro _
        have : |r (k + 1)| = 0 := by linarith
        exact abs_eq_zero.mp this
      · intro h; cases h
    · have hr0 : r (k + 1) ≠ 0 := by
        intro h; apply hr; rw [h, abs_zero, zero_add]
      have hk : k ≠ 0 := by
        rintro rfl; exact hr0 h1
      rw [if_neg hr, if_neg hk]
      by_cases hw : |w k + N| = N
      · refine ⟨k + 1, true, by rw [if_pos hw], by omega, le_rfl, ?_, ?_, ?_⟩
        · intro l h2 h3; omega
        · intro h; cases h
        · intro _
          refine ⟨by omega, ?_⟩
          have hb' := hb k (by omega) (by omega)
          have h2 : (w k + N) * (w k + N) = N * N := by
            rw [← abs_mul_abs_self, hw]
          have h3 : w k * (w k + 2 * N) = 0 := by linarith
          rw [Nat.add_sub_cancel]
          rcases mul_eq_zero.mp h3 with h4 | h4
          · exact h4
          · have h5 : w k = -2 * N := by linarith
            rw [h5] at hb' ⊢
            have : N * N = 0 := le_antisymm (by linarith) (mul_self_nonneg N)
            rw [mul_self_eq_zero.mp this, mul_zero]
      · have hw0 : w k ≠ 0 := by
          intro h
          apply hw
          rw [h, zero_add, abs_of_nonneg hN]
        rw [if_neg hw]
        obtain ⟨p, fl, e, h2, h3, h4, h5, h6⟩ := ih (by omega) fun l h2 h3 => hb l h2 (by omega)
        refine ⟨p, fl, e, h2, by omega, ?_, h5, h6⟩
        intro l h7 h8
        rcases Nat.lt_or_ge l (k + 1) with h9 | h9
        · exact h4 l h7 (by omega)
        · have : l = k + 1 := by omega
          subst this
          exact ⟨hr0, by rw [Nat.add_sub_cancel]; exact hw0⟩

/-! ## Cancellation -/

theorem cancel_ok {A : Matrix (Fin m) (Fin n) ℝ} {N : ℝ} {nm k : ℕ} (hnm : 1 ≤ nm) (hk : k ≤ n) :
    ∀ (cnt i : ℕ) (c s : ℝ) (d : Diag), cnt + i = k + 1 → nm < i →
      Good A N (toMat m n d.U) (toMat n n (cancelB nm i c s d.w d.rv1)) (toMat n n d.V) →
      d.w nm = 0 → upd d.rv1 i (c * d.rv1 i) (nm + 1) = 0 → (i = nm + 1 ∨ c ≠ 0 ∨ k < i) →
      NZ (nm + 1) k d.w d.rv1 → Tail n k d.w d.rv1 → d.rv1 1 = 0 →
      ∃ d', cancel N nm cnt i c s d = .ok d' ∧ Inv A N k d' ∧ NZ (nm + 1) k d'.w d'.rv1 ∧
        d'.rv1 (nm + 1) = 0 := by
  intro cnt
  induction cnt with
  | zero =>
    intro i c s d hi hni hg hw hr hc hnz ht h1
    have hri : d.rv1 i = 0 := (ht i (by omega)).1
    have e : upd d.rv1 i (c * d.rv1 i) = d.rv1 := upd_self (by rw [hri, mul_zero])
    refine ⟨d, rfl, ⟨?_, h1, ht⟩, hnz, ?_⟩
    · rw [cancelB_done (by rw [hri, mul_zero]), e] at hg
      exact hg
    · rw [← hr, e]
  | succ cnt ih =>
    intro i c s d hi hni hg hw hr hc hnz ht h1
    have hnz' : NZ (nm + 1) k d.w (upd d.rv1 i (c * d.rv1 i)) := by
      intro l h2 h3
      refine ⟨?_, (hnz l h2 h3).2⟩
      by_cases hl : l = i
      · subst hl
        rw [upd_same]
        rcases hc with hc | hc | hc
        · omega
        · exact mul_ne_zero hc (hnz l h2 h3).1
        · omega
      · rw [upd_ne hl]; exact (hnz l h2 h3).1
    have ht' : Tail n k d.w (upd d.rv1 i (c * d.rv1 i)) := by
      intro l hl
      rw [upd_ne (by omega)]; exact ht l hl
    have h1' : upd d.rv1 i (c * d.rv1 i) 1 = 0 := by rw [upd_ne (by omega)]; exact h1
    unfold cancel
    by_cases hf : |s * d.rv1 i| + N = N
    · have hf0 : s * d.rv1 i = 0 := abs_eq_zero.mp (by linarith)
      rw [cancelB_done hf0] at hg
      refine ⟨{ d with rv1 := upd d.rv1 i (c * d.rv1 i) }, ?_, ⟨hg, h1', ht'⟩, hnz', hr⟩
      simp only [if_pos hf]
    · have hf0 : s * d.rv1 i ≠ 0 := by
        intro h; apply hf; rw [h, abs_zero, zero_add]
      have hh : pythag (s * d.rv1 i) (d.w i) ≠ 0 := fun h => hf0 (pythag_eq_zero.mp h).1
      have hsq := pythag_mul_self (s * d.rv1 i) (d.w i)
      simp only [if_neg hf, nonzero_of hh, Outcome.ok_bind]
      generalize pythag (s * d.rv1 i) (d.w i) = h at hh hsq ⊢
      generalize hc' : d.w i * (1 / h) = c'
      generalize hs' : -(s * d.rv1 i) * (1 / h) = s'
      have hcs : c' * c' + s' * s' = 1 := by
        rw [← hc', ← hs']; field_simp; linarith
      have e1 : s * d.rv1 i * c' + d.w i * s' = 0 := by
        rw [← hc', ← hs']; ring
      have e2 : d.w i * c' - s * d.rv1 i * s' = h := by
        rw [← hc', ← hs']; field_simp; linarith
      have hj : 1 ≤ nm ∧ nm ≤ n := ⟨hnm, by omega⟩
      have hi' : 1 ≤ i ∧ i ≤ n := ⟨by omega, by omega⟩
      have hg' := hg.left (rotM_transpose_mul hj hi' (by omega) hcs)
      rw [← toMat_rot _ _ _ hj hi', ← toMat_rotR _ _ _ hj hi', ← cancelB_step hni hw hr e1 e2] at hg'
      refine ih (i + 1) c' s' ⟨rot d.U nm i c' s', d.V, upd d.w i h, upd d.rv1 i (c * d.rv1 i)⟩
        (by omega) (by omega) hg' ?_ ?_ ?_ ?_ ?_ h1'
      · show upd d.w i h nm = 0
        rw [upd_ne (by omega)]; exact hw
      · show upd (upd d.rv1 i (c * d.rv1 i)) (i + 1) _ (nm + 1) = 0
        rw [upd_ne (by omega)]; exact hr
      · rcases Nat.lt_or_ge i k with hik | hik
        · right; left
          rw [← hc']
          refine mul_ne_zero ?_ (one_div_ne_zero hh)
          have := (hnz (i + 1) (by omega) (by omega)).2
          rwa [Nat.add_sub_cancel] at this
        · right; right; omega
      · intro l h2 h3
        refine ⟨(hnz' l h2 h3).1, ?_⟩
        show upd d.w i h (l - 1) ≠ 0
        by_cases hl : l - 1 = i
        · rw [hl, upd_same]; exact hh
        · rw [upd_ne hl]; exact (hnz l h2 h3).2
      · intro l hl
        refine ⟨(ht' l hl).1, fun h2 => ?_⟩
        show 0 ≤ upd d.w i h l
        rw [upd_ne (by omega)]; exact (ht l hl).2 h2

/-! ## The QR step -/

theorem chase_ok {A : Matrix (Fin m) (Fin n) ℝ} {N : ℝ} {ppi k : ℕ} (hp : 1 ≤ ppi) (hpk : ppi < k)
    (hk : k ≤ n) :
    ∀ (cnt j : ℕ) (c s f x : ℝ) (d : Diag), cnt + j = k → ppi ≤ j →
      Good A N (toMat m n d.U) (toMat n n (chaseB ppi j c s f x d.w d.rv1)) (toMat n n d.V) →
      (j < k → s ≠ 0) → (∀ l, j < l → l ≤ k → d.rv1 l ≠ 0) → (∀ l, j < l → l < k → d.w l ≠ 0) →
      Tail n k d.w d.rv1 → (ppi ≠ 1 → d.rv1 1 = 0) →
      ∃ d', chase ppi k cnt j c s f x d = .ok d' ∧ Inv A N k d' := by
  intro cnt
  induction cnt with
  | zero =>
    intro j c s f x d hj hpj hg _ _ _ ht h1
    have hj : j = k := by omega
    subst hj
    refine ⟨_, rfl, ⟨?_, ?_, ?_⟩⟩
    · show Good A N _ (toMat n n (bid (upd d.w j x) (upd (upd d.rv1 ppi 0) j f))) _
      rw [chaseB_done hpk (ht (j + 1) (by omega)).1 (c := c) (s := s)]
      exact hg
    · show upd (upd d.rv1 ppi 0) j f 1 = 0
      rw [upd_ne (by omega)]
      by_cases h : ppi = 1
      · rw [h, upd_same]
      · rw [upd_ne (Ne.symm h)]; exact h1 h
    · intro l hl
      show upd (upd d.rv1 ppi 0) j f l = 0 ∧ (l ≤ n → 0 ≤ upd d.w j x l)
      rw [upd_ne (by omega), upd_ne (by omega), upd_ne (by omega)]
      exact ht l hl
  | succ cnt ih =>
    intro j c s f x d hj hpj hg hs hr hw ht h1
    have hh : s * d.rv1 (j + 1) ≠ 0 :=
      mul_ne_zero (hs (by omega)) (hr (j + 1) (by omega) (by omega))
    have hz : pythag f (s * d.rv1 (j + 1)) ≠ 0 := fun h => hh (pythag_eq_zero.mp h).2
    have hsq := pythag_mul_self f (s * d.rv1 (j + 1))
    simp only [chase, rotation, nonzero_of hz, Outcome.ok_bind, Outcome.pure_eq]
    generalize pythag f (s * d.rv1 (j + 1)) = z1 at hz hsq ⊢
    generalize hc1 : f / z1 = c1
    generalize hs1 : s * d.rv1 (j + 1) / z1 = s1
    have hs1' : s1 ≠ 0 := by rw [← hs1]; exact div_ne_zero hh hz
    have hcs1 : c1 * c1 + s1 * s1 = 1 := by
      rw [← hc1, ← hs1]; field_simp; linarith
    have e1 : f * c1 + s * d.rv1 (j + 1) * s1 = z1 := by
      rw [← hc1, ← hs1]; field_simp; linarith
    have e2 : s * d.rv1 (j + 1) * c1 - f * s1 = 0 := by
      rw [← hc1, ← hs1]; ring
    generalize hf2 : x * c1 + c * d.rv1 (j + 1) * s1 = f2
    generalize hg2 : c * d.rv1 (j + 1) * c1 - x * s1 = g2
    generalize hh2 : d.w (j + 1) * s1 = h2
    generalize hy2 : d.w (j + 1) * c1 = y2
    obtain ⟨z2, c2, s2, hq, hcs2, e3, e4, hs2⟩ : ∃ z2 c2 s2, rotation2 f2 h2 c1 s1 = (z2, c2, s2) ∧
        c2 * c2 + s2 * s2 = 1 ∧ f2 * c2 + h2 * s2 = z2 ∧ h2 * c2 - f2 * s2 = 0 ∧
        (h2 ≠ 0 → s2 ≠ 0) := by
      have hsq2 := pythag_mul_self f2 h2
      unfold rotation2
      by_cases hz2 : pythag f2 h2 = 0
      · obtain ⟨ha, hb⟩ := pythag_eq_zero.mp hz2
        refine ⟨0, c1, s1, ?_, hcs1, by rw [ha, hb]; ring, by rw [ha, hb]; ring,
          fun h => absurd hb h⟩
        simp only [hz2, ne_eq, not_true_eq_false, if_false]
      · refine ⟨pythag f2 h2, f2 * (1 / pythag f2 h2), h2 * (1 / pythag f2 h2), ?_, ?_, ?_, ?_, ?_⟩
        · simp only [ne_eq, hz2, not_false_eq_true, if_true]
        · generalize pythag f2 h2 = z at hz2 hsq2 ⊢
          field_simp; linarith
        · generalize pythag f2 h2 = z at hz2 hsq2 ⊢
          field_simp; linarith
        · ring
        · intro h
          exact mul_ne_zero h (one_div_ne_zero hz2)
    simp only [hq]
    have hj' : 1 ≤ j ∧ j ≤ n := ⟨by omega, by omega⟩
    have hi' : 1 ≤ j + 1 ∧ j + 1 ≤ n := ⟨by omega, by omega⟩
    have hg' := (hg.right (rotM_transpose_mul hj' hi' (by omega) hcs1)).left
      (rotM_transpose_mul hj' hi' (by omega) hcs2)
    rw [← toMat_rot _ _ _ hj' hi', ← toMat_rot _ _ _ hj' hi', ← toMat_rot _ _ _ hj' hi',
      ← toMat_rotR _ _ _ hj' hi',
      ← chaseB_step hpj e1 e2 hf2.symm hg2.symm hh2.symm hy2.symm e3 e4] at hg'
    refine ih (j + 1) c2 s2 (c2 * g2 + s2 * y2) (c2 * y2 - s2 * g2)
      ⟨rot d.U j (j + 1) c2 s2, rot d.V j (j + 1) c1 s1, upd d.w j z2, upd d.rv1 j z1⟩
      (by omega) (by omega) hg' ?_ ?_ ?_ ?_ ?_
    · intro h
      apply hs2
      rw [← hh2]
      exact mul_ne_zero (hw (j + 1) (by omega) h) hs1'
    · intro l h2 h3
      show upd d.rv1 j z1 l ≠ 0
      rw [upd_ne (by omega)]; exact hr l (by omega) h3
    · intro l h2 h3
      show upd d.w j z2 l ≠ 0
      rw [upd_ne (by omega)]; exact hw l (by omega) h3
    · intro l hl
      show upd d.rv1 j z1 l = 0 ∧ (l ≤ n → 0 ≤ upd d.w j z2 l)
      rw [upd_ne (by omega), upd_ne (by omega)]
      exact ht l hl
    · intro h
      show upd d.rv1 j z1 1 = 0
      rw [upd_ne (by omega)]; exact h1 h

/-! ## One singular value -/

theorem shift_ok {w r : Arr} {p k : ℕ} (hpk : p < k) (h : NZ p k w r) :
    ∃ f, shift w r p k = .ok f := by
  have hk := h k hpk le_rfl
  have hx : w p ≠ 0 := by
    have := (h (p + 1) (by omega) (by omega)).2
    rwa [Nat.add_sub_cancel] at this
  have h1 : 2 * r k * w (k - 1) ≠ 0 := mul_ne_zero (mul_ne_zero two_ne_zero hk.1) hk.2
  simp only [shift, nonzero_of h1, Outcome.ok_bind, nonzero_of hx, Outcome.pure_eq]
  rw [nonzero_of (add_sign_ne_zero ?_)]
  · exact ⟨_, rfl⟩
  · intro h
    exact one_ne_zero (pythag_eq_zero.mp h).2

/-- Change of the sign of one column. -/
def negM (n k : ℕ) : Matrix (Fin n) (Fin n) ℝ :=
  diagonal fun i : Fin n => if (i : ℕ) + 1 = k then -1 else 1

theorem negM_orth (n k : ℕ) : (negM n k)ᵀ * negM n k = 1 := by
  rw [negM, diagonal_transpose, diagonal_mul_diagonal, ← diagonal_one]
  congr 1
  funext i
  split <;> norm_num

theorem finish_ok {A : Matrix (Fin m) (Fin n) ℝ} {N : ℝ} {k : ℕ} {d : Diag} (hk : 1 ≤ k)
    (h : Inv A N k d) (hr : d.rv1 k = 0) : Inv A N (k - 1) (finish k d) := by
  unfold finish
  by_cases hw : d.w k < 0
  · rw [if_pos hw]
    refine ⟨?_, h.first, ?_⟩
    · have hg := h.good.right (negM_orth n k)
      convert hg using 1
      · ext a b
        simp only [negM, mul_diagonal, toMat, bid]
        by_cases hb : (b : ℕ) + 1 = k
        · rw [if_pos hb]
          by_cases hab : (a : ℕ) + 1 = b + 1
          · rw [if_pos hab, if_pos hab, hab, hb, upd_same]; ring
          · rw [if_neg hab, if_neg hab, hb, hr]
            split <;> ring
        · rw [if_neg hb, mul_one]
          by_cases hab : (a : ℕ) + 1 = b + 1
          · rw [if_pos hab, if_pos hab, upd_ne (by omega)]
          · rw [if_neg hab, if_neg hab]
      · ext a b
        simp only [negM, mul_diagonal, toMat]
        by_cases hb : (b : ℕ) + 1 = k
        · rw [if_pos hb, if_pos hb]; ring
        · rw [if_neg hb, if_neg hb, mul_one]
    · intro l hl
      show d.rv1 l = 0 ∧ (l ≤ n → 0 ≤ upd d.w k (-d.w k) l)
      by_cases hlk : l = k
      · subst hlk
        exact ⟨hr, fun _ => by rw [upd_same]; linarith⟩
      · rw [upd_ne hlk]; exact h.tail l (by omega)
  · rw [if_neg hw]
    refine ⟨h.good, h.first, ?_⟩
    intro l hl
    by_cases hlk : l = k
    · subst hlk
      exact ⟨hr, fun _ => not_lt.mp hw⟩
    · exact h.tail l (by omega)

theorem maybeCancel_ok {A : Matrix (Fin m) (Fin n) ℝ} {N : ℝ} {k p : ℕ} {fl : Bool} {d : Diag}
    (h : Inv A N k d) (hk : k ≤ n) (hp : 1 ≤ p) (hpk : p ≤ k) (hnz : NZ p k d.w d.rv1)
    (hf : fl = false → d.rv1 p = 0) (ht : fl = true → 2 ≤ p ∧ d.w (p - 1) = 0) :
    ∃ d', maybeCancel N k p fl d = .ok d' ∧ Inv A N k d' ∧ NZ p k d'.w d'.rv1 ∧ d'.rv1 p = 0 := by
  unfold maybeCancel
  cases fl with
  | false => exact ⟨d, rfl, h, hnz, hf rfl⟩
  | true =>
    obtain ⟨h2, hw⟩ := ht rfl
    have hp1 : p - 1 + 1 = p := by omega
    rw [if_pos rfl]
    have := cancel_ok (m := m) (A := A) (N := N) (nm := p - 1) (k := k) (by omega) hk (k + 1 - p) p
      0 1 d (by omega) (by omega) ?_ hw ?_ (Or.inl (by omega)) (by rw [hp1]; exact hnz) h.tail
      h.first
    · rw [hp1] at this; exact this
    · have e : cancelB (p - 1) p 0 1 d.w d.rv1 = bid d.w d.rv1 := by
        funext a b
        simp only [cancelB, bid, upd]
        by_cases hab : a = b
        · rw [if_pos hab, if_pos hab, if_neg (by omega)]; ring
        · rw [if_neg hab, if_neg hab]
          by_cases hb : b = p
          · subst hb
            by_cases ha : a = b - 1
            · subst ha
              rw [if_pos (by omega), if_pos rfl, if_pos (by omega), if_pos (by omega)]
              ring
            · rw [if_neg (by omega), if_neg (by omega), if_neg (by omega)]; ring
          · rw [if_neg hb, if_neg (by omega : ¬(a = p - 1 ∧ b = p))]; ring
      rw [e]
      exact h.good
    · rw [hp1, upd_same, zero_mul]

theorem iterate_ok {A : Matrix (Fin m) (Fin n) ℝ} {N : ℝ} (hN : 0 ≤ N) {k : ℕ} (hk1 : 1 ≤ k)
    (hk : k ≤ n) : ∀ (left : ℕ) (d : Diag), Inv A N k d →
      ∃ o, iterate N k left d = .ok o ∧ ∀ d', o = some d' → Inv A N (k - 1) d' := by
  intro left
  induction left with
  | zero =>
    intro d h
    obtain ⟨p, fl, e, hp, hpk, hnz, hf, ht⟩ := findSplit_ok hN h.first k hk1 fun l h1 h2 =>
      h.good.diag h1 (by omega)
    obtain ⟨d1, e1, h1, hnz1, hr1⟩ := maybeCancel_ok h hk hp hpk hnz hf ht
    unfold iterate
    simp only [e, Outcome.ok_bind, e1, Outcome.pure_eq]
    by_cases hpk' : p = k
    · subst hpk'
      refine ⟨_, if_pos rfl, ?_⟩
      intro d' hd
      cases hd
      exact finish_ok hk1 h1 hr1
    · refine ⟨_, if_neg hpk', ?_⟩
      intro d' hd
      cases hd
  | succ left ih =>
    intro d h
    obtain ⟨p, fl, e, hp, hpk, hnz, hf, ht⟩ := findSplit_ok hN h.first k hk1 fun l h1 h2 =>
      h.good.diag h1 (by omega)
    obtain ⟨d1, e1, h1, hnz1, hr1⟩ := maybeCancel_ok h hk hp hpk hnz hf ht
    unfold iterate
    simp only [e, Outcome.ok_bind, e1, Outcome.pure_eq]
    by_cases hpk' : p = k
    · subst hpk'
      refine ⟨_, if_pos rfl, ?_⟩
      intro d' hd
      cases hd
      exact finish_ok hk1 h1 hr1
    · rw [if_neg hpk']
      obtain ⟨f, hf⟩ := shift_ok (by omega) hnz1
      obtain ⟨d2, e2, h2⟩ := chase_ok (m := m) (A := A) (N := N) hp (by omega) hk (k - p) p 1 1 f
        (d1.w p) d1 (by omega) le_rfl (by rw [chaseB_start hr1]; exact h1.good)
        (fun _ => one_ne_zero) (fun l h3 h4 => (hnz1 l h3 h4).1)
        (fun l h3 h4 => by
          have := (hnz1 (l + 1) (by omega) (by omega)).2
          rwa [Nat.add_sub_cancel] at this)
        h1.tail (fun _ => h1.first)
      simp only [hf, Outcome.ok_bind, e2]
      exact ih d2 h2

theorem diagonalise_ok {A : Matrix (Fin m) (Fin n) ℝ} {N : ℝ} (hN : 0 ≤ N) :
    ∀ (k : ℕ) (d : Diag), k ≤ n → Inv A N k d →
      ∃ o, diagonalise N k d = .ok o ∧ ∀ d', o = some d' → Inv A N 0 d' := by
  intro k
  induction k with
  | zero =>
    intro d _ h
    exact ⟨_, rfl, fun d' hd => by cases hd; exact h⟩
  | succ k ih =>
    intro d hk h
    obtain ⟨o, e, ho⟩ := iterate_ok hN (by omega) hk (maxIter - 1) d h
    unfold diagonalise
    rw [e, Outcome.ok_bind]
    cases o with
    | none => exact ⟨none, rfl, fun d' hd => by cases hd⟩
    | some d1 => exact ih d1 (by omega) (ho d1 rfl)

end BFL.SVD
