import Verif.Lemmas.SVDBase

/-!
# Lemmas about the singular value decomposition: the diagonalisation
-/

set_option linter.unusedSectionVars false

namespace BFL.SVD

open Finset Matrix

variable {m n : ℕ}

/-- What the diagonalisation keeps true: the arrays are a factorisation `U B Vᵀ` of the given matrix
with orthogonal factors. If there are fewer rows than columns `U` has orthonormal columns only as far
as `B` uses them. -/
structure Good (A : Matrix (Fin m) (Fin n) ℝ) (N : ℝ) (U : Matrix (Fin m) (Fin n) ℝ)
    (B V : Matrix (Fin n) (Fin n) ℝ) : Prop where
  eq : A = U * B * Vᵀ
  orthV : Vᵀ * V = 1
  proj : Uᵀ * U * B = B
  orthU : n ≤ m → Uᵀ * U = 1
  bound : ∀ x : Fin n → ℝ, (B *ᵥ x) ⬝ᵥ (B *ᵥ x) ≤ 2 * (N * N) * (x ⬝ᵥ x)

theorem dot_mulVec_orth {R : Matrix (Fin n) (Fin n) ℝ} (h : Rᵀ * R = 1) (x : Fin n → ℝ) :
    (R *ᵥ x) ⬝ᵥ (R *ᵥ x) = x ⬝ᵥ x := by
  calc (R *ᵥ x) ⬝ᵥ (R *ᵥ x) = (x ᵥ* Rᵀ) ⬝ᵥ (R *ᵥ x) := by rw [vecMul_transpose]
    _ = x ⬝ᵥ x := by rw [← dotProduct_mulVec, mulVec_mulVec, h, one_mulVec]

theorem Good.left {A : Matrix (Fin m) (Fin n) ℝ} {N : ℝ} {U : Matrix (Fin m) (Fin n) ℝ}
    {B V R : Matrix (Fin n) (Fin n) ℝ} (h : Good A N U B V) (h1 : Rᵀ * R = 1) :
    Good A N (U * R) (Rᵀ * B) V := by
  have h2 : R * Rᵀ = 1 := mul_eq_one_comm.mp h1
  have e : ∀ {k : ℕ} (X : Matrix (Fin n) (Fin k) ℝ), R * (Rᵀ * X) = X := by
    intro k X; rw [← Matrix.mul_assoc, h2, Matrix.one_mul]
  refine ⟨?_, h.orthV, ?_, ?_, ?_⟩
  · rw [h.eq]; simp only [Matrix.mul_assoc, e]
  · have := h.proj
    simp only [Matrix.mul_assoc] at this
    simp only [transpose_mul, Matrix.mul_assoc, e, this]
  · intro hnm
    rw [transpose_mul, Matrix.mul_assoc, ← Matrix.mul_assoc Uᵀ, h.orthU hnm, Matrix.one_mul, h1]
  · intro x
    have := h.bound x
    rw [← mulVec_mulVec, dot_mulVec_orth (R := Rᵀ) (by rw [transpose_transpose, h2])]
    exact this

theorem Good.right {A : Matrix (Fin m) (Fin n) ℝ} {N : ℝ} {U : Matrix (Fin m) (Fin n) ℝ}
    {B V R : Matrix (Fin n) (Fin n) ℝ} (h : Good A N U B V) (h1 : Rᵀ * R = 1) :
    Good A N U (B * R) (V * R) := by
  have h2 : R * Rᵀ = 1 := mul_eq_one_comm.mp h1
  have e : ∀ {k : ℕ} (X : Matrix (Fin n) (Fin k) ℝ), R * (Rᵀ * X) = X := by
    intro k X; rw [← Matrix.mul_assoc, h2, Matrix.one_mul]
  refine ⟨?_, ?_, ?_, h.orthU, ?_⟩
  · rw [h.eq]; simp only [transpose_mul, Matrix.mul_assoc, e]
  · rw [transpose_mul, Matrix.mul_assoc, ← Matrix.mul_assoc Vᵀ, h.orthV, Matrix.one_mul, h1]
  · rw [← Matrix.mul_assoc, h.proj]
  · intro x
    rw [← mulVec_mulVec, ← dot_mulVec_orth h1 x]
    exact h.bound _

/-- An entry of `B` is bounded. -/
theorem Good.entry {A : Matrix (Fin m) (Fin n) ℝ} {N : ℝ} {U : Matrix (Fin m) (Fin n) ℝ}
    {B V : Matrix (Fin n) (Fin n) ℝ} (h : Good A N U B V) (i j : Fin n) :
    B i j * B i j ≤ 2 * (N * N) := by
  have h1 := h.bound (Pi.single j 1)
  have h2 : B *ᵥ Pi.single j 1 = fun i => B i j := by
    ext i; simp
  rw [h2] at h1
  have h3 : (Pi.single j (1 : ℝ) : Fin n → ℝ) ⬝ᵥ Pi.single j 1 = 1 := by simp
  rw [h3, mul_one] at h1
  refine le_trans ?_ h1
  exact Finset.single_le_sum (f := fun i => B i j * B i j) (fun k _ => mul_self_nonneg _)
    (Finset.mem_univ i)

/-! ## The bidiagonal matrix -/

/-- Decide conditions on indices. -/
local macro "ifs" : tactic =>
  `(tactic| simp (disch := omega) only [upd, if_pos, if_neg, if_true, and_self, true_and])

/-- Diagonal `w`, and `rv1(b)` above the diagonal in column `b`. -/
def bid (w r : Arr) : Arr2 := fun a b => if a = b then w a else if b = a + 1 then r b else 0

/-- `B` in the cancellation loop, at the head of the iteration `i`. -/
def cancelB (nm i : ℕ) (c s : ℝ) (w r : Arr) : Arr2 := fun a b =>
  bid w (upd r i (c * r i)) a b + if a = nm ∧ b = i then s * r i else 0

theorem cancelB_step {nm i : ℕ} {c s c' s' h : ℝ} {w r : Arr} (hnm : nm < i) (hw : w nm = 0)
    (hr : upd r i (c * r i) (nm + 1) = 0) (h1 : s * r i * c' + w i * s' = 0)
    (h2 : w i * c' - s * r i * s' = h) :
    cancelB nm (i + 1) c' s' (upd w i h) (upd r i (c * r i))
      = rotR (cancelB nm i c s w r) nm i c' s' := by
  funext a b
  simp only [cancelB, rotR, bid]
  generalize hr' : upd r i (c * r i) = r' at hr ⊢
  by_cases ha : a = nm
  · subst ha
    by_cases hb : b = i
    · subst hb
      by_cases hab : b = a + 1
      · subst hab
        ifs; simp only [hr]
        linarith
      · ifs
        linarith
    · by_cases hb1 : b = i + 1
      · subst hb1
        ifs
        ring
      · by_cases hb2 : b = a
        · subst hb2
          ifs; simp only [hw]
          ring
        · by_cases hb3 : b = a + 1
          · subst hb3
            ifs; simp only [hr]
            ring
          · ifs
            ring
  · by_cases ha' : a = i
    · subst ha'
      by_cases hb : b = a
      · subst hb
        by_cases hab : b = nm + 1
        · subst hab
          ifs; simp only [hr]
          linarith
        · ifs
          linarith
      · by_cases hb1 : b = a + 1
        · subst hb1
          ifs
          ring
        · by_cases hb2 : b = nm
          · subst hb2
            ifs; simp only [hw]
            ring
          · by_cases hb3 : b = nm + 1
            · subst hb3
              ifs; simp only [hr]
              ring
            · ifs
              ring
    · by_cases hb : b = a
      · subst hb
        ifs
      · by_cases hb1 : b = a + 1
        · subst hb1
          ifs
        · ifs

theorem cancelB_done {nm i : ℕ} {c s : ℝ} {w r : Arr} (h : s * r i = 0) :
    cancelB nm i c s w r = bid w (upd r i (c * r i)) := by
  funext a b
  simp only [cancelB, h, ite_self, add_zero]

/-- `B` in the loop of the QR step, at the head of the iteration `j`: the diagonal entry `j` is `x`,
the entry above it is `f`, and there is an entry `s * rv1(j+1)` outside the two diagonals. The value
stored in `rv1(ppi)` has no meaning. -/
def chaseB (ppi j : ℕ) (c s f x : ℝ) (w r : Arr) : Arr2 := fun a b =>
  if a = b then (if b = j then x else w b)
  else if b = a + 1 then
    (if b = ppi then 0 else if b = j then f else if b = j + 1 then c * r b else r b)
  else if a + 1 = j ∧ b = j + 1 ∧ j ≠ ppi then s * r b else 0

/-- Decide the conditions of rotations first. -/
local macro "ifs2" : tactic =>
  `(tactic| (simp (disch := omega) only [if_pos, if_neg, if_true, and_self, true_and]
             simp only [chaseB]
             ifs))

theorem chaseB_step {ppi j : ℕ} {c s f x z1 c1 s1 z2 c2 s2 f2 g2 h2 y2 : ℝ} {w r : Arr}
    (hj : ppi ≤ j) (e1 : f * c1 + s * r (j + 1) * s1 = z1)
    (e2 : s * r (j + 1) * c1 - f * s1 = 0)
    (hf2 : f2 = x * c1 + c * r (j + 1) * s1) (hg2 : g2 = c * r (j + 1) * c1 - x * s1)
    (hh2 : h2 = w (j + 1) * s1) (hy2 : y2 = w (j + 1) * c1)
    (e3 : f2 * c2 + h2 * s2 = z2) (e4 : h2 * c2 - f2 * s2 = 0) :
    chaseB ppi (j + 1) c2 s2 (c2 * g2 + s2 * y2) (c2 * y2 - s2 * g2) (upd w j z2) (upd r j z1)
      = rotR (rot (chaseB ppi j c s f x w r) j (j + 1) c1 s1) j (j + 1) c2 s2 := by
  funext a b
  simp only [rotR, rot]
  by_cases ha : a = j
  · subst ha
    by_cases hb : b = a
    · subst hb
      ifs2
      rw [hf2, hh2] at e3
      linarith
    · by_cases hb1 : b = a + 1
      · subst hb1
        ifs2
        rw [hg2, hy2]
        ring
      · by_cases hb2 : b = a + 2
        · subst hb2
          ifs2
          ring
        · ifs2
          ring
  · by_cases ha1 : a = j + 1
    · subst ha1
      by_cases hb : b = j
      · subst hb
        ifs2
        rw [hf2, hh2] at e4
        linarith
      · by_cases hb1 : b = j + 1
        · subst hb1
          ifs2
          rw [hg2, hy2]
          ring
        · by_cases hb2 : b = j + 2
          · subst hb2
            ifs2
            ring
          · ifs2
            ring
    · by_cases ha2 : a + 1 = j
      · subst ha2
        by_cases hb : b = a + 1
        · subst hb
          by_cases hp : a + 1 = ppi
          · ifs2
            ring
          · ifs2
            linarith
        · by_cases hb1 : b = a + 2
          · subst hb1
            by_cases hp : a + 1 = ppi
            · ifs2
              ring
            · ifs2
              linarith
          · by_cases hb2 : a = b
            · subst hb2
              ifs2
            · ifs2
      · by_cases hb : b = j
        · subst hb
          ifs2
          ring
        · by_cases hb1 : b = j + 1
          · subst hb1
            ifs2
            ring
          · by_cases hb2 : a = b
            · subst hb2
              ifs2
            · by_cases hb3 : b = a + 1
              · subst hb3
                by_cases hp : a + 1 = ppi
                · ifs2
                · ifs2
              · ifs2

theorem chaseB_done {ppi k : ℕ} {c s f x : ℝ} {w r : Arr} (hk : ppi < k) (hr : r (k + 1) = 0) :
    bid (upd w k x) (upd (upd r ppi 0) k f) = chaseB ppi k c s f x w r := by
  funext a b
  simp only [bid, chaseB]
  by_cases ha : a = b
  · subst ha
    by_cases hk : a = k
    · ifs
    · ifs
  · by_cases hb : b = a + 1
    · subst hb
      by_cases h1 : a + 1 = ppi
      · ifs
      · by_cases h2 : a + 1 = k
        · ifs
        · by_cases h3 : a = k
          · subst h3
            ifs
            simp only [hr, mul_zero]
          · ifs
    · by_cases h4 : a + 1 = k ∧ b = k + 1
      · obtain ⟨h4, rfl⟩ := h4
        ifs
        simp only [hr, mul_zero]
      · rw [if_neg ha, if_neg hb, if_neg ha, if_neg hb, if_neg (by tauto)]

theorem chaseB_start {ppi : ℕ} {f : ℝ} {w r : Arr} (hr : r ppi = 0) :
    chaseB ppi ppi 1 1 f (w ppi) w r = bid w r := by
  funext a b
  simp only [bid, chaseB]
  by_cases ha : a = b
  · subst ha
    by_cases hk : a = ppi
    · subst hk; ifs
    · ifs
  · by_cases hb : b = a + 1
    · subst hb
      by_cases h1 : a + 1 = ppi
      · subst h1; ifs; exact hr.symm
      · by_cases h2 : a = ppi
        · subst h2; ifs; rw [one_mul]
        · ifs
    · ifs

end BFL.SVD
