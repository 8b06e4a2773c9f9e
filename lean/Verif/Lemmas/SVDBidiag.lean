import Verif.Lemmas.SVDReflect
import Verif.Lemmas.SVDLoop

/-!
# Lemmas about the singular value decomposition: reduction to bidiagonal form and accumulation
-/

set_option linter.unusedSectionVars false

namespace BFL.SVD

open Finset Matrix

variable {m n : ℕ}

/-- The left reflection stored in column `k`. -/
noncomputable def H (m : ℕ) (U : Arr2) (w : Arr) (k : ℕ) : Matrix (Fin m) (Fin m) ℝ :=
  refl (cv m U k k) (w k * U k k)

/-- The right reflection stored in row `k`. -/
noncomputable def G (n : ℕ) (U : Arr2) (r : Arr) (k : ℕ) : Matrix (Fin n) (Fin n) ℝ :=
  refl (cv n (fun a b => U b a) (k + 1) k) (r (k + 1) * U k (k + 1))

/-- `F 1 * … * F t`. -/
def prodTo {N : ℕ} (F : ℕ → Matrix (Fin N) (Fin N) ℝ) : ℕ → Matrix (Fin N) (Fin N) ℝ
  | 0 => 1
  | t + 1 => prodTo F t * F (t + 1)

theorem prodTo_congr {N : ℕ} {F F' : ℕ → Matrix (Fin N) (Fin N) ℝ} :
    ∀ {t : ℕ}, (∀ k, 1 ≤ k → k ≤ t → F k = F' k) → prodTo F t = prodTo F' t := by
  intro t
  induction t with
  | zero => intro _; rfl
  | succ t ih =>
    intro h
    rw [prodTo, prodTo, ih fun k h1 h2 => h k h1 (by omega), h (t + 1) (by omega) le_rfl]

theorem prodTo_orth {N : ℕ} {F : ℕ → Matrix (Fin N) (Fin N) ℝ} (hs : ∀ k, (F k)ᵀ = F k) :
    ∀ {t : ℕ}, (∀ k, 1 ≤ k → k ≤ t → F k * F k = 1) → (prodTo F t)ᵀ * prodTo F t = 1 := by
  intro t
  induction t with
  | zero => intro _; simp [prodTo]
  | succ t ih =>
    intro h
    rw [prodTo, transpose_mul, Matrix.mul_assoc, ← Matrix.mul_assoc (prodTo F t)ᵀ,
      ih fun k h1 h2 => h k h1 (by omega), Matrix.one_mul, hs, h (t + 1) (by omega) le_rfl]

theorem H_transpose (m : ℕ) (U : Arr2) (w : Arr) (k : ℕ) : (H m U w k)ᵀ = H m U w k :=
  refl_transpose _ _

theorem G_transpose (n : ℕ) (U : Arr2) (r : Arr) (k : ℕ) : (G n U r k)ᵀ = G n U r k :=
  refl_transpose _ _

theorem cv_congr {M : ℕ} {U U' : Arr2} {p q : ℕ} (h : ∀ a, p ≤ a → U a q = U' a q) :
    cv M U p q = cv M U' p q := by
  funext a
  unfold cv
  split
  · rename_i ha; exact h _ ha
  · rfl

theorem H_congr {U U' : Arr2} {w w' : Arr} {k : ℕ} (h : ∀ a, k ≤ a → U a k = U' a k)
    (hw : w k = w' k) : H m U w k = H m U' w' k := by
  rw [H, H, cv_congr h, h k le_rfl, hw]

theorem G_congr {U U' : Arr2} {r r' : Arr} {k : ℕ} (h : ∀ b, k < b → U k b = U' k b)
    (hr : r (k + 1) = r' (k + 1)) : G n U r k = G n U' r' k := by
  rw [G, G, cv_congr (U' := fun a b => U' b a) fun a ha => h a (by omega), h (k + 1) (by omega), hr]

/-- The matrix after `t` iterations. -/
def bidTo (t : ℕ) (U : Arr2) (w r : Arr) : Arr2 := fun a b =>
  if a ≤ t ∨ b ≤ t then bid w r a b else U a b

/-- What holds after `t` iterations; `r` is `rv1` with the entry that the next iteration stores. -/
structure BiInv (A : Matrix (Fin m) (Fin n) ℝ) (t : ℕ) (U : Arr2) (w r : Arr) : Prop where
  eq : A = prodTo (H m U w) t * toMat m n (bidTo t U w r) * (prodTo (G n U r) t)ᵀ
  orthH : ∀ k, 1 ≤ k → k ≤ t → H m U w k * H m U w k = 1
  orthG : ∀ k, 1 ≤ k → k ≤ t → G n U r k * G n U r k = 1
  nzH : ∀ k, 1 ≤ k → k ≤ t → w k ≠ 0 → U k k ≠ 0
  nzG : ∀ k, 1 ≤ k → k ≤ t → r (k + 1) ≠ 0 → U k (k + 1) ≠ 0
  wz : ∀ k, m < k → k ≤ t → w k = 0
  rz : ∀ k, m + 1 < k ∨ t + 1 < k → r k = 0
  r1 : r 1 = 0

theorem BiInv.zero (A : Matrix (Fin m) (Fin n) ℝ) (U : Arr2) (hU : toMat m n U = A) (w : Arr) :
    BiInv A 0 U w fun _ => 0 := by
  refine ⟨?_, ?_, ?_, ?_, ?_, ?_, ?_, rfl⟩
  · simp only [prodTo, transpose_one, Matrix.one_mul, Matrix.mul_one]
    rw [← hU]
    ext a b
    simp [toMat, bidTo]
  all_goals intros; first | omega | rfl

theorem BiInv.step {A : Matrix (Fin m) (Fin n) ℝ} {t : ℕ} {U U1 U2 : Arr2} {w r : Arr} {ω ρ : ℝ}
    (h : BiInv A t U w r) (hc : Step m n (t + 1) (t + 1) U U1 ω)
    (hr : Step n m (t + 2) (t + 1) (fun a b => U1 b a) (fun a b => U2 b a) ρ)
    (hω : m < t + 1 → ω = 0) (hρ : m < t + 1 → ρ = 0) :
    BiInv A (t + 1) U2 (upd w (t + 1) ω) (upd r (t + 2) ρ) := by
  have f1 : ∀ a b, b < t + 1 ∨ a < t + 1 → U1 a b = U a b := hc.frame
  have f2 : ∀ a b, a < t + 1 ∨ b < t + 2 → U2 a b = U1 a b := fun a b hab => hr.frame b a hab
  have eH : ∀ k, 1 ≤ k → k ≤ t → H m U2 (upd w (t + 1) ω) k = H m U w k := by
    intro k h1 h2
    refine H_congr (fun a _ => ?_) (upd_ne (by omega))
    rw [f2 a k (by omega), f1 a k (by omega)]
  have eG : ∀ k, 1 ≤ k → k ≤ t → G n U2 (upd r (t + 2) ρ) k = G n U r k := by
    intro k h1 h2
    refine G_congr (fun a _ => ?_) (upd_ne (by omega))
    rw [f2 k a (by omega), f1 k a (by omega)]
  have eHt : H m U2 (upd w (t + 1) ω) (t + 1) = refl (cv m U1 (t + 1) (t + 1)) (ω * U1 (t + 1) (t + 1)) := by
    rw [H, upd_same, f2 _ _ (by omega), cv_congr fun a _ => f2 a (t + 1) (by omega)]
  have eGt : G n U2 (upd r (t + 2) ρ) (t + 1)
      = refl (cv n (fun a b => U2 b a) (t + 2) (t + 1)) (ρ * U2 (t + 1) (t + 2)) := by
    rw [G, upd_same]
  have oH : H m U2 (upd w (t + 1) ω) (t + 1) * H m U2 (upd w (t + 1) ω) (t + 1) = 1 := by
    rw [eHt]; exact hc.orth
  have oG : G n U2 (upd r (t + 2) ρ) (t + 1) * G n U2 (upd r (t + 2) ρ) (t + 1) = 1 := by
    rw [eGt]; exact hr.orth
  refine ⟨?_, ?_, ?_, ?_, ?_, ?_, ?_, ?_⟩
  · have hL : H m U2 (upd w (t + 1) ω) (t + 1) * toMat m n (bidTo t U w r)
        * G n U2 (upd r (t + 2) ρ) (t + 1)
        = toMat m n (bidTo (t + 1) U2 (upd w (t + 1) ω) (upd r (t + 2) ρ)) := by
      have h1 := hc.red (bidTo t U w r) (fun a b ha hb => by
          unfold bidTo; rw [if_neg (by omega)]) (fun a b ha hb => by
          unfold bidTo bid; rw [if_pos (by omega), if_neg (by omega), if_neg (by omega)])
      rw [eHt, h1]
      generalize hY : (fun a b => if a < t + 1 then bidTo t U w r a b else if b < t + 1 then 0
        else if b = t + 1 then (if a = t + 1 then ω else 0) else U1 a b) = Y
      have hY' : ∀ a b, Y a b = if a < t + 1 then bidTo t U w r a b else if b < t + 1 then 0
          else if b = t + 1 then (if a = t + 1 then ω else 0) else U1 a b := by
        intro a b; rw [← hY]
      have h2 := hr.red (fun a b => Y b a) (fun a b ha hb => by
          rw [hY', if_neg (by omega), if_neg (by omega), if_neg (by omega)]) (fun a b ha hb => by
          rw [hY', if_pos hb]
          unfold bidTo bid; rw [if_pos (by omega), if_neg (by omega), if_neg (by omega)])
      rw [← eGt] at h2
      have h3 := congrArg Matrix.transpose h2
      rw [transpose_mul, G_transpose, transpose_toMat, transpose_toMat] at h3
      rw [h3]
      ext a b
      simp only [toMat, hY', bidTo, bid]
      by_cases hb : (b : ℕ) + 1 < t + 2
      · rw [if_pos hb, if_pos (by omega : (a : ℕ) + 1 ≤ t + 1 ∨ (b : ℕ) + 1 ≤ t + 1)]
        by_cases ha : (a : ℕ) + 1 < t + 1
        · rw [if_pos ha, if_pos (by omega), upd_ne (by omega), upd_ne (by omega)]
        · rw [if_neg ha]
          by_cases hb' : (b : ℕ) + 1 < t + 1
          · rw [if_pos hb', if_neg (by omega), if_neg (by omega)]
          · rw [if_neg hb', if_pos (by omega)]
            by_cases hat : (a : ℕ) + 1 = t + 1
            · rw [if_pos hat, if_pos (by omega), hat, upd_same]
            · rw [if_neg hat, if_neg (by omega), if_neg (by omega)]
      · rw [if_neg hb]
        by_cases ha : (a : ℕ) + 1 < t + 1
        · rw [if_pos ha, if_pos (by omega), if_neg (by omega), if_neg (by omega)]
        · rw [if_neg ha]
          by_cases hat : (a : ℕ) + 1 = t + 1
          · rw [if_pos hat]
            by_cases hbt : (b : ℕ) + 1 = t + 2
            · rw [if_pos hbt, if_pos (by omega), if_neg (by omega), if_pos (by omega), hbt, upd_same]
            · rw [if_neg hbt, if_pos (by omega), if_neg (by omega), if_neg (by omega)]
          · rw [if_neg hat, if_neg (by omega)]
    have e : toMat m n (bidTo t U w r) = H m U2 (upd w (t + 1) ω) (t + 1)
        * toMat m n (bidTo (t + 1) U2 (upd w (t + 1) ω) (upd r (t + 2) ρ))
        * G n U2 (upd r (t + 2) ρ) (t + 1) := by
      rw [← hL]
      generalize H m U2 (upd w (t + 1) ω) (t + 1) = P at oH ⊢
      generalize G n U2 (upd r (t + 2) ρ) (t + 1) = Q at oG ⊢
      simp only [Matrix.mul_assoc, oG, Matrix.mul_one]
      rw [← Matrix.mul_assoc, oH, Matrix.one_mul]
    rw [prodTo, prodTo, prodTo_congr eH, prodTo_congr eG, transpose_mul, G_transpose, h.eq, e]
    simp only [Matrix.mul_assoc]
  · intro k h1 h2
    rcases Nat.lt_or_ge t k with hk | hk
    · obtain rfl : k = t + 1 := by omega
      exact oH
    · rw [eH k h1 hk]; exact h.orthH k h1 hk
  · intro k h1 h2
    rcases Nat.lt_or_ge t k with hk | hk
    · obtain rfl : k = t + 1 := by omega
      exact oG
    · rw [eG k h1 hk]; exact h.orthG k h1 hk
  · intro k h1 h2 h3
    rcases Nat.lt_or_ge t k with hk | hk
    · obtain rfl : k = t + 1 := by omega
      rw [f2 _ _ (by omega)]
      rw [upd_same] at h3
      exact hc.nz h3
    · rw [upd_ne (by omega)] at h3
      rw [f2 _ _ (by omega), f1 _ _ (by omega)]
      exact h.nzH k h1 hk h3
  · intro k h1 h2 h3
    rcases Nat.lt_or_ge t k with hk | hk
    · obtain rfl : k = t + 1 := by omega
      rw [upd_same] at h3
      exact hr.nz h3
    · rw [upd_ne (by omega)] at h3
      rw [f2 _ _ (by omega), f1 _ _ (by omega)]
      exact h.nzG k h1 hk h3
  · intro k h1 h2
    rcases Nat.lt_or_ge t k with hk | hk
    · obtain rfl : k = t + 1 := by omega
      rw [upd_same]; exact hω h1
    · rw [upd_ne (by omega)]; exact h.wz k h1 hk
  · intro k hk
    by_cases h2 : k = t + 2
    · subst h2
      rw [upd_same]
      exact hρ (by omega)
    · rw [upd_ne h2]; exact h.rz k (by omega)
  · rw [upd_ne (by omega)]; exact h.r1

/-! ## The loop -/

/-- The entry of `rv1` that the next iteration stores. -/
noncomputable def pend (t : ℕ) (st : Bi) : Arr := upd st.rv1 (t + 1) (st.scale * st.g)

/-- The invariant of the loop, at the head of the iteration `t + 1`. -/
structure LoopInv (A : Matrix (Fin m) (Fin n) ℝ) (t : ℕ) (st : Bi) : Prop where
  bi : BiInv A t st.U st.w (pend t st)
  last : t = n → st.scale * st.g = 0
  rest : ∀ k, t < k → st.rv1 k = 0
  norm0 : 0 ≤ st.anorm
  norm : ∀ k, 1 ≤ k → k ≤ t → |st.w k| + |st.rv1 k| ≤ st.anorm

theorem biStep_ok {A : Matrix (Fin m) (Fin n) ℝ} {t : ℕ} {st : Bi} (h : LoopInv A t st) :
    ∃ st', biStep m n (t + 1) st = .ok st' ∧ LoopInv A (t + 1) st' := by
  obtain ⟨U1, sc, g, e1, h1, hω⟩ := colStep_ok (m := m) (n := n) (i := t + 1) (by omega) st.U
  obtain ⟨U2, sc2, g2, e2, h2, hρ, hl⟩ := rowStep_ok (m := m) (n := n) (i := t + 1) U1
  unfold biStep
  simp only [e1, Outcome.ok_bind, e2, Outcome.pure_eq, upd_same]
  refine ⟨_, rfl, ⟨h.bi.step h1 h2 hω hρ, hl, ?_, ?_, ?_⟩⟩
  · intro k hk
    show upd st.rv1 (t + 1) (st.scale * st.g) k = 0
    rw [upd_ne (by omega)]; exact h.rest k (by omega)
  · show 0 ≤ if st.anorm > |sc * g| + |st.scale * st.g| then st.anorm
      else |sc * g| + |st.scale * st.g|
    split
    · exact h.norm0
    · exact add_nonneg (abs_nonneg _) (abs_nonneg _)
  · intro k hk1 hk2
    show |upd st.w (t + 1) (sc * g) k| + |upd st.rv1 (t + 1) (st.scale * st.g) k|
      ≤ if st.anorm > |sc * g| + |st.scale * st.g| then st.anorm else |sc * g| + |st.scale * st.g|
    by_cases hk : k = t + 1
    · subst hk
      rw [upd_same, upd_same]
      split
      · rename_i h; exact le_of_lt h
      · exact le_rfl
    · rw [upd_ne hk, upd_ne hk]
      have := h.norm k hk1 (by omega)
      split
      · exact this
      · rename_i h'; exact le_trans this (not_lt.mp h')

theorem biLoop_ok (A : Matrix (Fin m) (Fin n) ℝ) (U : Arr2) (hU : toMat m n U = A) (w : Arr) :
    ∃ st, loopUp (biStep m n) n 1 ⟨U, w, fun _ => 0, 0, 0, 0⟩ = .ok st ∧ LoopInv A n st := by
  have h0 : LoopInv A (1 - 1) ⟨U, w, fun _ => 0, 0, 0, 0⟩ := by
    refine ⟨?_, fun _ => by show (0 : ℝ) * 0 = 0; ring, fun _ _ => rfl, le_rfl,
      fun k h1 h2 => by omega⟩
    have : pend (1 - 1) ⟨U, w, fun _ => 0, 0, 0, 0⟩ = fun _ => 0 := by
      unfold pend
      exact upd_self (by ring)
    rw [this]
    exact BiInv.zero A U hU w
  have hs : ∀ j s, 1 ≤ j → j < 1 + n → LoopInv A (j - 1) s →
      ∃ s', biStep m n j s = .ok s' ∧ LoopInv A (j + 1 - 1) s' := by
    intro j s h1 _ h3
    obtain ⟨t, rfl⟩ : ∃ t, j = t + 1 := ⟨j - 1, by omega⟩
    exact biStep_ok h3
  obtain ⟨st, e, h⟩ := loopUp_inv (fun i st => LoopInv A (i - 1) st) n 1 _ h0 hs
  refine ⟨st, e, ?_⟩
  have h' : LoopInv A (1 + n - 1) st := h
  rwa [Nat.add_sub_cancel_left] at h'

/-! ## Accumulation of the right-hand transformations -/

/-- The array from `i` on, the identity elsewhere. -/
def restr (i : ℕ) (V : Arr2) : Arr2 := fun a b => if i ≤ a ∧ i ≤ b then V a b else delta a b

theorem sum_delta {s : Finset ℕ} {v : ℕ → ℝ} {b : ℕ} :
    ∑ k ∈ s, v k * delta k b = if b ∈ s then v b else 0 := by
  simp only [delta, mul_ite, mul_one, mul_zero]
  exact Finset.sum_ite_eq' s b v

theorem rightStep_ok {U : Arr2} {r : Arr} {i : ℕ} (hi : 1 ≤ i) (hin : i ≤ n)
    (hnz : r (i + 1) ≠ 0 → U i (i + 1) ≠ 0) (V : Arr2) :
    ∃ V', rightStep n U i V (r (i + 1)) = .ok V' ∧
      toMat n n (restr i V') = G n U r i * toMat n n (restr (i + 1) V) := by
  have hGid : n < i + 1 ∨ r (i + 1) = 0 → G n U r i = 1 := by
    intro h
    unfold G
    rcases h with h | h
    · refine refl_zero _ ?_
      funext a
      unfold cv
      rw [if_neg (by omega)]
      rfl
    · rw [h, zero_mul, refl_d_zero]
  have hres : ∀ V' : Arr2, V' i i = 1 → (∀ a, i + 1 ≤ a → a ≤ n → V' a i = 0 ∧ V' i a = 0) →
      ∀ a b : Fin n, ¬((i + 1 ≤ (a : ℕ) + 1) ∧ i + 1 ≤ (b : ℕ) + 1) →
        restr i V' (a + 1) (b + 1) = delta (a + 1) (b + 1) := by
    intro V' h1 h2 a b hab
    unfold restr
    split
    · rename_i h
      unfold delta
      by_cases ha : (a : ℕ) + 1 = i
      · by_cases hb : (b : ℕ) + 1 = i
        · rw [if_pos (by omega), ha, hb, h1]
        · rw [if_neg (by omega), ha, (h2 _ (by omega) (by omega)).2]
      · rw [if_neg (by omega)]
        have hb : (b : ℕ) + 1 = i := by omega
        rw [hb, (h2 _ (by omega) (by omega)).1]
    · rfl
  unfold rightStep
  by_cases hlt : i < n
  · rw [if_pos hlt]
    unfold rightMaybe
    by_cases hg : r (i + 1) = 0
    · rw [if_neg (by simpa using hg)]
      refine ⟨_, rfl, ?_⟩
      rw [hGid (Or.inr hg), Matrix.one_mul]
      ext a b
      by_cases hab : (i + 1 ≤ (a : ℕ) + 1) ∧ i + 1 ≤ (b : ℕ) + 1
      · simp only [toMat, restr]
        rw [if_pos (by omega), if_neg (by omega), if_neg (by omega), if_pos hab]
      · refine (hres _ ?_ ?_ a b hab).trans ?_
        · simp
        · intro a h1 h2
          constructor
          · rw [if_neg (by omega)]; exact if_pos (by omega)
          · rw [if_neg (by omega)]; exact if_pos (by omega)
        · simp only [toMat, restr]
          rw [if_neg hab]
    · rw [if_pos hg]
      have hU := hnz hg
      unfold rightReflect
      simp only [nonzero_of hU, Outcome.ok_bind, Outcome.pure_eq]
      refine ⟨_, rfl, ?_⟩
      ext a b
      have e1 : (G n U r i * toMat n n (restr (i + 1) V)) a b
          = restr (i + 1) V (a + 1) (b + 1)
            + (∑ k ∈ Icc (i + 1) n, U i k * restr (i + 1) V k (b + 1))
              / (r (i + 1) * U i (i + 1)) * cv n (fun a b => U b a) (i + 1) i a := by
        rw [G, refl_mul_apply]
        congr 3
        exact cv_dot (by omega) (fun a b => U b a) i (restr (i + 1) V) (b + 1)
      rw [e1]
      by_cases hab : (i + 1 ≤ (a : ℕ) + 1) ∧ i + 1 ≤ (b : ℕ) + 1
      · have e2 : ∑ k ∈ Icc (i + 1) n, U i k * restr (i + 1) V k (b + 1)
            = ∑ k ∈ Icc (i + 1) n, U i k * V k (b + 1) := by
          refine Finset.sum_congr rfl fun k hk => ?_
          unfold restr
          rw [if_pos ⟨(Finset.mem_Icc.mp hk).1, hab.2⟩]
        have e3 : cv n (fun a b => U b a) (i + 1) i a = U i (a + 1) := if_pos hab.1
        have e4 : restr (i + 1) V (a + 1) (b + 1) = V (a + 1) (b + 1) := if_pos hab
        rw [e2, e3, e4]
        simp only [toMat, restr]
        rw [if_pos (by omega), if_neg (by omega), if_neg (by omega), if_pos (by omega)]
        have e5 : ∀ k, (if (b : ℕ) + 1 = i ∧ i + 1 ≤ k ∧ k ≤ n then U i k / U i (i + 1) / r (i + 1)
            else V k (b + 1)) = V k (b + 1) := fun k => if_neg (by omega)
        simp only [e5]
        rw [if_pos ⟨trivial, hab.1, by omega⟩]
        field_simp
      · have e3 : (∑ k ∈ Icc (i + 1) n, U i k * restr (i + 1) V k (b + 1))
              / (r (i + 1) * U i (i + 1)) * cv n (fun a b => U b a) (i + 1) i a = 0 := by
          by_cases ha : i + 1 ≤ (a : ℕ) + 1
          · have : ∑ k ∈ Icc (i + 1) n, U i k * restr (i + 1) V k (b + 1) = 0 := by
              refine Finset.sum_eq_zero fun k hk => ?_
              have := Finset.mem_Icc.mp hk
              unfold restr delta
              rw [if_neg (by omega), if_neg (by omega), mul_zero]
            rw [this]; ring
          · have : cv n (fun a b => U b a) (i + 1) i a = 0 := if_neg ha
            rw [this, mul_zero]
        rw [e3, add_zero]
        refine (hres _ ?_ ?_ a b hab).trans ?_
        · simp
        · intro a h1 h2
          constructor
          · rw [if_neg (by omega)]; exact if_pos (by omega)
          · rw [if_neg (by omega)]; exact if_pos (by omega)
        · simp only [restr]
          rw [if_neg hab]
  · rw [if_neg hlt]
    refine ⟨_, rfl, ?_⟩
    rw [hGid (Or.inl (by omega)), Matrix.one_mul]
    ext a b
    refine (hres _ ?_ ?_ a b (by omega)).trans ?_
    · simp
    · intro a h1 h2; omega
    · simp only [toMat, restr]
      rw [if_neg (by omega)]

theorem rightLoop_ok {U : Arr2} {r : Arr}
    (hnz : ∀ k, 1 ≤ k → k ≤ n → r (k + 1) ≠ 0 → U k (k + 1) ≠ 0) (V : Arr2) :
    ∃ V', loopDown (fun i V => rightStep n U i V (r (i + 1))) n V = .ok V' ∧
      toMat n n V' = prodTo (G n U r) n := by
  have h0 : prodTo (G n U r) n * toMat n n (restr (n + 1) V) = prodTo (G n U r) n := by
    have : toMat n n (restr (n + 1) V) = 1 := by
      rw [← toMat_delta]
      ext a b
      simp only [toMat, restr]
      rw [if_neg (by omega)]
    rw [this, Matrix.mul_one]
  have hs : ∀ j V, j + 1 ≤ n →
      prodTo (G n U r) (j + 1) * toMat n n (restr (j + 1 + 1) V) = prodTo (G n U r) n →
      ∃ V', rightStep n U (j + 1) V (r (j + 1 + 1)) = .ok V' ∧
        prodTo (G n U r) j * toMat n n (restr (j + 1) V') = prodTo (G n U r) n := by
    intro j V hj h
    obtain ⟨V', e, h'⟩ := rightStep_ok (n := n) (r := r) (i := j + 1) (by omega) hj
      (hnz (j + 1) (by omega) hj) V
    refine ⟨V', e, ?_⟩
    rw [h', ← Matrix.mul_assoc]
    exact h
  obtain ⟨V', e, h⟩ := loopDown_inv (f := fun i V => rightStep n U i V (r (i + 1)))
    (fun k V => prodTo (G n U r) k * toMat n n (restr (k + 1) V) = prodTo (G n U r) n) n V h0 hs
  refine ⟨V', e, ?_⟩
  rw [prodTo, Matrix.one_mul] at h
  rw [← h]
  ext a b
  simp only [toMat, restr]
  rw [if_pos (by omega)]

/-! ## Accumulation of the left-hand transformations -/

/-- Row `i` cleared. -/
noncomputable def lU1 (n i : ℕ) (U : Arr2) : Arr2 := fun a b =>
  if a = i ∧ i + 1 ≤ b ∧ b ≤ n then 0 else U a b

/-- The columns after `i`. -/
noncomputable def lU2 (m n i : ℕ) (U : Arr2) (g : ℝ) : Arr2 := fun a b =>
  if (i + 1 ≤ b ∧ b ≤ n) ∧ i ≤ a ∧ a ≤ m then
    lU1 n i U a b
      + (∑ k ∈ Icc (i + 1) m, lU1 n i U k i * lU1 n i U k b) / lU1 n i U i i * g * lU1 n i U a i
  else lU1 n i U a b

/-- Column `i`. -/
noncomputable def lU3 (m n i : ℕ) (U : Arr2) (g : ℝ) : Arr2 := fun a b =>
  if b = i ∧ i ≤ a ∧ a ≤ m then lU2 m n i U g a b * g else lU2 m n i U g a b

/-- The result. -/
noncomputable def lU4 (m n i : ℕ) (U : Arr2) (g : ℝ) : Arr2 := fun a b =>
  if a = i ∧ b = i then lU3 m n i U g a b + 1 else lU3 m n i U g a b

theorem leftStep_eq {w : Arr} {i : ℕ} {U : Arr2} (hw : w i ≠ 0) :
    leftStep m n w i U = do
      nonzero (lU1 n i U i i)
      return lU4 m n i U (1 / w i) := by
  unfold leftStep
  rw [if_pos hw]
  rfl

theorem leftStep_ok {U0 U : Arr2} {w : Arr} {i : ℕ} (hi : 1 ≤ i) (him : i ≤ m)
    (hU : ∀ a k, k ≤ i → U a k = U0 a k) (hnz : w i ≠ 0 → U0 i i ≠ 0) :
    ∃ U', leftStep m n w i U = .ok U' ∧ (∀ a k, k < i → U' a k = U0 a k) ∧
      toMat m n (restr i U') = H m U0 w i * toMat m n (restr (i + 1) U) := by
  by_cases hw : w i = 0
  · unfold leftStep
    rw [if_neg (by simpa using hw)]
    refine ⟨_, rfl, ?_, ?_⟩
    · intro a k hk
      dsimp only
      rw [if_neg (by omega), if_neg (by omega), if_neg (by omega), hU a k (by omega)]
    · rw [H, hw, zero_mul, refl_d_zero, Matrix.one_mul]
      ext a b
      simp only [toMat, restr, delta]
      by_cases h1 : i ≤ (a : ℕ) + 1 ∧ i ≤ (b : ℕ) + 1
      · rw [if_pos h1]
        by_cases ha : (a : ℕ) + 1 = i
        · rw [if_neg (by omega : ¬(i + 1 ≤ (a : ℕ) + 1 ∧ i + 1 ≤ (b : ℕ) + 1))]
          by_cases hb : (b : ℕ) + 1 = i
          · rw [if_pos ⟨ha, hb⟩, if_pos (by omega), if_pos (by omega), zero_add]
          · rw [if_neg (by omega), if_neg (by omega), if_pos (by omega), if_neg (by omega)]
        · rw [if_neg (by omega)]
          by_cases hb : (b : ℕ) + 1 = i
          · rw [if_pos (by omega), if_neg (by omega), if_neg (by omega)]
          · rw [if_neg (by omega), if_neg (by omega), if_pos (by omega)]
      · rw [if_neg h1, if_neg (by omega : ¬(i + 1 ≤ (a : ℕ) + 1 ∧ i + 1 ≤ (b : ℕ) + 1))]
  · have h0 := hnz hw
    have hii : U i i ≠ 0 := by rw [hU i i le_rfl]; exact h0
    have h1 : ∀ a b, b ≤ i ∨ a ≠ i → lU1 n i U a b = U a b := fun a b h => if_neg (by omega)
    have h1i : ∀ b, i + 1 ≤ b → b ≤ n → lU1 n i U i b = 0 := fun b h1 h2 => if_pos ⟨rfl, h1, h2⟩
    have h2 : ∀ a b, b ≤ i ∨ a < i → lU2 m n i U (1 / w i) a b = U a b := by
      intro a b h
      unfold lU2
      rw [if_neg (by omega), h1 a b (by omega)]
    rw [leftStep_eq hw, h1 i i (by omega), nonzero_of hii]
    refine ⟨lU4 m n i U (1 / w i), rfl, ?_, ?_⟩
    · intro a k hk
      unfold lU4 lU3
      rw [if_neg (by omega), if_neg (by omega), h2 a k (by omega), hU a k (by omega)]
    · ext a b
      have e1 : (H m U0 w i * toMat m n (restr (i + 1) U)) a b
          = restr (i + 1) U (a + 1) (b + 1)
            + (∑ k ∈ Icc i m, U0 k i * restr (i + 1) U k (b + 1))
              / (w i * U0 i i) * cv m U0 i i a := by
        rw [H, refl_mul_apply]
        congr 3
        exact cv_dot hi U0 i (restr (i + 1) U) (b + 1)
      rw [e1]
      by_cases ha : i ≤ (a : ℕ) + 1
      · have e3 : cv m U0 i i a = U0 (a + 1) i := if_pos ha
        rw [e3]
        rcases Nat.lt_trichotomy ((b : ℕ) + 1) i with hb | hb | hb
        · have e2 : ∑ k ∈ Icc i m, U0 k i * restr (i + 1) U k (b + 1) = 0 := by
            refine Finset.sum_eq_zero fun k hk => ?_
            have := Finset.mem_Icc.mp hk
            unfold restr delta
            rw [if_neg (by omega), if_neg (by omega), mul_zero]
          rw [e2]
          simp only [toMat, restr]
          rw [if_neg (by omega), if_neg (by omega)]
          ring
        · have e2 : ∑ k ∈ Icc i m, U0 k i * restr (i + 1) U k (b + 1) = U0 i i := by
            have : ∀ k ∈ Icc i m, U0 k i * restr (i + 1) U k (b + 1) = U0 k i * delta k i := by
              intro k hk
              unfold restr
              rw [if_neg (by omega), hb]
            rw [Finset.sum_congr rfl this, sum_delta, if_pos (Finset.mem_Icc.mpr ⟨le_rfl, him⟩)]
          rw [e2]
          simp only [toMat, restr]
          rw [if_pos (by omega), if_neg (by omega), hb]
          unfold lU4 lU3 delta
          rw [h2 _ _ (by omega), hU _ _ le_rfl]
          by_cases hai : (a : ℕ) + 1 = i
          · rw [if_pos ⟨hai, rfl⟩, if_pos ⟨rfl, ha, by omega⟩, if_pos hai]
            field_simp
            ring
          · rw [if_neg (by omega), if_pos ⟨rfl, ha, by omega⟩, if_neg hai]
            field_simp
            ring
        · have e2 : ∑ k ∈ Icc i m, U0 k i * restr (i + 1) U k (b + 1)
              = ∑ k ∈ Icc (i + 1) m, lU1 n i U k i * lU1 n i U k (b + 1) := by
            have hI : Icc i m = insert i (Icc (i + 1) m) := by
              ext k
              simp only [Finset.mem_insert, Finset.mem_Icc]
              omega
            rw [hI, Finset.sum_insert (by simp)]
            have : restr (i + 1) U i (b + 1) = 0 := by
              unfold restr delta
              rw [if_neg (by omega), if_neg (by omega)]
            rw [this, mul_zero, zero_add]
            refine Finset.sum_congr rfl fun k hk => ?_
            have := Finset.mem_Icc.mp hk
            rw [h1 k i (by omega), h1 k _ (by omega), hU k i le_rfl]
            unfold restr
            rw [if_pos (by omega)]
          rw [e2]
          have e4 : restr (i + 1) U (a + 1) (b + 1) = lU1 n i U (a + 1) (b + 1) := by
            unfold restr
            by_cases hai : (a : ℕ) + 1 = i
            · rw [if_neg (by omega), hai, h1i _ (by omega) (by omega)]
              unfold delta
              rw [if_neg (by omega)]
            · rw [if_pos (by omega), h1 _ _ (by omega)]
          rw [e4]
          have e5 : toMat m n (restr i (lU4 m n i U (1 / w i))) a b
              = lU2 m n i U (1 / w i) (a + 1) (b + 1) := by
            simp only [toMat, restr]
            rw [if_pos (by omega)]
            unfold lU4 lU3
            rw [if_neg (by omega), if_neg (by omega)]
          rw [e5]
          unfold lU2
          rw [if_pos (by omega), h1 i i (by omega), h1 (a + 1) i (by omega), hU i i le_rfl,
            hU _ i le_rfl]
          generalize ∑ k ∈ Icc (i + 1) m, lU1 n i U k i * lU1 n i U k (b + 1) = S
          field_simp
      · have e3 : cv m U0 i i a = 0 := if_neg ha
        rw [e3, mul_zero, add_zero]
        simp only [toMat, restr]
        rw [if_neg (by omega), if_neg (by omega)]

theorem leftLoop_ok {U0 : Arr2} {w : Arr}
    (hnz : ∀ k, 1 ≤ k → k ≤ min n m → w k ≠ 0 → U0 k k ≠ 0) :
    ∃ U', loopDown (leftStep m n w) (min n m) U0 = .ok U' ∧
      toMat m n U' = prodTo (H m U0 w) (min n m) * toMat m n delta := by
  have h0 : (∀ a k, k ≤ min n m → U0 a k = U0 a k) ∧
      prodTo (H m U0 w) (min n m) * toMat m n (restr (min n m + 1) U0)
        = prodTo (H m U0 w) (min n m) * toMat m n delta := by
    refine ⟨fun _ _ _ => rfl, ?_⟩
    congr 1
    ext a b
    simp only [toMat, restr]
    rw [if_neg (by omega)]
  have hs : ∀ j U, j + 1 ≤ min n m → ((∀ a k, k ≤ j + 1 → U a k = U0 a k) ∧
      prodTo (H m U0 w) (j + 1) * toMat m n (restr (j + 1 + 1) U)
        = prodTo (H m U0 w) (min n m) * toMat m n delta) →
      ∃ U', leftStep m n w (j + 1) U = .ok U' ∧ (∀ a k, k ≤ j → U' a k = U0 a k) ∧
        prodTo (H m U0 w) j * toMat m n (restr (j + 1) U')
          = prodTo (H m U0 w) (min n m) * toMat m n delta := by
    rintro j U hj ⟨h1, h2⟩
    obtain ⟨U', e, h3, h4⟩ := leftStep_ok (m := m) (n := n) (w := w) (i := j + 1) (by omega)
      (by omega) h1 (hnz (j + 1) (by omega) hj)
    refine ⟨U', e, fun a k hk => h3 a k (by omega), ?_⟩
    rw [h4, ← Matrix.mul_assoc]
    exact h2
  obtain ⟨U', e, h⟩ := loopDown_inv (f := leftStep m n w)
    (fun j U => (∀ a k, k ≤ j → U a k = U0 a k) ∧
      prodTo (H m U0 w) j * toMat m n (restr (j + 1) U)
        = prodTo (H m U0 w) (min n m) * toMat m n delta) (min n m) U0 h0 hs
  refine ⟨U', e, ?_⟩
  have h2 := h.2
  rw [prodTo, Matrix.one_mul] at h2
  rw [← h2]
  ext a b
  simp only [toMat, restr]
  rw [if_pos (by omega)]

end BFL.SVD
