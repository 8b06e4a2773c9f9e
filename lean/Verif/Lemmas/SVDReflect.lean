import Verif.Lemmas.SVDBase
import Mathlib.Algebra.BigOperators.Field

/-!
# Lemmas about the singular value decomposition: one Householder reflection
-/

set_option linter.unusedSectionVars false

namespace BFL.SVD

open Finset Matrix

/-- Column `q` from row `p` on. -/
def cv (M : ℕ) (U : Arr2) (p q : ℕ) : Fin M → ℝ := fun a => if p ≤ (a : ℕ) + 1 then U (a + 1) q else 0

theorem cv_dot {M p : ℕ} (hp : 1 ≤ p) (U : Arr2) (q : ℕ) (L : Arr2) (b : ℕ) :
    ∑ k : Fin M, cv M U p q k * L (k + 1) b = ∑ k ∈ Icc p M, U k q * L k b := by
  rw [← sum_fin_from M p hp fun k => U k q * L k b]
  refine Finset.sum_congr rfl fun k _ => ?_
  unfold cv
  split
  · rfl
  · rw [zero_mul]

theorem cv_self {M p : ℕ} (hp : 1 ≤ p) (U : Arr2) (q : ℕ) :
    cv M U p q ⬝ᵥ cv M U p q = ∑ k ∈ Icc p M, U k q * U k q := by
  rw [← sum_fin_from M p hp fun k => U k q * U k q]
  refine Finset.sum_congr rfl fun k _ => ?_
  unfold cv
  split
  · rfl
  · rw [zero_mul]

/-- Both reflections of an iteration have this form: the reflection maps the part of column `q` from
row `p` on to a multiple of a unit vector, and it is applied to the columns after `q`. -/
noncomputable def reflG (M N p q : ℕ) (U : Arr2) (scale : ℝ) : Outcome (Arr2 × ℝ) := do
  let U1 : Arr2 := fun a b => if b = q ∧ p ≤ a ∧ a ≤ M then U a b / scale else U a b
  let s := ∑ k ∈ Icc p M, U1 k q * U1 k q
  let f := U1 p q
  let g := -sign (√s) f
  let h := f * g - s
  let U2 : Arr2 := fun a b => if a = p ∧ b = q then f - g else U1 a b
  nonzero h
  let U3 : Arr2 := fun a b =>
    if (q + 1 ≤ b ∧ b ≤ N) ∧ p ≤ a ∧ a ≤ M then
      U2 a b + (∑ k ∈ Icc p M, U2 k q * U2 k b) / h * U2 a q
    else U2 a b
  let U4 : Arr2 := fun a b => if b = q ∧ p ≤ a ∧ a ≤ M then U3 a b * scale else U3 a b
  return (U4, g)

theorem colReflect_eq (m n i : ℕ) (U : Arr2) (scale : ℝ) :
    colReflect m n i U scale = reflG m n i i U scale := rfl

theorem rowReflect_eq (m n i : ℕ) (U : Arr2) (scale : ℝ) :
    rowReflect m n i U scale = do
      let r ← reflG n m (i + 1) i (fun a b => U b a) scale
      return ((fun a b => r.1 b a), r.2) := by
  simp only [rowReflect, reflG]
  have h1 : ∀ a b : ℕ, (b = i + 1 ∧ a = i) ↔ (a = i ∧ b = i + 1) := fun a b => and_comm
  simp only [h1]
  generalize nonzero _ = o
  cases o with
  | ok u =>
    simp only [Outcome.ok_bind, Outcome.pure_eq]
    have e : ∀ x y z : ℝ, x * (y / z) = x / z * y := fun x y z => by ring
    simp only [e]
    simp only [true_and, and_true]
    refine congrArg Outcome.ok (Prod.ext (funext fun a => funext fun b => ?_) rfl)
    have key : ∀ {P : Prop} [Decidable P] {x y z t : ℝ} {F G : ℕ → ℝ},
        (if P then x + (∑ k ∈ Icc (i + 1) n, F k * G k) / y * z else t)
          = if P then x + (∑ k ∈ Icc (i + 1) n, G k * F k) / y * z else t := by
      intro P _ x y z t F G
      rw [Finset.sum_congr rfl fun k _ => mul_comm (F k) (G k)]
    exact if_congr Iff.rfl (congrArg (· * scale) key) key
  | abort => rfl
  | ub => rfl

/-- The numbers of a Householder reflection. -/
theorem house {p M : ℕ} {x : ℕ → ℝ} {scale : ℝ} (hs : scale = ∑ k ∈ Icc p M, |x k|)
    (h0 : scale ≠ 0) {s g : ℝ} (hss : s = ∑ k ∈ Icc p M, x k / scale * (x k / scale))
    (hg : g = -sign (√s) (x p / scale)) :
    p ≤ M ∧ g * g = s ∧ g ≠ 0 ∧ x p - scale * g ≠ 0 ∧ x p / scale * g - s ≠ 0 ∧
    (x p / scale * g - s) * (scale * scale) = scale * g * (x p - scale * g) ∧
    ∑ k ∈ Icc p M, (x k - if k = p then scale * g else 0) * (x k - if k = p then scale * g else 0)
      = -2 * (scale * g * (x p - scale * g)) ∧
    ∑ k ∈ Icc p M, (x k - if k = p then scale * g else 0) * x k
      = -(scale * g * (x p - scale * g)) := by
  have hpM : p ≤ M := by
    by_contra h
    rw [Finset.Icc_eq_empty h, Finset.sum_empty] at hs
    exact h0 hs
  have hsq : s * (scale * scale) = ∑ k ∈ Icc p M, x k * x k := by
    rw [hss, Finset.sum_mul]
    refine Finset.sum_congr rfl fun k _ => ?_
    field_simp
  have hs0 : 0 ≤ s := by
    rw [hss]; exact Finset.sum_nonneg fun k _ => mul_self_nonneg _
  have hsne : s ≠ 0 := by
    intro h
    rw [h, zero_mul] at hsq
    have := (Finset.sum_eq_zero_iff_of_nonneg fun k _ => mul_self_nonneg (x k)).mp hsq.symm
    apply h0
    rw [hs]
    refine Finset.sum_eq_zero fun k hk => ?_
    rw [mul_self_eq_zero.mp (this k hk), abs_zero]
  have hgg : g * g = s := by
    rw [hg, neg_mul_neg, sign_mul_self, Real.mul_self_sqrt hs0]
  have hg0 : g ≠ 0 := by
    intro h; rw [h, zero_mul] at hgg; exact hsne hgg.symm
  have hsqrt : √s ≠ 0 := fun h => hsne ((Real.sqrt_eq_zero hs0).mp h)
  have hf : x p / scale - g ≠ 0 := by
    rw [hg, sub_neg_eq_add]; exact add_sign_ne_zero hsqrt
  have hv : x p - scale * g ≠ 0 := by
    have : x p - scale * g = scale * (x p / scale - g) := by field_simp
    rw [this]; exact mul_ne_zero h0 hf
  have hh : x p / scale * g - s = g * (x p / scale - g) := by rw [← hgg]; ring
  have hpm : p ∈ Icc p M := Finset.mem_Icc.mpr ⟨le_rfl, hpM⟩
  have e1 : ∑ k ∈ Icc p M, (if k = p then scale * g else 0) * x k = scale * g * x p := by
    simp only [ite_mul, zero_mul]
    rw [Finset.sum_ite_eq' (Icc p M) p, if_pos hpm]
  have e2 : ∑ k ∈ Icc p M, (if k = p then scale * g else 0) * (if k = p then scale * g else 0)
      = scale * g * (scale * g) := by
    have : ∀ k : ℕ, (if k = p then scale * g else 0) * (if k = p then scale * g else 0)
        = if k = p then scale * g * (scale * g) else 0 := by
      intro k; split <;> ring
    simp only [this]
    rw [Finset.sum_ite_eq' (Icc p M) p, if_pos hpm]
  refine ⟨hpM, hgg, hg0, hv, by rw [hh]; exact mul_ne_zero hg0 hf, ?_, ?_, ?_⟩
  · rw [hh]; field_simp
  · have : ∀ k, (x k - if k = p then scale * g else 0) * (x k - if k = p then scale * g else 0)
        = x k * x k - 2 * ((if k = p then scale * g else 0) * x k)
          + (if k = p then scale * g else 0) * (if k = p then scale * g else 0) := by
      intro k; ring
    simp only [this]
    rw [Finset.sum_add_distrib, Finset.sum_sub_distrib, ← Finset.mul_sum, e1, e2, ← hsq, ← hgg]
    ring
  · simp only [sub_mul]
    rw [Finset.sum_sub_distrib, e1, ← hsq, ← hgg]
    ring

/-- The scaled column. -/
noncomputable def rU1 (M p q : ℕ) (U : Arr2) (scale : ℝ) : Arr2 := fun a b =>
  if b = q ∧ p ≤ a ∧ a ≤ M then U a b / scale else U a b

/-- The scaled vector of the reflection. -/
noncomputable def rU2 (M p q : ℕ) (U : Arr2) (scale g : ℝ) : Arr2 := fun a b =>
  if a = p ∧ b = q then rU1 M p q U scale p q - g else rU1 M p q U scale a b

/-- The other columns. -/
noncomputable def rU3 (M N p q : ℕ) (U : Arr2) (scale g h : ℝ) : Arr2 := fun a b =>
  if (q + 1 ≤ b ∧ b ≤ N) ∧ p ≤ a ∧ a ≤ M then
    rU2 M p q U scale g a b
      + (∑ k ∈ Icc p M, rU2 M p q U scale g k q * rU2 M p q U scale g k b) / h
        * rU2 M p q U scale g a q
  else rU2 M p q U scale g a b

/-- The result. -/
noncomputable def rU4 (M N p q : ℕ) (U : Arr2) (scale g h : ℝ) : Arr2 := fun a b =>
  if b = q ∧ p ≤ a ∧ a ≤ M then rU3 M N p q U scale g h a b * scale
  else rU3 M N p q U scale g h a b

theorem reflG_eq {M N p q : ℕ} {U : Arr2} {scale s g : ℝ}
    (hs : s = ∑ k ∈ Icc p M, rU1 M p q U scale k q * rU1 M p q U scale k q)
    (hg : g = -sign (√s) (rU1 M p q U scale p q)) :
    reflG M N p q U scale = do
      nonzero (rU1 M p q U scale p q * g - s)
      return (rU4 M N p q U scale g (rU1 M p q U scale p q * g - s), g) := by
  rw [hg, hs]; rfl

theorem rU1_col {M p q a : ℕ} {U : Arr2} {scale : ℝ} (h1 : p ≤ a) (h2 : a ≤ M) :
    rU1 M p q U scale a q = U a q / scale := if_pos ⟨rfl, h1, h2⟩

theorem rU1_other {M p q a b : ℕ} {U : Arr2} {scale : ℝ} (h : b ≠ q ∨ a < p) :
    rU1 M p q U scale a b = U a b := if_neg (by omega)

theorem rU2_col {M p q a : ℕ} {U : Arr2} {scale g : ℝ} (h0 : scale ≠ 0) (h1 : p ≤ a) (h2 : a ≤ M) :
    rU2 M p q U scale g a q = (U a q - if a = p then scale * g else 0) / scale := by
  unfold rU2
  by_cases hap : a = p
  · subst hap
    rw [if_pos ⟨rfl, rfl⟩, if_pos rfl, rU1_col h1 h2]
    field_simp
  · rw [if_neg (by tauto), if_neg hap, rU1_col h1 h2, sub_zero]

theorem rU2_other {M p q a b : ℕ} {U : Arr2} {scale g : ℝ} (h : b ≠ q ∨ a < p) :
    rU2 M p q U scale g a b = U a b := by
  unfold rU2
  rw [if_neg (by omega), rU1_other h]

theorem reflG_ok {M N p q : ℕ} {U : Arr2} {scale : ℝ} (hs : scale = ∑ k ∈ Icc p M, |U k q|)
    (h0 : scale ≠ 0) :
    ∃ U' g, reflG M N p q U scale = .ok (U', g) ∧
      (∀ a b, b < q ∨ a < p → U' a b = U a b) ∧
      scale * g ≠ 0 ∧ U' p q ≠ 0 ∧
      (∀ a, p ≤ a → a ≤ M → U' a q = U a q - if a = p then scale * g else 0) ∧
      ∑ k ∈ Icc p M, U' k q * U' k q = -2 * (scale * g * U' p q) ∧
      ∑ k ∈ Icc p M, U' k q * U k q = -(scale * g * U' p q) ∧
      ∀ a b, q < b → b ≤ N → p ≤ a → a ≤ M →
        U' a b = U a b + (∑ k ∈ Icc p M, U' k q * U k b) / (scale * g * U' p q) * U' a q := by
  have hpM : p ≤ M := by
    by_contra h
    rw [Finset.Icc_eq_empty h, Finset.sum_empty] at hs
    exact h0 hs
  obtain ⟨s, hss⟩ : ∃ s, s = ∑ k ∈ Icc p M, rU1 M p q U scale k q * rU1 M p q U scale k q :=
    ⟨_, rfl⟩
  obtain ⟨g, hg⟩ : ∃ g, g = -sign (√s) (rU1 M p q U scale p q) := ⟨_, rfl⟩
  rw [reflG_eq hss hg]
  have hss' : s = ∑ k ∈ Icc p M, U k q / scale * (U k q / scale) := by
    rw [hss]
    refine Finset.sum_congr rfl fun k hk => ?_
    rw [rU1_col (Finset.mem_Icc.mp hk).1 (Finset.mem_Icc.mp hk).2]
  rw [rU1_col le_rfl hpM] at hg ⊢
  obtain ⟨-, hgg, hg0, hv, hh, hd, hvv, hvx⟩ := house (x := fun k => U k q) hs h0 hss' hg
  obtain ⟨h, hh'⟩ : ∃ h, h = U p q / scale * g - s := ⟨_, rfl⟩
  simp only [← hh'] at hh hd ⊢
  have hcol : ∀ a, p ≤ a → a ≤ M →
      rU4 M N p q U scale g h a q = U a q - if a = p then scale * g else 0 := by
    intro a h1 h2
    unfold rU4 rU3
    rw [if_pos ⟨rfl, h1, h2⟩, if_neg (by omega), rU2_col h0 h1 h2, div_mul_cancel₀ _ h0]
  have hpp : rU4 M N p q U scale g h p q = U p q - scale * g := by
    rw [hcol p le_rfl hpM, if_pos rfl]
  refine ⟨rU4 M N p q U scale g h, g, by rw [nonzero_of hh]; rfl, ?_, mul_ne_zero h0 hg0, ?_, hcol,
    ?_, ?_, ?_⟩
  · intro a b hab
    unfold rU4 rU3
    rw [if_neg (by omega), if_neg (by omega), rU2_other (by omega)]
  · rw [hpp]; exact hv
  · rw [hpp, ← hvv]
    refine Finset.sum_congr rfl fun k hk => ?_
    rw [hcol k (Finset.mem_Icc.mp hk).1 (Finset.mem_Icc.mp hk).2]
  · rw [hpp, ← hvx]
    refine Finset.sum_congr rfl fun k hk => ?_
    rw [hcol k (Finset.mem_Icc.mp hk).1 (Finset.mem_Icc.mp hk).2]
  · intro a b h1 h2 h3 h4
    have e1 : ∑ k ∈ Icc p M, rU2 M p q U scale g k q * rU2 M p q U scale g k b
        = (∑ k ∈ Icc p M, rU4 M N p q U scale g h k q * U k b) / scale := by
      rw [Finset.sum_div]
      refine Finset.sum_congr rfl fun k hk => ?_
      have hk' := Finset.mem_Icc.mp hk
      rw [hcol k hk'.1 hk'.2, rU2_col h0 hk'.1 hk'.2, rU2_other (by omega)]
      ring
    have e2 : rU4 M N p q U scale g h a b
        = U a b + (∑ k ∈ Icc p M, rU2 M p q U scale g k q * rU2 M p q U scale g k b) / h
          * rU2 M p q U scale g a q := by
      conv_lhs => unfold rU4 rU3
      rw [if_neg (by omega), if_pos (by omega), rU2_other (by omega)]
    rw [e2, e1, hpp, ← hd, rU2_col h0 h3 h4, hcol a h3 h4]
    generalize ∑ k ∈ Icc p M, rU4 M N p q U scale g h k q * U k b = S
    generalize (U a q - if a = p then scale * g else 0) = T
    field_simp

/-! ## The step, whatever the column -/

/-- What one of the two steps does: `U` becomes `U'`, and `ω` is the entry left in the column. -/
structure Step (M N p q : ℕ) (U U' : Arr2) (ω : ℝ) : Prop where
  frame : ∀ a b, b < q ∨ a < p → U' a b = U a b
  orth : refl (cv M U' p q) (ω * U' p q) * refl (cv M U' p q) (ω * U' p q) = 1
  nz : ω ≠ 0 → U' p q ≠ 0
  red : ∀ X : Arr2, (∀ a b, p ≤ a → q ≤ b → X a b = U a b) → (∀ a b, p ≤ a → b < q → X a b = 0) →
    refl (cv M U' p q) (ω * U' p q) * toMat M N X = toMat M N fun a b =>
      if a < p then X a b else if b < q then 0 else if b = q then (if a = p then ω else 0) else U' a b

theorem refl_d_zero {N : ℕ} (v : Fin N → ℝ) : refl v 0 = 1 := by simp [refl]

theorem Step.trivial {M N p q : ℕ} {U : Arr2} (h : M < p ∨ N < q ∨ ∀ k, p ≤ k → k ≤ M → U k q = 0) :
    Step M N p q U U 0 := by
  refine ⟨fun _ _ _ => rfl, ?_, fun h => absurd rfl h, ?_⟩
  · rw [zero_mul, refl_d_zero, one_mul]
  · intro X h1 h2
    rw [zero_mul, refl_d_zero, Matrix.one_mul]
    ext a b
    simp only [toMat]
    by_cases ha : (a : ℕ) + 1 < p
    · rw [if_pos ha]
    · rw [if_neg ha]
      by_cases hb : (b : ℕ) + 1 < q
      · rw [if_pos hb, h2 _ _ (by omega) hb]
      · rw [if_neg hb, h1 _ _ (by omega) (by omega)]
        by_cases hbq : (b : ℕ) + 1 = q
        · rw [if_pos hbq, ite_self, hbq]
          rcases h with h | h | h
          · omega
          · omega
          · exact h _ (by omega) (by omega)
        · rw [if_neg hbq]

theorem Step.of_reflG {M N p q : ℕ} {U : Arr2} {scale : ℝ} (hp : 1 ≤ p)
    (hs : scale = ∑ k ∈ Icc p M, |U k q|) (h0 : scale ≠ 0) :
    ∃ U' g, reflG M N p q U scale = .ok (U', g) ∧ Step M N p q U U' (scale * g) := by
  obtain ⟨U', g, e, hfr, hw, hpq, hcol, hvv, hvx, hoth⟩ := reflG_ok (N := N) hs h0
  refine ⟨U', g, e, hfr, ?_, fun _ => hpq, ?_⟩
  · exact refl_mul_self (by rw [cv_self hp, hvv])
  · intro X h1 h2
    have hd : scale * g * U' p q ≠ 0 := mul_ne_zero hw hpq
    ext a b
    rw [refl_mul_apply]
    have e1 : ∑ k, cv M U' p q k * toMat M N X k b = ∑ k ∈ Icc p M, U' k q * X k (b + 1) :=
      cv_dot hp U' q X (b + 1)
    rw [e1]
    simp only [toMat, cv]
    by_cases ha : (a : ℕ) + 1 < p
    · rw [if_pos ha, if_neg (by omega), mul_zero, add_zero]
    · rw [if_neg ha, if_pos (by omega)]
      by_cases hb : (b : ℕ) + 1 < q
      · have : ∑ k ∈ Icc p M, U' k q * X k (b + 1) = 0 :=
          Finset.sum_eq_zero fun k hk => by rw [h2 k _ (Finset.mem_Icc.mp hk).1 hb, mul_zero]
        rw [if_pos hb, this, h2 _ _ (by omega) hb]
        ring
      · have : ∑ k ∈ Icc p M, U' k q * X k (b + 1) = ∑ k ∈ Icc p M, U' k q * U k (b + 1) :=
          Finset.sum_congr rfl fun k hk => by rw [h1 k _ (Finset.mem_Icc.mp hk).1 (by omega)]
        rw [if_neg hb, this, h1 _ _ (by omega) (by omega)]
        by_cases hbq : (b : ℕ) + 1 = q
        · rw [if_pos hbq, hbq, hvx, neg_div, div_self hd, hcol (a + 1) (by omega) (by omega)]
          ring
        · rw [if_neg hbq, hoth (a + 1) (b + 1) (by omega) (by omega) (by omega) (by omega)]

theorem colStep_ok {m n i : ℕ} (hi : 1 ≤ i) (U : Arr2) :
    ∃ U' sc g, colStep m n i U = .ok (U', sc, g) ∧ Step m n i i U U' (sc * g) ∧
      (m < i → sc * g = 0) := by
  unfold colStep
  by_cases him : i ≤ m
  · rw [if_pos him]
    by_cases h0 : ∑ k ∈ Icc i m, |U k i| = 0
    · refine ⟨U, 0, 0, ?_, ?_, fun _ => by ring⟩
      · simp only [h0, ne_eq, not_true_eq_false, if_false]
      · rw [zero_mul]
        refine Step.trivial (Or.inr (Or.inr fun k h1 h2 => ?_))
        exact abs_eq_zero.mp ((Finset.sum_eq_zero_iff_of_nonneg fun k _ => abs_nonneg _).mp h0 k
          (Finset.mem_Icc.mpr ⟨h1, h2⟩))
    · obtain ⟨U', g, e, h⟩ := Step.of_reflG (N := n) hi rfl h0
      refine ⟨U', _, g, ?_, h, fun _ => by omega⟩
      simp only [ne_eq, h0, not_false_eq_true, if_true, colReflect_eq, e, Outcome.ok_bind,
        Outcome.pure_eq]
  · rw [if_neg him]
    refine ⟨U, 0, 0, rfl, ?_, fun _ => by ring⟩
    rw [zero_mul]
    exact Step.trivial (Or.inl (by omega))

theorem rowStep_ok {m n i : ℕ} (U : Arr2) :
    ∃ U' sc g, rowStep m n i U = .ok (U', sc, g) ∧
      Step n m (i + 1) i (fun a b => U b a) (fun a b => U' b a) (sc * g) ∧
      (m < i → sc * g = 0) ∧ (i = n → sc * g = 0) := by
  unfold rowStep
  by_cases him : i ≤ m ∧ i ≠ n
  · rw [if_pos him]
    by_cases h0 : ∑ k ∈ Icc (i + 1) n, |U i k| = 0
    · refine ⟨U, 0, 0, ?_, ?_, fun _ => by ring, fun _ => by ring⟩
      · simp only [h0, ne_eq, not_true_eq_false, if_false]
      · rw [zero_mul]
        refine Step.trivial (Or.inr (Or.inr fun k h1 h2 => ?_))
        exact abs_eq_zero.mp ((Finset.sum_eq_zero_iff_of_nonneg fun k _ => abs_nonneg _).mp h0 k
          (Finset.mem_Icc.mpr ⟨h1, h2⟩))
    · obtain ⟨U', g, e, h⟩ := Step.of_reflG (M := n) (p := i + 1) (q := i) (N := m)
        (U := fun a b => U b a) (by omega) rfl h0
      refine ⟨fun a b => U' b a, _, g, ?_, h, fun _ => by omega, fun _ => by omega⟩
      simp only [ne_eq, h0, not_false_eq_true, if_true, rowReflect_eq, e, Outcome.ok_bind,
        Outcome.pure_eq]
  · rw [if_neg him]
    refine ⟨U, 0, 0, rfl, ?_, fun _ => by ring, fun _ => by ring⟩
    rw [zero_mul]
    by_cases h : i ≤ m
    · exact Step.trivial (Or.inl (by omega))
    · exact Step.trivial (Or.inr (Or.inl (by omega)))

end BFL.SVD
