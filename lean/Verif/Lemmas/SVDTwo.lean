import Verif.Lemmas.SVD
import Mathlib.Tactic.LinearCombination

/-!
# Lemmas about the singular value decomposition: at most two columns

With one or two columns the shift is an eigenvalue, and one QR step suffices.
-/

set_option linter.unusedSectionVars false

namespace BFL.SVD

open Finset Matrix

variable {m n : ℕ}

theorem iterate_one {A : Matrix (Fin m) (Fin n) ℝ} {N : ℝ} (hN : 0 ≤ N) (hn : 1 ≤ n) (left : ℕ)
    (d : Diag) (h : Inv A N 1 d) : ∃ d', iterate N 1 left d = .ok (some d') := by
  obtain ⟨p, fl, e, hp, hpk, hnz, hf, ht⟩ := findSplit_ok hN h.first 1 le_rfl fun l h1 h2 =>
    h.good.diag h1 (by omega)
  obtain ⟨d1, e1, h1, hnz1, hr1⟩ := maybeCancel_ok h hn hp hpk hnz hf ht
  have hp1 : p = 1 := by omega
  subst hp1
  cases left <;>
  · unfold iterate
    simp only [e, Outcome.ok_bind, e1, Outcome.pure_eq, if_true]
    exact ⟨_, rfl⟩

/-- The shift for two columns. -/
theorem shift_two {w r : Arr} (h1 : r 1 = 0) (hr : r 2 ≠ 0) (hw : w 1 ≠ 0) :
    ∃ u F : ℝ, shift w r 1 2 = .ok (r 2 * u) ∧ u * u - 2 * u * F = 1 ∧
      2 * (r 2 * w 1) * F = w 1 * w 1 - w 2 * w 2 - r 2 * r 2 := by
  have hd : 2 * r 2 * w 1 ≠ 0 := mul_ne_zero (mul_ne_zero two_ne_zero hr) hw
  obtain ⟨F, hF⟩ : ∃ F, F = ((w 1 - w 2) * (w 1 + w 2) + (r 1 - r 2) * (r 1 + r 2)) / (2 * r 2 * w 1) :=
    ⟨_, rfl⟩
  have hF' : 2 * (r 2 * w 1) * F = w 1 * w 1 - w 2 * w 2 - r 2 * r 2 := by
    rw [hF, h1]; field_simp; ring
  have hp : pythag F 1 ≠ 0 := fun h => one_ne_zero (pythag_eq_zero.mp h).2
  have hu0 : F + sign (pythag F 1) F ≠ 0 := add_sign_ne_zero hp
  have hsq : sign (pythag F 1) F * sign (pythag F 1) F = F * F + 1 := by
    rw [sign_mul_self, pythag_mul_self]; ring
  obtain ⟨u, hu⟩ : ∃ u, u = F + sign (pythag F 1) F := ⟨_, rfl⟩
  have huu : u * u - 2 * u * F = 1 := by rw [hu]; linarith
  refine ⟨u, F, ?_, huu, hF'⟩
  unfold shift
  simp only [show 2 - 1 = 1 from rfl, nonzero_of hd, Outcome.ok_bind, ← hF, ← hu]
  rw [← hu] at hu0
  simp only [nonzero_of hu0, Outcome.ok_bind, nonzero_of hw, Outcome.pure_eq]
  congr 1
  have e1 : (w 1 - w 2) * (w 1 + w 2) = 2 * (r 2 * w 1) * F + r 2 * r 2 := by rw [hF']; ring
  rw [e1]
  field_simp
  linear_combination (-w 1) * huu

/-- After the QR step for two columns the matrix is diagonal, or its first diagonal entry is zero. -/
theorem chase_two {U V : Arr2} {w r : Arr} {u F : ℝ} (hr : r 2 ≠ 0)
    (hu : u * u - 2 * u * F = 1) (hF : 2 * (r 2 * w 1) * F = w 1 * w 1 - w 2 * w 2 - r 2 * r 2) :
    ∃ d, chase 1 2 1 1 1 1 (r 2 * u) (w 1) ⟨U, V, w, r⟩ = .ok d ∧ (d.rv1 2 = 0 ∨ d.w 1 = 0) := by
  have hz : pythag (r 2 * u) (r 2) ≠ 0 := fun h => hr (pythag_eq_zero.mp h).2
  simp only [chase, rotation, one_mul, Nat.reduceAdd, nonzero_of hz, Outcome.ok_bind,
    Outcome.pure_eq]
  generalize pythag (r 2 * u) (r 2) = z at hz ⊢
  refine ⟨_, rfl, ?_⟩
  generalize hf2 : w 1 * (r 2 * u / z) + r 2 * (r 2 / z) = f2
  generalize hh2 : w 2 * (r 2 / z) = h2
  dsimp only
  rw [upd_same, upd_ne (by norm_num), upd_same]
  by_cases hz2 : pythag f2 h2 = 0
  · right
    unfold rotation2
    rw [if_neg (by simpa using hz2)]
    exact hz2
  · left
    unfold rotation2
    rw [if_pos hz2]
    show f2 * (1 / pythag f2 h2) * (r 2 * (r 2 * u / z) - w 1 * (r 2 / z))
      + h2 * (1 / pythag f2 h2) * (w 2 * (r 2 * u / z)) = 0
    have e : f2 * (r 2 * (r 2 * u / z) - w 1 * (r 2 / z)) + h2 * (w 2 * (r 2 * u / z)) = 0 := by
      rw [← hf2, ← hh2]
      have : (w 1 * (r 2 * u / z) + r 2 * (r 2 / z)) * (r 2 * (r 2 * u / z) - w 1 * (r 2 / z))
          + w 2 * (r 2 / z) * (w 2 * (r 2 * u / z))
          = (r 2 / z) * (r 2 / z) * (w 1 * r 2 * (u * u - 1)
            - u * (w 1 * w 1 - w 2 * w 2 - r 2 * r 2)) := by
        ring
      rw [this, ← hF]
      have : w 1 * r 2 * (u * u - 1) - u * (2 * (r 2 * w 1) * F)
          = w 1 * r 2 * (u * u - 2 * u * F - 1) := by ring
      rw [this, hu]
      ring
    have : ∀ k a b c d : ℝ, a * k * b + c * k * d = k * (a * b + c * d) := by intros; ring
    rw [this]
    exact mul_eq_zero_of_right _ e

theorem iterate_two {A : Matrix (Fin m) (Fin n) ℝ} {N : ℝ} (hN : 0 ≤ N) (hn : 2 ≤ n) (left : ℕ)
    (d : Diag) (h : Inv A N 2 d) : ∃ d', iterate N 2 (left + 1) d = .ok (some d') := by
  have last : ∀ left d, Inv A N 2 d → d.rv1 2 = 0 ∨ d.w 1 = 0 →
      ∃ d', iterate N 2 left d = .ok (some d') := by
    intro left d h hz
    obtain ⟨p, fl, e, hp, hpk, hnz, hf, ht⟩ := findSplit_ok hN h.first 2 (by norm_num)
      fun l h1 h2 => h.good.diag h1 (by omega)
    obtain ⟨d1, e1, h1, hnz1, hr1⟩ := maybeCancel_ok h hn hp hpk hnz hf ht
    have hp2 : p = 2 := by
      by_contra hne
      have := hnz 2 (by omega) le_rfl
      rcases hz with hz | hz
      · exact this.1 hz
      · exact this.2 hz
    subst hp2
    cases left <;>
    · unfold iterate
      simp only [e, Outcome.ok_bind, e1, Outcome.pure_eq, if_true]
      exact ⟨_, rfl⟩
  by_cases hz : d.rv1 2 = 0 ∨ d.w 1 = 0
  · exact last _ d h hz
  · obtain ⟨p, fl, e, hp, hpk, hnz, hf, ht⟩ := findSplit_ok hN h.first 2 (by norm_num)
      fun l h1 h2 => h.good.diag h1 (by omega)
    push Not at hz
    have hp1 : p = 1 := by
      by_contra hne
      have hp2 : p = 2 := by omega
      subst hp2
      cases fl with
      | false => exact hz.1 (hf rfl)
      | true => exact hz.2 (ht rfl).2
    subst hp1
    have hfl : fl = false := by
      cases fl with
      | false => rfl
      | true => have := (ht rfl).1; omega
    subst hfl
    obtain ⟨u, F, es, hu, hF⟩ := shift_two h.first hz.1 hz.2
    obtain ⟨d2, e2, h2⟩ := chase_ok (m := m) (A := A) (N := N) (ppi := 1) (k := 2) le_rfl
      (by norm_num) hn 1 1 1 1 (d.rv1 2 * u) (d.w 1) d (by norm_num) le_rfl
      (by rw [chaseB_start h.first]; exact h.good)
      (fun _ => one_ne_zero) (fun l h3 h4 => (hnz l h3 h4).1) (fun l h3 h4 => by omega)
      h.tail (fun _ => h.first)
    obtain ⟨d3, e3, h3⟩ := chase_two (U := d.U) (V := d.V) hz.1 hu hF
    have : d3 = d2 := by
      have e3' : chase 1 2 1 1 1 1 (d.rv1 2 * u) (d.w 1) d = .ok d3 := e3
      rw [e2] at e3'
      cases e3'
      rfl
    subst this
    obtain ⟨d4, e4⟩ := last left d3 h2 h3
    unfold iterate
    simp only [e, Outcome.ok_bind, maybeCancel, Bool.false_eq_true, if_false, Outcome.pure_eq]
    rw [if_neg (by norm_num)]
    simp only [es, Outcome.ok_bind, e2, e4]
    exact ⟨d4, rfl⟩

open Spec in
theorem svd_two (A : Matrix (Fin m) (Fin n) ℝ) (hn : n ≤ 2) (w0 : Arr) (V0 : Arr2) :
    ∃ U w V, svd m n (toArr A) w0 V0 = .ok (some (U, w, V)) := by
  obtain ⟨st, e1, h1⟩ := biLoop_ok A (toArr A) (toMat_toArr A) w0
  obtain ⟨V, U, e2, e3, h2⟩ := start_ok h1 V0
  have hd1 : ∀ d, 1 ≤ n → Inv A st.anorm 1 d → ∃ d', diagonalise st.anorm 1 d = .ok (some d') := by
    intro d hn h
    obtain ⟨d', e⟩ := iterate_one h1.norm0 hn (maxIter - 1) d h
    refine ⟨d', ?_⟩
    unfold diagonalise
    rw [e]
    rfl
  have hd : ∃ d, diagonalise st.anorm n ⟨U, V, st.w, st.rv1⟩ = .ok (some d) := by
    obtain rfl | rfl | rfl : n = 0 ∨ n = 1 ∨ n = 2 := by omega
    · exact ⟨_, rfl⟩
    · exact hd1 _ le_rfl h2
    · obtain ⟨d', e⟩ := iterate_two h1.norm0 le_rfl (maxIter - 2) _ h2
      obtain ⟨o, e', ho⟩ := iterate_ok h1.norm0 (by norm_num) le_rfl (maxIter - 2 + 1) _ h2
      have : o = some d' := by
        rw [e] at e'
        cases e'
        rfl
      obtain ⟨d'', e2⟩ := hd1 d' (by norm_num) (ho d' this)
      refine ⟨d'', ?_⟩
      unfold diagonalise
      rw [show maxIter - 1 = maxIter - 2 + 1 from rfl, e]
      exact e2
  obtain ⟨d, e4⟩ := hd
  refine ⟨d.U, d.w, d.V, ?_⟩
  unfold svd
  simp only [e1, Outcome.ok_bind, e2, e3, e4, Outcome.pure_eq]
  rfl

end BFL.SVD
