import Verif.Spec.Evidence
import Verif.Spec.Particles
import Verif.Lemmas.Bayes
import Verif.Lemmas.Kalman
import Mathlib.LinearAlgebra.Matrix.SchurComplement
import Mathlib.Tactic.Ring
import Mathlib.Tactic.NoncommRing
import Mathlib.Tactic.FieldSimp

/-!
# Lemmas about histories that tell the same
-/

set_option linter.unusedSectionVars false

namespace BFL

open Spec Finset

section histogram

variable {K : Type} [Field K]

theorem jointLast_observes (n : Nat) (Ls : List (Nat → K)) (p : Nat → K) (ss : List (Step K))
    (x : Nat) : jointLast n p (Ls.map .observe ++ ss) x =
      jointLast n (fun y => p y * (Ls.map fun L => L y).prod) ss x := by
  induction Ls generalizing p with
  | nil => simp
  | cons L Ls ih =>
    rw [List.map_cons, List.cons_append, jointLast_observe, ih]
    apply jointLast_congr
    intro y _
    simp only [List.map_cons, List.prod_cons]
    ring

variable [LinearOrder K] [IsStrictOrderedRing K]

theorem Spec.SameEvidence.joint {n : Nat} {ss ss' : List (Step K)} (h : SameEvidence n ss ss') :
    ∃ c, 0 < c ∧ ∀ (p : Nat → K), ∀ x < n, jointLast n p ss x = c * jointLast n p ss' x := by
  induction h with
  | nil => exact ⟨1, zero_lt_one, fun p x _ => by rw [one_mul]⟩
  | move T _ ih =>
    obtain ⟨c, hc, ih⟩ := ih
    exact ⟨c, hc, fun p x hx => by rw [jointLast_move, jointLast_move, ih _ x hx]⟩
  | readings Ls Ls' d hd hL _ ih =>
    obtain ⟨c, hc, ih⟩ := ih
    refine ⟨d * c, mul_pos hd hc, fun p x hx => ?_⟩
    rw [jointLast_observes, jointLast_observes, ih _ x hx, mul_comm d c, mul_assoc]
    congr 1
    rw [← jointLast_smul]
    apply jointLast_congr
    intro y hy
    rw [hL y hy]
    ring

end histogram

section particles

variable {X K : Type} [Field K]

theorem reweightedBy_comp {G G' : X → K} {l : List (X × K)}
    (h : (l.map fun b => b.2 * G b.1).sum ≠ 0) :
    reweightedBy G' (reweightedBy G l) = reweightedBy (fun x => G x * G' x) l := by
  unfold reweightedBy
  rw [List.map_map]
  apply List.map_congr_left
  intro a _
  simp only [Function.comp_apply, List.map_map]
  generalize hs : (l.map fun b => b.2 * G b.1).sum = s at h
  have e : (l.map ((fun b : X × K => b.2 * G' b.1) ∘ fun a : X × K => (a.1, a.2 * G a.1 / s))).sum =
      (l.map fun b => b.2 * (G b.1 * G' b.1)).sum / s := by
    rw [div_eq_mul_inv, mul_comm _ s⁻¹, ← list_sum_mul]
    congr 1
    apply List.map_congr_left
    intro b _
    simp only [Function.comp_apply]
    ring
  rw [e]
  congr 1
  generalize (l.map fun b => b.2 * (G b.1 * G' b.1)).sum = t
  by_cases ht : t = 0
  · simp [ht]
  · field_simp

theorem reweightedBy_scale {G G' : X → K} {c : K} (hc : c ≠ 0) {l : List (X × K)}
    (h : ∀ a ∈ l, G a.1 = c * G' a.1) : reweightedBy G l = reweightedBy G' l := by
  unfold reweightedBy
  have e : (l.map fun b => b.2 * G b.1).sum = c * (l.map fun b => b.2 * G' b.1).sum := by
    rw [← list_sum_mul]
    congr 1
    apply List.map_congr_left
    intro b hb
    rw [h b hb]
    ring
  apply List.map_congr_left
  intro a ha
  rw [e, h a ha]
  congr 1
  generalize (l.map fun b => b.2 * G' b.1).sum = t
  by_cases ht : t = 0
  · simp [ht]
  · field_simp

end particles

section kalman

open Matrix

variable {K : Type} [Field K] {n m : Nat}

theorem det_information {P : Matrix (Fin n) (Fin n) K} {H : Matrix (Fin m) (Fin n) K}
    {R : Matrix (Fin m) (Fin m) K} (hS : (innovCov P H R).det ≠ 0) (hR : R.det ≠ 0) :
    (1 + Hᵀ * R⁻¹ * H * P).det ≠ 0 := by
  rw [Matrix.mul_assoc, Matrix.det_one_add_mul_comm]
  have e : (1 : Matrix (Fin m) (Fin m) K) + H * P * (Hᵀ * R⁻¹) = innovCov P H R * R⁻¹ := by
    rw [innovCov, Matrix.add_mul, Matrix.mul_nonsing_inv _ hR.isUnit, add_comm]
    simp only [Matrix.mul_assoc]
  rw [e, Matrix.det_mul]
  refine mul_ne_zero hS ?_
  rw [Matrix.det_nonsing_inv]
  exact (hR.isUnit.ringInverse).ne_zero

/-- One more reading. -/
theorem information_step {P P' P'' J J' : Matrix (Fin n) (Fin n) K} (h : P' * (1 + J * P) = P)
    (h' : P'' * (1 + J' * P') = P') : P'' * (1 + (J + J') * P) = P ∧
      1 + (J + J') * P = (1 + J' * P') * (1 + J * P) := by
  have e : 1 + (J + J') * P = (1 + J' * P') * (1 + J * P) := by
    rw [Matrix.add_mul 1, Matrix.one_mul, Matrix.mul_assoc J', h]
    noncomm_ring
  exact ⟨by rw [e, ← Matrix.mul_assoc, h', h], e⟩

theorem information_mean {P' P'' J J' : Matrix (Fin n) (Fin n) K} {x x' b b' : Fin n → K}
    (h' : P'' * (1 + J' * P') = P') (hx : x' = x + P' *ᵥ (b - J *ᵥ x)) :
    x' + P'' *ᵥ (b' - J' *ᵥ x') = x + P'' *ᵥ (b + b' - (J + J') *ᵥ x) := by
  have e : P' = P'' + P'' * (J' * P') := by
    conv_lhs => rw [← h']
    rw [Matrix.mul_add, Matrix.mul_one]
  have e2 : P' *ᵥ (b - J *ᵥ x) = P'' *ᵥ (b - J *ᵥ x) + P'' *ᵥ (J' *ᵥ (P' *ᵥ (b - J *ᵥ x))) := by
    conv_lhs => rw [e]
    rw [Matrix.add_mulVec, ← Matrix.mulVec_mulVec, ← Matrix.mulVec_mulVec]
  have e3 : b + b' - (J + J') *ᵥ x = (b - J *ᵥ x) + (b' - J' *ᵥ x) := by
    rw [Matrix.add_mulVec]; abel
  rw [e3, hx]
  generalize b - J *ᵥ x = v at *
  have e4 : b' - J' *ᵥ (x + P' *ᵥ v) = (b' - J' *ᵥ x) - J' *ᵥ (P' *ᵥ v) := by
    rw [Matrix.mulVec_add]; abel
  rw [e4, Matrix.mulVec_sub, Matrix.mulVec_add]
  generalize P'' *ᵥ (J' *ᵥ (P' *ᵥ v)) = t at *
  rw [e2]
  abel

end kalman

end BFL
