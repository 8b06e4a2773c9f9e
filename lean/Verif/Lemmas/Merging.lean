import Verif.Spec.Merging
import Verif.Lemmas.Bayes

set_option linter.unusedSectionVars false

/-! # Lemmas about merged states -/

namespace BFL

open Finset Spec

variable {K : Type} [Field K] [LinearOrder K] [IsStrictOrderedRing K]

/-- A sum over the old states of something that depends on the new state only. -/
theorem sum_merged {n m : Nat} {φ : Nat → Nat} (hφ : ∀ x < n, φ x < m) (p g : Nat → K) :
    ∑ X ∈ range m, g X * mergedMass n φ p X = ∑ x ∈ range n, g (φ x) * p x := by
  unfold mergedMass
  simp only [Finset.mul_sum]
  rw [Finset.sum_comm]
  refine Finset.sum_congr rfl fun x hx => ?_
  rw [Finset.sum_eq_single (φ x)]
  · simp
  · intro X _ hX
    rw [if_neg (fun h => hX h.symm), mul_zero]
  · intro h
    exact absurd (Finset.mem_range.2 (hφ x (Finset.mem_range.1 hx))) h

theorem sum_mergedMass {n m : Nat} {φ : Nat → Nat} (hφ : ∀ x < n, φ x < m) (p : Nat → K) :
    ∑ X ∈ range m, mergedMass n φ p X = ∑ x ∈ range n, p x := by
  have h := sum_merged hφ p fun _ => 1
  simpa using h

/-- One step, from masses that agree up to the factor `a`. -/
theorem merged_apply {n m : Nat} {φ : Nat → Nat} (hφ : ∀ x < n, φ x < m) {p p' : Nat → K} {a : K}
    (ha : 0 < a) (hp : ∀ X < m, mergedMass n φ p X = a * p' X) {s s' : Step K}
    (hs : s.Merges n m φ s') :
    ∃ b : K, 0 < b ∧ ∀ X < m, mergedMass n φ (s.apply n p) X = b * s'.apply m p' X := by
  cases s with
  | move T =>
    cases s' with
    | observe L' => exact absurd hs (by simp [Step.Merges])
    | move T' =>
      refine ⟨a, ha, fun Y hY => ?_⟩
      have e : mergedMass n φ (totalProbability n T p) Y =
          ∑ x ∈ range n, mergedMass n φ (fun y => T y x) Y * p x := by
        unfold mergedMass totalProbability
        simp only [Finset.sum_mul]
        rw [Finset.sum_comm]
        refine Finset.sum_congr rfl fun y _ => ?_
        by_cases h : φ y = Y
        · simp [h]
        · simp [h]
      show mergedMass n φ (totalProbability n T p) Y = a * totalProbability m T' p' Y
      rw [e, totalProbability, Finset.mul_sum]
      have e2 : ∑ x ∈ range n, mergedMass n φ (fun y => T y x) Y * p x =
          ∑ x ∈ range n, T' Y (φ x) * p x :=
        Finset.sum_congr rfl fun x hx => by rw [hs x (Finset.mem_range.1 hx) Y hY]
      rw [e2, ← sum_merged hφ p fun X => T' Y X]
      refine Finset.sum_congr rfl fun X hX => ?_
      rw [hp X (Finset.mem_range.1 hX)]
      ring
  | observe L =>
    cases s' with
    | move T' => exact absurd hs (by simp [Step.Merges])
    | observe L' =>
      obtain ⟨c, hc, hL⟩ := hs
      refine ⟨c * a, mul_pos hc ha, fun X hX => ?_⟩
      show mergedMass n φ (fun x => p x * L x) X = c * a * (p' X * L' X)
      have e : mergedMass n φ (fun x => p x * L x) X = c * L' X * mergedMass n φ p X := by
        unfold mergedMass
        rw [Finset.mul_sum]
        refine Finset.sum_congr rfl fun x hx => ?_
        by_cases h : φ x = X
        · rw [if_pos h, if_pos h]
          show p x * L x = _
          rw [hL x (Finset.mem_range.1 hx), h]; ring
        · rw [if_neg h, if_neg h, mul_zero]
      rw [e, hp X hX]
      ring

theorem merged_joint {n m : Nat} {φ : Nat → Nat} (hφ : ∀ x < n, φ x < m) {ss ss' : List (Step K)}
    (hs : List.Forall₂ (Step.Merges n m φ) ss ss') :
    ∀ {p p' : Nat → K} {a : K}, 0 < a → (∀ X < m, mergedMass n φ p X = a * p' X) →
      ∃ b : K, 0 < b ∧ ∀ X < m, mergedMass n φ (jointLast n p ss) X = b * jointLast m p' ss' X := by
  induction hs with
  | nil =>
    intro p p' a ha hp
    refine ⟨a, ha, fun X hX => ?_⟩
    rw [jointLast_nil m p' hX, ← hp X hX]
    exact Finset.sum_congr rfl fun x hx => by rw [jointLast_nil n p (Finset.mem_range.1 hx)]
  | @cons s s' ss ss' h _ ih =>
    intro p p' a ha hp
    obtain ⟨b, hb, h1⟩ := merged_apply hφ ha hp h
    obtain ⟨b', hb', h2⟩ := ih hb h1
    refine ⟨b', hb', fun X hX => ?_⟩
    rw [jointLast_cons, ← h2 X hX]
    exact Finset.sum_congr rfl fun x _ => by rw [jointLast_cons]

end BFL
