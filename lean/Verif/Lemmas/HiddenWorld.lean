import Verif.Lemmas.Bayes
import Verif.Spec.HiddenWorld
import Mathlib.Algebra.Order.BigOperators.Group.Finset
import Mathlib.Algebra.BigOperators.Ring.Finset
import Mathlib.Tactic.Linarith
import Mathlib.Tactic.Ring

/-! # Sums over all records of a plan -/

set_option linter.unusedSectionVars false

namespace BFL

open Finset Spec

variable {Z K : Type} [Fintype Z] [Field K] [LinearOrder K] [IsStrictOrderedRing K]

theorem plan_sum_congr (plan : Plan Z K) : ∀ {F G : List Z → K}, (∀ zs, plan.Record zs → F zs = G zs) →
    plan.sum F = plan.sum G := by
  induction plan with
  | stop => intro F G h; exact h [] rfl
  | move T next ih => intro F G h; exact ih h
  | sense L next ih =>
    intro F G h
    exact Finset.sum_congr rfl fun z _ => ih z fun zs hz => h (z :: zs) hz

theorem plan_sum_le (plan : Plan Z K) : ∀ {F G : List Z → K}, (∀ zs, plan.Record zs → F zs ≤ G zs) →
    plan.sum F ≤ plan.sum G := by
  induction plan with
  | stop => intro F G h; exact h [] rfl
  | move T next ih => intro F G h; exact ih h
  | sense L next ih =>
    intro F G h
    exact Finset.sum_le_sum fun z _ => ih z fun zs hz => h (z :: zs) hz

theorem plan_sum_mul (plan : Plan Z K) (c : K) : ∀ F : List Z → K,
    plan.sum (fun zs => c * F zs) = c * plan.sum F := by
  induction plan with
  | stop => intro F; rfl
  | move T next ih => intro F; exact ih F
  | sense L next ih =>
    intro F
    simp only [Plan.sum]
    rw [Finset.mul_sum]
    exact Finset.sum_congr rfl fun z _ => ih z _

theorem plan_sum_add (plan : Plan Z K) : ∀ F G : List Z → K,
    plan.sum (fun zs => F zs + G zs) = plan.sum F + plan.sum G := by
  induction plan with
  | stop => intro F G; rfl
  | move T next ih => intro F G; exact ih F G
  | sense L next ih =>
    intro F G
    simp only [Plan.sum]
    rw [← Finset.sum_add_distrib]
    exact Finset.sum_congr rfl fun z _ => ih z _ _

theorem plan_nonneg {n : Nat} (plan : Plan Z K) (h : plan.Proper n) :
    ∀ zs, ∀ s ∈ plan.steps zs, s.Nonneg n := by
  induction plan with
  | stop => intro zs s hs; simp [Plan.steps] at hs
  | move T next ih =>
    intro zs s hs
    simp only [Plan.steps, List.mem_cons] at hs
    rcases hs with rfl | hs
    · exact h.1
    · exact ih h.2.2 zs s hs
  | sense L next ih =>
    intro zs s hs
    cases zs with
    | nil => simp [Plan.steps] at hs
    | cons z zs =>
      simp only [Plan.steps, List.mem_cons] at hs
      rcases hs with rfl | hs
      · exact h.1 z
      · exact ih z (h.2.2 z) zs s hs

theorem jointLast_nonneg {n : Nat} {ss : List (Step K)} : ∀ {q : Nat → K}, (∀ s ∈ ss, s.Nonneg n) →
    (∀ x < n, 0 ≤ q x) → ∀ x < n, 0 ≤ jointLast n q ss x := by
  induction ss with
  | nil => intro q _ hq x hx; rw [jointLast_nil n q hx]; exact hq x hx
  | cons s ss ih =>
    intro q hss hq x hx
    rw [jointLast_cons]
    exact ih (fun s hs => hss s (by simp [hs])) (Step.apply_nonneg hq (hss s (by simp))) x hx

theorem totalProbability_total {n : Nat} {T : Nat → Nat → K} (h : ∀ x < n, ∑ y ∈ range n, T y x = 1)
    (p : Nat → K) : ∑ y ∈ range n, totalProbability n T p y = ∑ x ∈ range n, p x := by
  simp only [totalProbability]
  rw [Finset.sum_comm]
  refine Finset.sum_congr rfl fun x hx => ?_
  rw [← Finset.sum_mul, h x (Finset.mem_range.1 hx), one_mul]

/-- The probabilities of all records sum to one. -/
theorem plan_total {n : Nat} (plan : Plan Z K) (h : plan.Proper n) : ∀ p : Nat → K,
    plan.sum (fun zs => plan.chance n p zs) = ∑ x ∈ range n, p x := by
  induction plan with
  | stop => intro p; exact historyEvidence_nil n p
  | move T next ih =>
    intro p
    rw [← totalProbability_total h.2.1, ← ih h.2.2 (totalProbability n T p)]
    refine plan_sum_congr next fun zs _ => ?_
    exact historyEvidence_cons n p (.move T) _
  | sense L next ih =>
    intro p
    have e : ∑ x ∈ range n, p x = ∑ z, ∑ x ∈ range n, p x * L z x := by
      rw [Finset.sum_comm]
      refine Finset.sum_congr rfl fun x hx => ?_
      rw [← Finset.mul_sum, h.2.1 x (Finset.mem_range.1 hx), mul_one]
    rw [e]
    refine Finset.sum_congr rfl fun z _ => ?_
    rw [← ih z (h.2.2 z) (fun x => p x * L z x)]
    refine plan_sum_congr (next z) fun zs _ => ?_
    exact historyEvidence_cons n p (.observe (L z)) _

end BFL
