import Verif.Spec.Bayes
import Mathlib.Algebra.Order.BigOperators.Group.Finset
import Mathlib.Algebra.Order.Field.Basic
import Mathlib.Algebra.BigOperators.Ring.Finset
import Mathlib.Algebra.BigOperators.Field
import Mathlib.Tactic.Ring
import Mathlib.Tactic.FieldSimp

/-!
# Lemmas about the trajectory sum
-/

set_option linter.unusedSectionVars false

namespace BFL.Spec

open Finset

variable {K : Type} [Field K]

/-- `paths n k` lists exactly the sequences of `k` states below `n`. -/
theorem mem_paths {n k : Nat} {xs : List Nat} :
    xs ∈ paths n k ↔ xs.length = k ∧ ∀ x ∈ xs, x < n := by
  induction k generalizing xs with
  | zero => cases xs <;> simp [paths]
  | succ k ih =>
    cases xs with
    | nil => simp [paths]
    | cons y ys =>
      simp only [paths, List.mem_flatMap, List.mem_range, List.mem_map, List.cons.injEq,
        List.length_cons, List.mem_cons, forall_eq_or_imp]
      constructor
      · rintro ⟨y', hy', ys', h, rfl, rfl⟩
        obtain ⟨h1, h2⟩ := ih.1 h
        exact ⟨by omega, hy', h2⟩
      · rintro ⟨h1, h2, h3⟩
        exact ⟨y, h2, ys, ih.2 ⟨by omega, h3⟩, rfl, rfl⟩

/-- No sequence is listed twice. -/
theorem nodup_paths (n k : Nat) : (paths n k).Nodup := by
  induction k with
  | zero => simp [paths]
  | succ k ih =>
    rw [paths, List.nodup_flatMap]
    refine ⟨fun y _ => ih.map (fun a b h => by simpa using h), ?_⟩
    refine List.Pairwise.imp ?_ List.nodup_range
    intro a b hab xs h1 h2
    obtain ⟨_, _, rfl⟩ := List.mem_map.1 h1
    obtain ⟨_, _, h⟩ := List.mem_map.1 h2
    simp only [List.cons.injEq] at h
    exact hab h.1.symm

theorem sum_paths_succ (n k : Nat) (f : List Nat → K) :
    ((paths n (k + 1)).map f).sum = ∑ y ∈ range n, ((paths n k).map fun xs => f (y :: xs)).sum := by
  rw [paths]
  generalize paths n k = l
  induction n with
  | zero => simp
  | succ n ih =>
    rw [List.range_succ, List.flatMap_append, List.map_append, List.sum_append, ih,
      Finset.sum_range_succ]
    simp [Function.comp_def]

theorem jointLast_nil (n : Nat) (p : Nat → K) {x : Nat} (hx : x < n) :
    jointLast n p [] x = p x := by
  simp only [jointLast, moves, paths, List.map_cons, List.map_nil, List.sum_cons, List.sum_nil,
    add_zero, List.getLast?_singleton, Option.some.injEq, weight, mul_one]
  rw [Finset.sum_ite_eq' (range n) x p]
  simp [hx]

theorem list_sum_mul {α : Type} (c : K) (l : List α) (f : α → K) :
    (l.map fun a => c * f a).sum = c * (l.map f).sum := by
  induction l with
  | nil => simp
  | cons a l ih => simp [ih, mul_add]

theorem list_sum_finset {α : Type} (l : List α) (s : Finset Nat) (f : α → Nat → K) :
    (l.map fun a => ∑ i ∈ s, f a i).sum = ∑ i ∈ s, (l.map fun a => f a i).sum := by
  induction l with
  | nil => simp
  | cons a l ih => simp [ih, Finset.sum_add_distrib]

theorem jointLast_observe (n : Nat) (p : Nat → K) (L : Nat → K) (ss : List (Step K)) (x : Nat) :
    jointLast n p (.observe L :: ss) x = jointLast n (fun y => p y * L y) ss x := by
  unfold jointLast
  apply Finset.sum_congr rfl
  intro x0 _
  congr 1
  apply List.map_congr_left
  intro xs _
  split
  · simp only [weight]; ring
  · rfl

theorem jointLast_move (n : Nat) (p : Nat → K) (T : Nat → Nat → K) (ss : List (Step K)) (x : Nat) :
    jointLast n p (.move T :: ss) x = jointLast n (totalProbability n T p) ss x := by
  unfold jointLast
  simp only [moves]
  have h : ∀ x0 ∈ range n, ((paths n (moves ss + 1)).map fun xs =>
      if (x0 :: xs).getLast? = some x then p x0 * weight (.move T :: ss) x0 xs else 0).sum =
      ∑ y ∈ range n, ((paths n (moves ss)).map fun xs =>
        if (y :: xs).getLast? = some x then T y x0 * p x0 * weight ss y xs else 0).sum := by
    intro x0 _
    rw [sum_paths_succ]
    apply Finset.sum_congr rfl
    intro y _
    congr 1
    apply List.map_congr_left
    intro xs _
    simp only [List.getLast?_cons_cons, weight]
    split
    · ring
    · rfl
  rw [Finset.sum_congr rfl h, Finset.sum_comm]
  apply Finset.sum_congr rfl
  intro y _
  rw [← list_sum_finset]
  congr 1
  apply List.map_congr_left
  intro xs _
  split
  · rw [totalProbability, Finset.sum_mul]
  · simp

theorem jointLast_smul (n : Nat) (c : K) (p : Nat → K) (ss : List (Step K)) (x : Nat) :
    jointLast n (fun y => c * p y) ss x = c * jointLast n p ss x := by
  unfold jointLast
  rw [Finset.mul_sum]
  apply Finset.sum_congr rfl
  intro x0 _
  rw [← list_sum_mul]
  congr 1
  apply List.map_congr_left
  intro xs _
  split
  · ring
  · simp

theorem jointLast_congr {n : Nat} {p q : Nat → K} (h : ∀ x < n, p x = q x) (ss : List (Step K))
    (x : Nat) : jointLast n p ss x = jointLast n q ss x := by
  unfold jointLast
  apply Finset.sum_congr rfl
  intro x0 hx0
  rw [h x0 (Finset.mem_range.1 hx0)]

theorem historyEvidence_smul (n : Nat) (c : K) (p : Nat → K) (ss : List (Step K)) :
    historyEvidence n (fun y => c * p y) ss = c * historyEvidence n p ss := by
  unfold historyEvidence
  rw [Finset.mul_sum]
  exact Finset.sum_congr rfl fun x _ => jointLast_smul n c p ss x

theorem historyEvidence_congr {n : Nat} {p q : Nat → K} (h : ∀ x < n, p x = q x)
    (ss : List (Step K)) : historyEvidence n p ss = historyEvidence n q ss :=
  Finset.sum_congr rfl fun x _ => jointLast_congr h ss x

/-- One step without normalisation. -/
def Step.apply (n : Nat) (p : Nat → K) : Step K → Nat → K
  | .move T => totalProbability n T p
  | .observe L => fun x => p x * L x

theorem jointLast_cons (n : Nat) (p : Nat → K) (s : Step K) (ss : List (Step K)) (x : Nat) :
    jointLast n p (s :: ss) x = jointLast n (s.apply n p) ss x := by
  cases s with
  | move T => exact jointLast_move n p T ss x
  | observe L => exact jointLast_observe n p L ss x

theorem historyEvidence_cons (n : Nat) (p : Nat → K) (s : Step K) (ss : List (Step K)) :
    historyEvidence n p (s :: ss) = historyEvidence n (s.apply n p) ss :=
  Finset.sum_congr rfl fun x _ => jointLast_cons n p s ss x

theorem historyEvidence_nil (n : Nat) (p : Nat → K) :
    historyEvidence n p [] = ∑ x ∈ range n, p x :=
  Finset.sum_congr rfl fun _ hx => jointLast_nil n p (Finset.mem_range.1 hx)

variable [LinearOrder K] [IsStrictOrderedRing K]

theorem Step.apply_nonneg {n : Nat} {p : Nat → K} (hp : ∀ x < n, 0 ≤ p x) {s : Step K}
    (hs : s.Nonneg n) : ∀ x < n, 0 ≤ s.apply n p x := by
  intro x hx
  cases s with
  | move T =>
    exact Finset.sum_nonneg fun y hy =>
      mul_nonneg (hs x hx y (Finset.mem_range.1 hy)) (hp y (Finset.mem_range.1 hy))
  | observe L => exact mul_nonneg (hp x hx) (hs x hx)

/-- If the evidence of the rest is positive, so is the mass it starts from. -/
theorem mass_pos_of_evidence {n : Nat} {q : Nat → K} (hq : ∀ x < n, 0 ≤ q x)
    {ss : List (Step K)} (h : 0 < historyEvidence n q ss) : 0 < ∑ x ∈ range n, q x := by
  have h0 : 0 ≤ ∑ x ∈ range n, q x :=
    Finset.sum_nonneg fun x hx => hq x (Finset.mem_range.1 hx)
  rcases h0.lt_or_eq with h1 | h1
  · exact h1
  · exfalso
    have hz : ∀ x < n, q x = 0 * q x := by
      intro x hx
      rw [zero_mul]
      exact (Finset.sum_eq_zero_iff_of_nonneg
        (fun x hx => hq x (Finset.mem_range.1 hx))).1 h1.symm x (Finset.mem_range.2 hx)
    rw [historyEvidence_congr hz, historyEvidence_smul, zero_mul] at h
    exact lt_irrefl _ h

end BFL.Spec
