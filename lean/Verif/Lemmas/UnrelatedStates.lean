import Verif.Spec.Unrelated
import Verif.Lemmas.Bayes

set_option linter.unusedSectionVars false

/-! Two unrelated systems with finitely many states. -/

namespace BFL.Spec

open Finset

variable {K : Type} [Field K]

theorem pair_div {n' a b : Nat} (hb : b < n') : (a * n' + b) / n' = a := by
  rw [Nat.add_comm, Nat.add_mul_div_right _ _ (by omega), Nat.div_eq_of_lt hb, Nat.zero_add]

theorem pair_mod {n' a b : Nat} (hb : b < n') : (a * n' + b) % n' = b := by
  rw [Nat.add_comm, Nat.add_mul_mod_self_right, Nat.mod_eq_of_lt hb]

theorem pair_lt {n n' a b : Nat} (ha : a < n) (hb : b < n') : a * n' + b < n * n' := by
  have : (a + 1) * n' ≤ n * n' := Nat.mul_le_mul_right _ ha
  rw [Nat.add_mul] at this
  omega

theorem div_lt_of {n n' x : Nat} (h : x < n * n') : x / n' < n :=
  Nat.div_lt_of_lt_mul (by rwa [Nat.mul_comm] at h)

theorem mod_lt_of {n n' x : Nat} (h : x < n * n') : x % n' < n' :=
  Nat.mod_lt _ (Nat.pos_of_ne_zero (by rintro rfl; simp at h))

/-- A sum over pairs. -/
theorem sum_pairs (n n' : Nat) (g : Nat → Nat → K) :
    ∑ x ∈ range (n * n'), g (x / n') (x % n') = ∑ a ∈ range n, ∑ b ∈ range n', g a b := by
  rw [← Finset.sum_product']
  refine Finset.sum_nbij' (fun x => (x / n', x % n')) (fun q => q.1 * n' + q.2) ?_ ?_ ?_ ?_ ?_
  · intro x hx
    have hx := Finset.mem_range.1 hx
    exact Finset.mem_product.2 ⟨Finset.mem_range.2 (div_lt_of hx), Finset.mem_range.2 (mod_lt_of hx)⟩
  · intro q hq
    obtain ⟨h1, h2⟩ := Finset.mem_product.1 hq
    exact Finset.mem_range.2 (pair_lt (Finset.mem_range.1 h1) (Finset.mem_range.1 h2))
  · intro x _
    exact Nat.div_add_mod' x n'
  · intro q hq
    obtain ⟨_, h2⟩ := Finset.mem_product.1 hq
    exact Prod.ext (pair_div (Finset.mem_range.1 h2)) (pair_mod (Finset.mem_range.1 h2))
  · intro x _; rfl

theorem totalProbability_pair (n n' : Nat) (T T' : Nat → Nat → K) (p p' : Nat → K) (y : Nat) :
    totalProbability (n * n') (fun y x => T (y / n') (x / n') * T' (y % n') (x % n'))
        (onPair n' fun a b => p a * p' b) y =
      totalProbability n T p (y / n') * totalProbability n' T' p' (y % n') := by
  unfold totalProbability
  rw [Finset.sum_mul_sum, ← sum_pairs]
  refine Finset.sum_congr rfl fun x _ => ?_
  simp only [onPair]
  ring

/-- Joint probabilities of the pair are products. -/
theorem jointLast_pair (n n' : Nat) (ts : List (TwoStep K)) : ∀ (p p' : Nat → K) (x : Nat),
    x < n * n' →
    jointLast (n * n') (onPair n' fun a b => p a * p' b) (ts.map (TwoStep.pair n')) x =
      jointLast n p (ts.flatMap TwoStep.one) (x / n') *
        jointLast n' p' (ts.flatMap TwoStep.two) (x % n') := by
  induction ts with
  | nil =>
    intro p p' x hx
    simp only [List.map_nil, List.flatMap_nil]
    rw [jointLast_nil _ _ hx, jointLast_nil _ _ (div_lt_of hx), jointLast_nil _ _ (mod_lt_of hx)]
    rfl
  | cons t ts ih =>
    intro p p' x hx
    rw [List.map_cons, List.flatMap_cons, List.flatMap_cons]
    cases t with
    | move T T' =>
      simp only [TwoStep.pair, TwoStep.one, TwoStep.two, List.cons_append, List.nil_append]
      rw [jointLast_move, jointLast_move, jointLast_move, ← ih _ _ _ hx]
      exact jointLast_congr (fun y _ => totalProbability_pair n n' T T' p p' y) _ _
    | first L =>
      simp only [TwoStep.pair, TwoStep.one, TwoStep.two, List.cons_append, List.nil_append]
      rw [jointLast_observe, jointLast_observe, ← ih _ _ _ hx]
      refine jointLast_congr (fun y _ => ?_) _ _
      simp only [onPair]; ring
    | second L =>
      simp only [TwoStep.pair, TwoStep.one, TwoStep.two, List.cons_append, List.nil_append]
      rw [jointLast_observe, jointLast_observe, ← ih _ _ _ hx]
      refine jointLast_congr (fun y _ => ?_) _ _
      simp only [onPair]; ring
    | both L L' =>
      simp only [TwoStep.pair, TwoStep.one, TwoStep.two, List.cons_append, List.nil_append]
      rw [jointLast_observe, jointLast_observe, jointLast_observe, ← ih _ _ _ hx]
      refine jointLast_congr (fun y _ => ?_) _ _
      simp only [onPair]; ring

theorem historyEvidence_pair (n n' : Nat) (ts : List (TwoStep K)) (p p' : Nat → K) :
    historyEvidence (n * n') (onPair n' fun a b => p a * p' b) (ts.map (TwoStep.pair n')) =
      historyEvidence n p (ts.flatMap TwoStep.one) * historyEvidence n' p' (ts.flatMap TwoStep.two) := by
  unfold historyEvidence
  rw [Finset.sum_mul_sum, ← sum_pairs]
  exact Finset.sum_congr rfl fun x hx => jointLast_pair n n' ts p p' x (Finset.mem_range.1 hx)

variable [LinearOrder K] [IsStrictOrderedRing K]

theorem TwoStep.nonneg_pair {n n' : Nat} {t : TwoStep K} (h : t.Nonneg n n') :
    (t.pair n').Nonneg (n * n') := by
  cases t with
  | move T T' =>
    intro y hy x hx
    exact mul_nonneg (h.1 _ (div_lt_of hy) _ (div_lt_of hx)) (h.2 _ (mod_lt_of hy) _ (mod_lt_of hx))
  | first L => intro x hx; exact h _ (div_lt_of hx)
  | second L => intro x hx; exact h _ (mod_lt_of hx)
  | both L L' => intro x hx; exact mul_nonneg (h.1 _ (div_lt_of hx)) (h.2 _ (mod_lt_of hx))

theorem TwoStep.nonneg_one {n n' : Nat} {t : TwoStep K} (h : t.Nonneg n n') :
    ∀ s ∈ t.one, s.Nonneg n := by
  cases t <;> simp only [TwoStep.one, List.mem_cons, List.not_mem_nil, or_false, forall_eq,
    false_imp_iff, implies_true]
  · exact h.1
  · exact h
  · exact h.1

theorem TwoStep.nonneg_two {n n' : Nat} {t : TwoStep K} (h : t.Nonneg n n') :
    ∀ s ∈ t.two, s.Nonneg n' := by
  cases t <;> simp only [TwoStep.two, List.mem_cons, List.not_mem_nil, or_false, forall_eq,
    false_imp_iff, implies_true]
  · exact h.2
  · exact h
  · exact h.2

end BFL.Spec
