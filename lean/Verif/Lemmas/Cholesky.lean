import Verif.Model.Cholesky
import Verif.Lemmas.Linear
import Verif.Spec.Cholesky
import Mathlib.Algebra.QuadraticDiscriminant
import Mathlib.Algebra.BigOperators.Field
import Mathlib.Tactic.Ring
import Mathlib.Tactic.Linarith
import Mathlib.Tactic.Positivity

set_option linter.unusedSectionVars false

namespace BFL

open Matrix Spec

variable {K : Type} [Field K] [LinearOrder K] [IsStrictOrderedRing K] {n : Nat}

section loops

theorem setEntry_apply (a : Matrix (Fin n) (Fin n) K) (i j : Fin n) (v : K) (p q : Fin n) :
    setEntry a i j v p q = if p = i ∧ q = j then v else a p q := rfl

theorem mem_above {k i : Fin n} : i ∈ above k ↔ k < i := by simp [above]

theorem mem_fromIndex {k i : Fin n} : i ∈ fromIndex k ↔ k ≤ i := by simp [fromIndex]

theorem above_nodup (k : Fin n) : (above k).Nodup := (List.nodup_finRange n).filter _

theorem fromIndex_nodup (k : Fin n) : (fromIndex k).Nodup := (List.nodup_finRange n).filter _

theorem cholScale_list (eps : K) (k : Fin n) (l : List (Fin n)) (hl : l.Nodup) (hk : k ∉ l)
    (a : Matrix (Fin n) (Fin n) K) (p q : Fin n) :
    (l.foldl (fun a i => setEntry a i k (if a k k < eps then 0 else a i k / a k k)) a) p q =
      if q = k ∧ p ∈ l then (if a k k < eps then 0 else a p k / a k k) else a p q := by
  induction l generalizing a with
  | nil => simp
  | cons i l ih =>
    rw [List.nodup_cons] at hl
    simp only [List.mem_cons, not_or] at hk
    rw [List.foldl_cons, ih hl.2 hk.2]
    simp only [setEntry_apply, List.mem_cons]
    by_cases hq : q = k
    · subst hq
      by_cases hp : p = i
      · subst hp; simp [hl.1]
      · simp [hp, hk.1]
    · simp [hq]

theorem cholScale_apply (eps : K) (a : Matrix (Fin n) (Fin n) K) (k p q : Fin n) :
    cholScale eps a k p q =
      if q = k ∧ k < p then (if a k k < eps then 0 else a p k / a k k) else a p q := by
  rw [cholScale, cholScale_list eps k _ (above_nodup k) (by simp [mem_above])]
  simp [mem_above]

theorem cholReduceColumn_list (k j : Fin n) (hj : k ≠ j) (l : List (Fin n)) (hl : l.Nodup)
    (a : Matrix (Fin n) (Fin n) K) (p q : Fin n) :
    (l.foldl (fun a i => setEntry a i j (a i j - a i k * a j k)) a) p q =
      if q = j ∧ p ∈ l then a p j - a p k * a j k else a p q := by
  induction l generalizing a with
  | nil => simp
  | cons i l ih =>
    rw [List.nodup_cons] at hl
    rw [List.foldl_cons, ih hl.2]
    simp only [setEntry_apply, List.mem_cons]
    by_cases hq : q = j
    · subst hq
      by_cases hp : p = i
      · subst hp; simp [hl.1]
      · simp [hp, hj]
    · simp [hq]

theorem cholReduce_list (k : Fin n) (l : List (Fin n)) (hl : l.Nodup) (hk : k ∉ l)
    (a : Matrix (Fin n) (Fin n) K) (p q : Fin n) :
    (l.foldl (cholReduceColumn k) a) p q =
      if q ∈ l ∧ q ≤ p then a p q - a p k * a q k else a p q := by
  induction l generalizing a with
  | nil => simp
  | cons j l ih =>
    rw [List.nodup_cons] at hl
    simp only [List.mem_cons, not_or] at hk
    rw [List.foldl_cons, ih hl.2 hk.2]
    simp only [cholReduceColumn, cholReduceColumn_list k j hk.1 _ (fromIndex_nodup j),
      mem_fromIndex, List.mem_cons]
    by_cases hq : q = j
    · subst hq; simp [hl.1]
    · simp [hq, hk.1]

theorem cholReduce_apply (a : Matrix (Fin n) (Fin n) K) (k p q : Fin n) :
    cholReduce a k p q = if k < q ∧ q ≤ p then a p q - a p k * a q k else a p q := by
  rw [cholReduce, cholReduce_list k _ (above_nodup k) (by simp [mem_above])]
  simp [mem_above]

theorem zeroUpper_inner (i : Fin n) (l : List (Fin n)) (a : Matrix (Fin n) (Fin n) K)
    (p q : Fin n) :
    (l.foldl (fun a j => setEntry a i j 0) a) p q = if p = i ∧ q ∈ l then 0 else a p q := by
  induction l generalizing a with
  | nil => simp
  | cons j l ih =>
    rw [List.foldl_cons, ih]
    simp only [setEntry_apply, List.mem_cons]
    by_cases hp : p = i <;> by_cases hq : q = j <;> simp [hp, hq]

theorem zeroUpper_list (l : List (Fin n)) (a : Matrix (Fin n) (Fin n) K) (p q : Fin n) :
    (l.foldl (fun a i => (above i).foldl (fun a j => setEntry a i j 0) a) a) p q =
      if p ∈ l ∧ p < q then 0 else a p q := by
  induction l generalizing a with
  | nil => simp
  | cons i l ih =>
    rw [List.foldl_cons, ih]
    simp only [zeroUpper_inner, mem_above, List.mem_cons]
    by_cases hp : p = i
    · subst hp; by_cases h : p < q <;> simp [h]
    · simp [hp]

theorem zeroUpper_apply (a : Matrix (Fin n) (Fin n) K) (p q : Fin n) :
    zeroUpper a p q = if p < q then 0 else a p q := by
  rw [zeroUpper, zeroUpper_list]; simp

/-- One iteration of the outer loop. -/
def cholStep (sqrt : K → K) (eps : K) (a : Matrix (Fin n) (Fin n) K) (k : Fin n) :
    Matrix (Fin n) (Fin n) K :=
  cholReduce (cholScale eps (setEntry (cholSnap eps a k) k k
    (sqrt (cholSnap eps a k k k))) k) k

/-- The pivot after snapping. -/
def snapped (eps x : K) : K := if x < eps ∧ -eps < x then 0 else x

theorem cholSnap_pivot (eps : K) (a : Matrix (Fin n) (Fin n) K) (k : Fin n) :
    cholSnap eps a k k k = snapped eps (a k k) := by
  unfold cholSnap snapped; split <;> simp [setEntry_apply]

theorem cholSnap_other (eps : K) (a : Matrix (Fin n) (Fin n) K) (k p q : Fin n)
    (h : ¬(p = k ∧ q = k)) : cholSnap eps a k p q = a p q := by
  unfold cholSnap; split <;> simp [setEntry_apply, h]

theorem cholLoop_cons (sqrt : K → K) (eps : K) (k : Fin n) (ks : List (Fin n))
    (a : Matrix (Fin n) (Fin n) K) :
    cholLoop sqrt eps (k :: ks) a =
      if snapped eps (a k k) < 0 then none
      else cholLoop sqrt eps ks (cholStep sqrt eps a k) := by
  simp only [cholLoop, cholSnap_pivot, cholStep]

/-- The column of the factor computed in one iteration. -/
def cholCol (sqrt : K → K) (eps : K) (a : Matrix (Fin n) (Fin n) K) (k i : Fin n) : K :=
  if i = k then sqrt (snapped eps (a k k))
  else if sqrt (snapped eps (a k k)) < eps then 0 else a i k / sqrt (snapped eps (a k k))

theorem cholStep_apply (sqrt : K → K) (eps : K) (a : Matrix (Fin n) (Fin n) K) (k p q : Fin n)
    (h : q ≤ p) :
    cholStep sqrt eps a k p q =
      if q < k then a p q else if q = k then cholCol sqrt eps a k p
      else a p q - cholCol sqrt eps a k p * cholCol sqrt eps a k q := by
  have h1 : ∀ i j : Fin n, (setEntry (cholSnap eps a k) k k (sqrt (snapped eps (a k k)))) i j =
      if i = k ∧ j = k then sqrt (snapped eps (a k k)) else a i j := by
    intro i j
    rw [setEntry_apply]
    split
    · rfl
    · next hh => exact cholSnap_other eps a k i j hh
  have h2 : ∀ i : Fin n, k ≤ i → cholScale eps (setEntry (cholSnap eps a k) k k
      (sqrt (snapped eps (a k k)))) k i k = cholCol sqrt eps a k i := by
    intro i hi
    rw [cholScale_apply, cholCol]
    simp only [h1, and_self, if_true, and_true, true_and]
    rcases hi.eq_or_lt with rfl | hlt
    · simp
    · simp [hlt, hlt.ne']
  have h3 : ∀ i j : Fin n, j ≠ k → cholScale eps (setEntry (cholSnap eps a k) k k
      (sqrt (snapped eps (a k k)))) k i j = a i j := by
    intro i j hj
    rw [cholScale_apply]
    simp only [h1, hj, false_and, and_false, if_false]
  simp only [cholStep, cholSnap_pivot]
  rw [cholReduce_apply]
  rcases lt_trichotomy q k with hq | hq | hq
  · simp only [hq, not_lt_of_gt hq, false_and, if_false, if_true, h3 p q hq.ne]
  · subst hq
    simp only [lt_irrefl, false_and, if_false, if_true, h2 p h]
  · simp only [hq, h, not_lt_of_gt hq, and_self, if_true, if_false, hq.ne', h3 p q hq.ne',
      h2 q hq.le, h2 p (hq.le.trans h)]

/-- Induction over the outer loop: an invariant holds at the end, or a pivot was negative. -/
theorem cholLoop_induct (sqrt : K → K) (eps : K) (P : Nat → Matrix (Fin n) (Fin n) K → Prop)
    (step : ∀ k (hk : k < n) a, P k a → ¬ snapped eps (a ⟨k, hk⟩ ⟨k, hk⟩) < 0 →
      P (k + 1) (cholStep sqrt eps a ⟨k, hk⟩))
    (k : Nat) (hk : k ≤ n) (a : Matrix (Fin n) (Fin n) K) (h0 : P k a) :
    (∃ a', cholLoop sqrt eps ((List.finRange n).drop k) a = some a' ∧ P n a') ∨
    (cholLoop sqrt eps ((List.finRange n).drop k) a = none ∧
      ∃ j, ∃ hj : j < n, ∃ b, P j b ∧ snapped eps (b ⟨j, hj⟩ ⟨j, hj⟩) < 0) := by
  obtain ⟨d, hd⟩ : ∃ d, d = n - k := ⟨_, rfl⟩
  induction d generalizing k a with
  | zero =>
    have : k = n := by omega
    subst this
    left; refine ⟨a, ?_, h0⟩
    rw [List.drop_eq_nil_of_le (by simp)]; rfl
  | succ d ih =>
    have hlt : k < n := by omega
    have e : (List.finRange n).drop k = ⟨k, hlt⟩ :: (List.finRange n).drop (k + 1) := by
      rw [List.drop_eq_getElem_cons (by simpa using hlt)]; simp
    rw [e, cholLoop_cons]
    by_cases hs : snapped eps (a ⟨k, hlt⟩ ⟨k, hlt⟩) < 0
    · rw [if_pos hs]
      exact Or.inr ⟨rfl, k, hlt, a, h0, hs⟩
    · rw [if_neg hs]
      exact ih (k + 1) hlt _ (step k hlt a h0 hs) (by omega)

theorem snapped_cases (eps x : K) (h0 : 0 < eps) (h : ¬ snapped eps x < 0) :
    (-eps < x ∧ x < eps ∧ snapped eps x = 0) ∨ (eps ≤ x ∧ snapped eps x = x) := by
  unfold snapped at *
  split at h
  · next h1 => left; exact ⟨h1.2, h1.1, by rw [if_pos h1]⟩
  · next h1 =>
    right
    refine ⟨?_, by rw [if_neg h1]⟩
    by_contra hc
    push Not at hc h
    exact h1 ⟨hc, by linarith⟩

theorem isSqrt_zero {sqrt : K → K} (hs : IsSqrt sqrt) : sqrt 0 = 0 := by
  have := (hs 0 le_rfl).2
  exact mul_self_eq_zero.mp this

/-- The column of the factor: zero for a dropped pivot, otherwise the column over the root. -/
theorem cholCol_cases {sqrt : K → K} {eps : K} (hs : IsSqrt sqrt) (h0 : 0 < eps) (h1 : eps ≤ 1)
    (a : Matrix (Fin n) (Fin n) K) (k : Fin n) (h : ¬ snapped eps (a k k) < 0) :
    (-eps < a k k ∧ a k k < eps ∧ ∀ i, cholCol sqrt eps a k i = 0) ∨
    (eps ≤ a k k ∧ ∃ r, 0 < r ∧ r * r = a k k ∧ ∀ i, cholCol sqrt eps a k i = a i k / r) := by
  rcases snapped_cases eps _ h0 h with ⟨h2, h3, h4⟩ | ⟨h2, h3⟩
  · left; refine ⟨h2, h3, fun i => ?_⟩
    simp [cholCol, h4, isSqrt_zero hs, h0]
  · right; refine ⟨h2, sqrt (a k k), ?_⟩
    obtain ⟨h4, h5⟩ := hs (a k k) (h0.le.trans h2)
    have h6 : sqrt (a k k) ≠ 0 := by
      intro e; rw [e, mul_zero] at h5; linarith
    have h7 : 0 < sqrt (a k k) := lt_of_le_of_ne h4 h6.symm
    have h8 : ¬ sqrt (a k k) < eps := by
      intro hc
      have : sqrt (a k k) * sqrt (a k k) < eps * 1 :=
        mul_lt_mul'' hc (hc.trans_le h1) h4 h4
      linarith
    refine ⟨h7, h5, fun i => ?_⟩
    rw [cholCol, h3]
    split
    · next e => subst e; rw [eq_div_iff h6, h5]
    · simp [h8]

end loops

section invariant

/-- The columns of the factor finished so far. -/
def finished (k : Nat) (a : Matrix (Fin n) (Fin n) K) : Matrix (Fin n) (Fin n) K :=
  Matrix.of fun i c => if c.val < k ∧ c ≤ i then a i c else 0

/-- What is left of `A` when the finished columns are taken out. -/
def residual (A : Matrix (Fin n) (Fin n) K) (k : Nat) (a : Matrix (Fin n) (Fin n) K) :
    Matrix (Fin n) (Fin n) K := A - finished k a * (finished k a)ᵀ

theorem residual_symm {A : Matrix (Fin n) (Fin n) K} (hA : Aᵀ = A) (k : Nat)
    (a : Matrix (Fin n) (Fin n) K) : (residual A k a)ᵀ = residual A k a := by
  rw [residual, transpose_sub, hA, transpose_mul, transpose_transpose]

theorem residual_zero (A a : Matrix (Fin n) (Fin n) K) : residual A 0 a = A := by
  have : finished 0 a = 0 := by ext i j; simp [finished]
  rw [residual, this]; simp

theorem finished_step (sqrt : K → K) (eps : K) (a : Matrix (Fin n) (Fin n) K) (k : Fin n)
    (i c : Fin n) :
    finished (k.val + 1) (cholStep sqrt eps a k) i c =
      finished k.val a i c + (if c = k ∧ k ≤ i then cholCol sqrt eps a k i else 0) := by
  simp only [finished, of_apply]
  rcases lt_trichotomy c k with h | h | h
  · have h' : c.val < k.val := h
    by_cases hi : c ≤ i
    · simp [h', hi, h.ne, Nat.lt_succ_of_lt h', cholStep_apply sqrt eps a k i c hi, h]
    · simp [h', hi, h.ne]
  · subst h
    by_cases hi : c ≤ i
    · simp [hi, cholStep_apply sqrt eps a c i c hi]
    · simp [hi]
  · have h' : k.val < c.val := h
    have h2 : ¬ c.val < k.val + 1 := by omega
    have h3 : ¬ c.val < k.val := by omega
    simp [h2, h3, h.ne']

theorem residual_step (sqrt : K → K) (eps : K) (A a : Matrix (Fin n) (Fin n) K) (k i j : Fin n) :
    residual A (k.val + 1) (cholStep sqrt eps a k) i j =
      residual A k.val a i j -
        (if k ≤ i then cholCol sqrt eps a k i else 0) *
        (if k ≤ j then cholCol sqrt eps a k j else 0) := by
  simp only [residual, Matrix.sub_apply, Matrix.mul_apply, transpose_apply, finished_step]
  have e : ∀ c : Fin n, (finished k.val a i c + if c = k ∧ k ≤ i then cholCol sqrt eps a k i else 0) *
      (finished k.val a j c + if c = k ∧ k ≤ j then cholCol sqrt eps a k j else 0) =
      finished k.val a i c * finished k.val a j c +
        if c = k then (if k ≤ i then cholCol sqrt eps a k i else 0) *
          (if k ≤ j then cholCol sqrt eps a k j else 0) else 0 := by
    intro c
    by_cases h : c = k
    · subst h
      simp [finished]
    · simp [h]
  simp only [e]
  rw [Finset.sum_add_distrib, Finset.sum_ite_eq' Finset.univ k]
  simp only [Finset.mem_univ, if_true]
  ring

/-- State of the factorisation after `k` columns. -/
structure CholInv (eps : K) (A : Matrix (Fin n) (Fin n) K) (k : Nat)
    (a : Matrix (Fin n) (Fin n) K) : Prop where
  rest : ∀ i j, j ≤ i → k ≤ j.val → a i j = residual A k a i j
  done : ∀ i j, j ≤ i → j.val < k → 0 ≤ a j j ∧
    ((0 < a j j ∧ residual A k a i j = 0) ∨ (a j j = 0 ∧ a i j = 0 ∧
      residual A k a j j < eps ∧ -eps < residual A k a j j))
  reach : ∀ y : Fin n → K, (∀ i, i.val < k → y i = 0) →
    ∃ x : Fin n → K, (∀ i, k ≤ i.val → x i = y i) ∧ x ⬝ᵥ (A *ᵥ x) = y ⬝ᵥ (residual A k a *ᵥ y)

theorem cholInv_init (eps : K) (A : Matrix (Fin n) (Fin n) K) : CholInv eps A 0 A where
  rest i j _ _ := by rw [residual_zero]
  done i j _ h := by omega
  reach y _ := ⟨y, fun _ _ => rfl, by rw [residual_zero]⟩

theorem quad_sub_outer (S : Matrix (Fin n) (Fin n) K) (l y : Fin n → K) (T : Matrix (Fin n) (Fin n) K)
    (h : ∀ i j, T i j = S i j - l i * l j) :
    y ⬝ᵥ (T *ᵥ y) = y ⬝ᵥ (S *ᵥ y) - (l ⬝ᵥ y) * (l ⬝ᵥ y) := by
  have e : T = S - vecMulVec l l := by ext i j; rw [h]; simp [vecMulVec_apply]
  rw [e, sub_mulVec, dotProduct_sub, vecMulVec_mulVec]
  simp [dotProduct_smul, dotProduct_comm]

theorem quad_shift {S : Matrix (Fin n) (Fin n) K} (hS : Sᵀ = S) (k : Fin n) (t : K)
    (y : Fin n → K) :
    (y + t • Pi.single k 1) ⬝ᵥ (S *ᵥ (y + t • Pi.single k 1)) =
      y ⬝ᵥ (S *ᵥ y) + 2 * t * (S *ᵥ y) k + t * t * S k k := by
  have h1 : y ⬝ᵥ (S *ᵥ Pi.single k 1) = (S *ᵥ y) k := by
    rw [quad_transpose, hS, dotProduct_single, mul_one]
  have h2 : (Pi.single k 1 : Fin n → K) ⬝ᵥ (S *ᵥ y) = (S *ᵥ y) k := by
    rw [single_dotProduct, one_mul]
  have h3 : (Pi.single k 1 : Fin n → K) ⬝ᵥ (S *ᵥ Pi.single k 1) = S k k := by
    rw [single_dotProduct, one_mul, mulVec_single_one]; rfl
  rw [mulVec_add, add_dotProduct, dotProduct_add, dotProduct_add, mulVec_smul, dotProduct_smul,
    smul_dotProduct, smul_dotProduct, dotProduct_smul, h1, h2, h3]
  simp only [smul_eq_mul]; ring

theorem cholInv_step {sqrt : K → K} {eps : K} (hs : IsSqrt sqrt) (h0 : 0 < eps) (h1 : eps ≤ 1)
    {A : Matrix (Fin n) (Fin n) K} (hA : Aᵀ = A) {a : Matrix (Fin n) (Fin n) K} {k : Fin n}
    (h : CholInv eps A k.val a) (hp : ¬ snapped eps (a k k) < 0) :
    CholInv eps A (k.val + 1) (cholStep sqrt eps a k) := by
  have hc := cholCol_cases hs h0 h1 a k hp
  have hr := residual_step sqrt eps A a k
  have hkk : a k k = residual A k.val a k k := h.rest k k le_rfl le_rfl
  have hsym := residual_symm hA k.val a
  constructor
  · intro i j hij hj
    have hkj : k < j := hj
    rw [hr, if_pos (hkj.le.trans hij), if_pos hkj.le, cholStep_apply sqrt eps a k i j hij,
      if_neg (not_lt_of_gt hkj), if_neg hkj.ne', h.rest i j hij (Nat.le_of_succ_le hj)]
  · intro i j hij hj
    rw [cholStep_apply sqrt eps a k i j hij, cholStep_apply sqrt eps a k j j le_rfl]
    rcases Nat.lt_succ_iff_lt_or_eq.mp hj with hlt | heq
    · have hlt' : j < k := hlt
      have hn : ¬ k ≤ j := not_le_of_gt hlt'
      rw [if_pos hlt', if_pos hlt', hr, hr, if_neg hn, mul_zero, mul_zero, sub_zero, sub_zero]
      exact h.done i j hij hlt
    · have : j = k := Fin.ext heq
      subst this
      rw [if_neg (lt_irrefl _), if_neg (lt_irrefl _), if_pos rfl, if_pos rfl, hr, hr, if_pos hij,
        if_pos le_rfl, ← hkk, ← h.rest i j hij le_rfl]
      rcases hc with ⟨h2, h3, h4⟩ | ⟨h2, r, h3, h4, h5⟩
      · refine ⟨(h4 j).ge, Or.inr ⟨h4 j, h4 i, ?_, ?_⟩⟩
        · rw [h4]; simpa using h3
        · rw [h4]; simpa using h2
      · have hjr : a j j / r = r := by rw [div_eq_iff h3.ne', h4]
        rw [h5, h5, hjr]
        refine ⟨h3.le, Or.inl ⟨h3, ?_⟩⟩
        rw [div_mul_cancel₀ _ h3.ne', sub_self]
  · intro y hy
    have hq := quad_sub_outer (residual A k.val a)
      (fun i => if k ≤ i then cholCol sqrt eps a k i else 0) y _ hr
    have hyk : ∀ i, i ≤ k → y i = 0 := fun i hi => hy i (Nat.lt_succ_of_le hi)
    rcases hc with ⟨h2, h3, h4⟩ | ⟨h2, r, h3, h4, h5⟩
    · obtain ⟨x, hx1, hx2⟩ := h.reach y (fun i hi => hy i (Nat.lt_succ_of_lt hi))
      refine ⟨x, fun i hi => hx1 i (Nat.le_of_succ_le hi), ?_⟩
      rw [hx2, hq]
      have : ((fun i => if k ≤ i then cholCol sqrt eps a k i else 0) ⬝ᵥ y) = 0 := by
        simp [dotProduct, h4]
      rw [this]; ring
    · set S := residual A k.val a with hS
      have hl : ((fun i => if k ≤ i then cholCol sqrt eps a k i else 0) ⬝ᵥ y) =
          (S *ᵥ y) k / r := by
        rw [mulVec, dotProduct, dotProduct, Finset.sum_div]
        refine Finset.sum_congr rfl fun i _ => ?_
        by_cases hi : k ≤ i
        · rw [if_pos hi, h5, h.rest i k hi le_rfl, ← hS]
          have : S i k = S k i := congrFun (congrFun hsym k) i
          rw [this]; ring
        · rw [if_neg hi, hyk i (le_of_not_ge hi)]; ring
      obtain ⟨x, hx1, hx2⟩ := h.reach (y + (-(S *ᵥ y) k / a k k) • Pi.single k 1) (by
        intro i hi
        have : i ≠ k := fun e => by subst e; omega
        simp [hy i (Nat.lt_succ_of_lt hi), this])
      refine ⟨x, fun i hi => ?_, ?_⟩
      · rw [hx1 i (Nat.le_of_succ_le hi)]
        have : i ≠ k := fun e => by subst e; omega
        simp [this]
      · rw [hx2, quad_shift hsym, hq, hl, ← hkk, ← h4]
        have := h3.ne'
        field_simp
        ring

/-- Summary for the finished factorisation, for any invariant of the outer loop. -/
theorem cholesky_induct {sqrt : K → K} {eps : K} (h0 : 0 < eps) {A : Matrix (Fin n) (Fin n) K}
    (P : Nat → Matrix (Fin n) (Fin n) K → Prop) (init : P 0 A)
    (step : ∀ (k : Fin n) a, P k.val a → ¬ snapped eps (a k k) < 0 →
      P (k.val + 1) (cholStep sqrt eps a k)) :
    (∃ a, cholesky sqrt eps A = (true, finished n a) ∧ P n a) ∨
    (cholesky sqrt eps A = (false, 0) ∧
      ∃ j : Fin n, ∃ b, P j.val b ∧ b j j ≤ -eps) := by
  rcases cholLoop_induct sqrt eps P (fun k hk a h hp => step ⟨k, hk⟩ a h hp) 0 (Nat.zero_le n) A
    init with ⟨a, ha, hi⟩ | ⟨ha, j, hj, b, hb, hneg⟩
  · left; refine ⟨a, ?_, hi⟩
    rw [List.drop_zero] at ha
    rw [cholesky, ha]
    refine congrArg (Prod.mk true) ?_
    ext i j
    rw [zeroUpper_apply]
    simp only [finished, of_apply, j.isLt, true_and]
    by_cases h : i < j
    · rw [if_pos h, if_neg (not_le_of_gt h)]
    · rw [if_neg h, if_pos (le_of_not_gt h)]
  · right
    rw [List.drop_zero] at ha
    refine ⟨by rw [cholesky, ha], ⟨j, hj⟩, b, hb, ?_⟩
    unfold snapped at hneg
    split at hneg
    · exact absurd hneg (lt_irrefl _)
    · next hn =>
      by_contra hc
      push Not at hc
      exact hn ⟨hneg.trans h0, hc⟩

theorem cholesky_true {sqrt : K → K} {eps : K} (hs : IsSqrt sqrt) (h0 : 0 < eps) (h1 : eps ≤ 1)
    {A : Matrix (Fin n) (Fin n) K} (hA : Aᵀ = A) :
    (∃ a, cholesky sqrt eps A = (true, finished n a) ∧ CholInv eps A n a) ∨
    (cholesky sqrt eps A = (false, 0) ∧
      ∃ j : Fin n, ∃ b, CholInv eps A j.val b ∧ b j j ≤ -eps) :=
  cholesky_induct h0 (CholInv eps A) (cholInv_init eps A)
    fun _ _ h hp => cholInv_step hs h0 h1 hA h hp

/-- Every pivot is a value of the quadratic form at a vector with a 1 in it. -/
theorem CholInv.pivot {eps : K} {A a : Matrix (Fin n) (Fin n) K} {k : Nat} (h : CholInv eps A k a)
    (j : Fin n) (hj : k ≤ j.val) :
    ∃ x : Fin n → K, x j = 1 ∧ x ⬝ᵥ (A *ᵥ x) = residual A k a j j := by
  obtain ⟨x, h1, h2⟩ := h.reach (Pi.single j 1) (by
    intro i hi
    have : i ≠ j := fun e => by subst e; omega
    simp [this])
  refine ⟨x, by rw [h1 j hj]; simp, ?_⟩
  rw [h2, single_dotProduct, one_mul, mulVec_single_one]; rfl

end invariant

end BFL
