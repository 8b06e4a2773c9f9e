import Verif.Spec.LongRun
import Verif.Lemmas.HistogramFilter
import Mathlib.Topology.Algebra.Order.Field
import Mathlib.Topology.MetricSpace.Cauchy
import Mathlib.Topology.Algebra.Order.LiminfLimsup
import Mathlib.Analysis.SpecificLimits.Basic
import Mathlib.Tactic.Linarith
import Mathlib.Tactic.Ring

set_option linter.unusedSectionVars false

/-!
# Several moves of a finite process
-/

namespace BFL

open Finset Spec

section Field

variable {K : Type} [Field K]

theorem totalProbability_congr {n : Nat} {T T' : Nat → Nat → K} {p p' : Nat → K} {y : Nat}
    (hT : ∀ x < n, T y x = T' y x) (hp : ∀ x < n, p x = p' x) :
    totalProbability n T p y = totalProbability n T' p' y :=
  Finset.sum_congr rfl fun x hx => by rw [hT x (mem_range.1 hx), hp x (mem_range.1 hx)]

/-- The distribution after several moves. -/
def moveAll (n : Nat) : List (Nat → Nat → K) → (Nat → K) → Nat → K
  | [], p => p
  | T :: Ts, p => moveAll n Ts (totalProbability n T p)

theorem moveAll_congr {n : Nat} (Ts : List (Nat → Nat → K)) {p p' : Nat → K} (h : ∀ x < n, p x = p' x) :
    ∀ x < n, moveAll n Ts p x = moveAll n Ts p' x := by
  induction Ts generalizing p p' with
  | nil => exact h
  | cons T Ts ih => exact ih fun y _ => totalProbability_congr (fun _ _ => rfl) h

theorem moveAll_reach {n : Nat} (Ts : List (Nat → Nat → K)) (p : Nat → K) :
    ∀ y < n, moveAll n Ts p y = totalProbability n (reach n Ts) p y := by
  induction Ts generalizing p with
  | nil =>
    intro y hy
    simp only [moveAll, totalProbability, reach, ite_mul, one_mul, zero_mul]
    rw [Finset.sum_ite_eq (range n) y, if_pos (mem_range.2 hy)]
  | cons T Ts ih =>
    intro y hy
    rw [moveAll, ih _ y hy]
    simp only [totalProbability, reach, Finset.mul_sum, Finset.sum_mul]
    rw [Finset.sum_comm]
    exact Finset.sum_congr rfl fun x _ => Finset.sum_congr rfl fun w _ => by ring

theorem moveAll_append (n : Nat) (Ts Us : List (Nat → Nat → K)) (p : Nat → K) :
    moveAll n (Ts ++ Us) p = moveAll n Us (moveAll n Ts p) := by
  induction Ts generalizing p with
  | nil => rfl
  | cons T Ts ih => exact ih _

theorem moveAll_linear {n : Nat} (Ts : List (Nat → Nat → K)) (p : Nat → K) {y : Nat} (hy : y < n) :
    moveAll n Ts p y = ∑ x ∈ range n, reach n Ts y x * p x := moveAll_reach Ts p y hy

end Field

section Order

variable {K : Type} [Field K] [LinearOrder K] [IsStrictOrderedRing K]

theorem Spec.Stochastic.sum_move {n : Nat} {T : Nat → Nat → K} (hT : Stochastic n T) (p : Nat → K) :
    ∑ y ∈ range n, totalProbability n T p y = ∑ x ∈ range n, p x := by
  unfold totalProbability
  rw [Finset.sum_comm]
  refine Finset.sum_congr rfl fun x hx => ?_
  rw [← Finset.sum_mul, hT.2 x (mem_range.1 hx), one_mul]

theorem Spec.Stochastic.move_nonneg {n : Nat} {T : Nat → Nat → K} (hT : Stochastic n T) {p : Nat → K}
    (hp : ∀ x < n, 0 ≤ p x) : ∀ y < n, 0 ≤ totalProbability n T p y := fun y hy =>
  Finset.sum_nonneg fun x hx => mul_nonneg (hT.1 y hy x (mem_range.1 hx)) (hp x (mem_range.1 hx))

theorem reach_stochastic {n : Nat} {Ts : List (Nat → Nat → K)} (h : ∀ T ∈ Ts, Stochastic n T) :
    Stochastic n (reach n Ts) := by
  induction Ts with
  | nil =>
    refine ⟨fun y _ x _ => ?_, fun x hx => ?_⟩
    · unfold reach; split <;> simp
    · simp only [reach]
      rw [Finset.sum_ite_eq' (range n) x, if_pos (mem_range.2 hx)]
  | cons T Ts ih =>
    have hT := h T (by simp)
    have hTs := ih fun T' hT' => h T' (by simp [hT'])
    refine ⟨fun y hy x hx => ?_, fun x hx => ?_⟩
    · exact Finset.sum_nonneg fun w hw =>
        mul_nonneg (hTs.1 y hy w (mem_range.1 hw)) (hT.1 w (mem_range.1 hw) x hx)
    · simp only [reach]
      rw [Finset.sum_comm, ← hT.2 x hx]
      refine Finset.sum_congr rfl fun w hw => ?_
      rw [← Finset.sum_mul, hTs.2 w (mem_range.1 hw), one_mul]

/-- One move takes two distributions at least by the factor `1 - σ` closer. -/
theorem move_contracts {n : Nat} {T : Nat → Nat → K} (hT : Stochastic n T) {σ : K} {w : Nat → K}
    (hw1 : ∑ y ∈ range n, w y = 1) (hw : ∀ y < n, ∀ x < n, σ * w y ≤ T y x) {p1 p2 : Nat → K}
    (hs : ∑ x ∈ range n, p1 x = ∑ x ∈ range n, p2 x) :
    totalVariation n (totalProbability n T p1) (totalProbability n T p2) ≤ (1 - σ) * totalVariation n p1 p2 := by
  have e : ∀ y, totalProbability n T p1 y - totalProbability n T p2 y =
      ∑ x ∈ range n, (T y x - σ * w y) * (p1 x - p2 x) := by
    intro y
    have h1 : ∑ x ∈ range n, (T y x - σ * w y) * (p1 x - p2 x) =
        ∑ x ∈ range n, (T y x * p1 x - T y x * p2 x - σ * w y * (p1 x - p2 x)) :=
      Finset.sum_congr rfl fun x _ => by ring
    rw [h1, Finset.sum_sub_distrib, Finset.sum_sub_distrib, ← Finset.mul_sum,
      Finset.sum_sub_distrib, hs]
    simp [totalProbability]
  have h : ∑ y ∈ range n, |totalProbability n T p1 y - totalProbability n T p2 y| ≤
      ∑ y ∈ range n, ∑ x ∈ range n, (T y x - σ * w y) * |p1 x - p2 x| := by
    refine Finset.sum_le_sum fun y hy => ?_
    rw [e]
    refine (Finset.abs_sum_le_sum_abs _ _).trans (Finset.sum_le_sum fun x hx => ?_)
    rw [abs_mul, abs_of_nonneg (sub_nonneg.2 (hw y (mem_range.1 hy) x (mem_range.1 hx)))]
  rw [Finset.sum_comm] at h
  have h2 : ∑ x ∈ range n, ∑ y ∈ range n, (T y x - σ * w y) * |p1 x - p2 x| =
      (1 - σ) * ∑ x ∈ range n, |p1 x - p2 x| := by
    rw [Finset.mul_sum]
    refine Finset.sum_congr rfl fun x hx => ?_
    rw [← Finset.sum_mul, Finset.sum_sub_distrib, hT.2 x (mem_range.1 hx), ← Finset.mul_sum, hw1,
      mul_one]
  unfold totalVariation
  rw [h2] at h
  linarith

/-- No move takes two distributions further apart. -/
theorem move_nonexpansive {n : Nat} {T : Nat → Nat → K} (hT : Stochastic n T) (p1 p2 : Nat → K) :
    totalVariation n (totalProbability n T p1) (totalProbability n T p2) ≤ totalVariation n p1 p2 := by
  have h : ∑ y ∈ range n, |totalProbability n T p1 y - totalProbability n T p2 y| ≤
      ∑ y ∈ range n, ∑ x ∈ range n, T y x * |p1 x - p2 x| := by
    refine Finset.sum_le_sum fun y hy => ?_
    have e : totalProbability n T p1 y - totalProbability n T p2 y = ∑ x ∈ range n, T y x * (p1 x - p2 x) := by
      simp [totalProbability, mul_sub]
    rw [e]
    refine (Finset.abs_sum_le_sum_abs _ _).trans (Finset.sum_le_sum fun x hx => ?_)
    rw [abs_mul, abs_of_nonneg (hT.1 y (mem_range.1 hy) x (mem_range.1 hx))]
  rw [Finset.sum_comm] at h
  have h2 : ∑ x ∈ range n, ∑ y ∈ range n, T y x * |p1 x - p2 x| = ∑ x ∈ range n, |p1 x - p2 x| := by
    refine Finset.sum_congr rfl fun x hx => ?_
    rw [← Finset.sum_mul, hT.2 x (mem_range.1 hx), one_mul]
  rw [h2] at h
  unfold totalVariation
  linarith

theorem totalVariation_congr {n : Nat} {p p' q q' : Nat → K} (hp : ∀ x < n, p x = p' x)
    (hq : ∀ x < n, q x = q' x) : totalVariation n p q = totalVariation n p' q' := by
  unfold totalVariation
  congr 1
  exact Finset.sum_congr rfl fun x hx => by rw [hp x (mem_range.1 hx), hq x (mem_range.1 hx)]

theorem totalVariation_nonneg (n : Nat) (p q : Nat → K) : 0 ≤ totalVariation n p q :=
  div_nonneg (Finset.sum_nonneg fun _ _ => abs_nonneg _) zero_le_two

theorem abs_sub_le_totalVariation {n : Nat} (p q : Nat → K) {x : Nat} (hx : x < n) :
    |p x - q x| ≤ 2 * totalVariation n p q := by
  unfold totalVariation
  have := Finset.single_le_sum (f := fun x => |p x - q x|) (fun _ _ => abs_nonneg _) (mem_range.2 hx)
  linarith

theorem totalVariation_le_one {n : Nat} {p q : Nat → K} (hp : ∀ x < n, 0 ≤ p x) (hq : ∀ x < n, 0 ≤ q x)
    (hp1 : ∑ x ∈ range n, p x = 1) (hq1 : ∑ x ∈ range n, q x = 1) : totalVariation n p q ≤ 1 := by
  unfold totalVariation
  have : ∑ x ∈ range n, |p x - q x| ≤ ∑ x ∈ range n, (p x + q x) :=
    Finset.sum_le_sum fun x hx => by
      have h1 := hp x (mem_range.1 hx)
      have h2 := hq x (mem_range.1 hx)
      rw [abs_le]
      constructor <;> linarith
  rw [Finset.sum_add_distrib, hp1, hq1] at this
  linarith

theorem moveAll_sum {n : Nat} {Ts : List (Nat → Nat → K)} (h : ∀ T ∈ Ts, Stochastic n T) (p : Nat → K) :
    ∑ x ∈ range n, moveAll n Ts p x = ∑ x ∈ range n, p x := by
  induction Ts generalizing p with
  | nil => rfl
  | cons T Ts ih =>
    rw [moveAll, ih (fun T' hT' => h T' (by simp [hT'])), (h T (by simp)).sum_move]

theorem moveAll_nonneg {n : Nat} {Ts : List (Nat → Nat → K)} (h : ∀ T ∈ Ts, Stochastic n T) {p : Nat → K}
    (hp : ∀ x < n, 0 ≤ p x) : ∀ x < n, 0 ≤ moveAll n Ts p x := by
  induction Ts generalizing p with
  | nil => exact hp
  | cons T Ts ih => exact ih (fun T' hT' => h T' (by simp [hT'])) ((h T (by simp)).move_nonneg hp)

theorem moveAll_nonexpansive {n : Nat} {Ts : List (Nat → Nat → K)} (h : ∀ T ∈ Ts, Stochastic n T)
    (p1 p2 : Nat → K) : totalVariation n (moveAll n Ts p1) (moveAll n Ts p2) ≤ totalVariation n p1 p2 := by
  induction Ts generalizing p1 p2 with
  | nil => exact le_rfl
  | cons T Ts ih =>
    exact (ih (fun T' hT' => h T' (by simp [hT'])) _ _).trans (move_nonexpansive (h T (by simp)) _ _)

theorem replicate_stochastic {n : Nat} {T : Nat → Nat → K} (hT : Stochastic n T) (k : Nat) :
    ∀ T' ∈ List.replicate k T, Stochastic n T' := by
  intro T' h
  rw [List.eq_of_mem_replicate h]
  exact hT

/-- After `j` moves, of which every `k` bring two distributions closer by the factor `1 - σ`. -/
theorem moves_contract {n : Nat} {T : Nat → Nat → K} (hT : Stochastic n T) {k : Nat} {σ : K}
    {w : Nat → K} (hw : Minorised n T k σ w) (hσ : σ ≤ 1) {p1 p2 : Nat → K}
    (hs : ∑ x ∈ range n, p1 x = ∑ x ∈ range n, p2 x) (i r : Nat) :
    totalVariation n (moveAll n (List.replicate (i * k + r) T) p1) (moveAll n (List.replicate (i * k + r) T) p2) ≤
      (1 - σ) ^ i * totalVariation n p1 p2 := by
  induction i generalizing p1 p2 with
  | zero =>
    rw [pow_zero, one_mul]
    exact moveAll_nonexpansive (replicate_stochastic hT _) _ _
  | succ i ih =>
    have e : List.replicate ((i + 1) * k + r) T = List.replicate k T ++ List.replicate (i * k + r) T := by
      rw [← List.replicate_add]
      congr 1
      ring
    have hk := replicate_stochastic hT k
    rw [e, moveAll_append, moveAll_append]
    have h1 := ih (p1 := moveAll n (List.replicate k T) p1) (p2 := moveAll n (List.replicate k T) p2)
      (by rw [moveAll_sum hk, moveAll_sum hk, hs])
    refine h1.trans ?_
    rw [pow_succ, mul_assoc]
    refine mul_le_mul_of_nonneg_left ?_ (pow_nonneg (by linarith) _)
    rw [totalVariation_congr (moveAll_reach _ p1) (moveAll_reach _ p2)]
    exact move_contracts (reach_stochastic hk) hw.1 hw.2 hs

/-- The factor of a table cannot be larger than one. -/
theorem Spec.Minorised.le_one {n : Nat} {T : Nat → Nat → K} (hT : Stochastic n T) {k : Nat} {σ : K}
    {w : Nat → K} (hw : Minorised n T k σ w) : σ ≤ 1 := by
  have hn : 0 < n := by
    rcases Nat.eq_zero_or_pos n with h | h
    · have := hw.1
      rw [h] at this
      simp at this
    · exact h
  have h1 := (reach_stochastic (replicate_stochastic hT k)).2 0 hn
  have h2 := Finset.sum_le_sum fun y (hy : y ∈ range n) => hw.2 y (mem_range.1 hy) 0 hn
  rw [← Finset.mul_sum, hw.1, mul_one, h1] at h2
  exact h2

theorem Spec.Stationary.moveAll {n : Nat} {T : Nat → Nat → K} {π : Nat → K} (h : Stationary n T π) (k : Nat) :
    ∀ x < n, moveAll n (List.replicate k T) π x = π x := by
  induction k with
  | zero => exact fun _ _ => rfl
  | succ k ih =>
    intro x hx
    rw [List.replicate_succ, BFL.moveAll, moveAll_congr (p := totalProbability n T π) (p' := π) _ (fun y hy => h.2.2 y hy) x hx]
    exact ih x hx

theorem stationary_unique {n : Nat} {T : Nat → Nat → K} (hT : Stochastic n T) {k : Nat} {σ : K}
    {w : Nat → K} (hw : Minorised n T k σ w) (h0 : 0 < σ) {π π' : Nat → K} (h : Stationary n T π)
    (h' : Stationary n T π') : ∀ x < n, π x = π' x := by
  have h1 := moves_contract hT hw (hw.le_one hT) (p1 := π) (p2 := π') (by rw [h.2.1, h'.2.1]) 1 0
  rw [totalVariation_congr (h.moveAll _) (h'.moveAll _), pow_one] at h1
  have h2 : totalVariation n π π' ≤ 0 := by
    by_contra hc
    have := mul_pos h0 (not_le.1 hc)
    linarith
  intro x hx
  have h3 := abs_sub_le_totalVariation π π' hx
  have : |π x - π' x| ≤ 0 := by linarith
  exact sub_eq_zero.1 (abs_nonpos_iff.1 this)

end Order

/-- There is a distribution that does not change. -/
theorem stationary_exists {n : Nat} {T : Nat → Nat → ℝ} (hT : Stochastic n T) {k : Nat} {σ : ℝ}
    {w : Nat → ℝ} (hw : Minorised n T k σ w) (h0 : 0 < σ) : ∃ π, Stationary n T π := by
  have h1 := hw.le_one hT
  have hn : 0 < n := by
    rcases Nat.eq_zero_or_pos n with h | h
    · have := hw.1
      rw [h] at this
      simp at this
    · exact h
  -- the process started in state 0
  let p0 : Nat → ℝ := fun x => if x = 0 then 1 else 0
  have hp0 : ∀ x < n, 0 ≤ p0 x := fun x _ => by simp only [p0]; split <;> simp
  have hp1 : ∑ x ∈ range n, p0 x = 1 := by
    simp only [p0]
    rw [Finset.sum_ite_eq' (range n) 0, if_pos (mem_range.2 hn)]
  let s : Nat → Nat → ℝ := fun i => moveAll n (List.replicate (i * k) T) p0
  have hs0 : ∀ i, ∀ x < n, 0 ≤ s i x := fun i => moveAll_nonneg (replicate_stochastic hT _) hp0
  have hs1 : ∀ i, ∑ x ∈ range n, s i x = 1 := fun i => by
    rw [← hp1]; exact moveAll_sum (replicate_stochastic hT _) p0
  have hstep : ∀ i x, s (i + 1) x = moveAll n (List.replicate (i * k) T) (moveAll n (List.replicate k T) p0) x := by
    intro i x
    simp only [s]
    rw [← moveAll_append, ← List.replicate_add]
    congr 2
    ring_nf
  have hstep' : ∀ i, s (i + 1) = moveAll n (List.replicate k T) (s i) := by
    intro i
    simp only [s]
    rw [← moveAll_append, ← List.replicate_add]
    congr 2
    ring_nf
  have hd : ∀ i, ∀ x < n, dist (s i x) (s (i + 1) x) ≤ 2 * (1 - σ) ^ i := by
    intro i x hx
    rw [hstep, Real.dist_eq]
    have h2 := moves_contract hT hw h1 (p1 := p0) (p2 := moveAll n (List.replicate k T) p0)
      (by rw [moveAll_sum (replicate_stochastic hT _)]) i 0
    rw [Nat.add_zero] at h2
    have h3 := abs_sub_le_totalVariation (moveAll n (List.replicate (i * k) T) p0)
      (moveAll n (List.replicate (i * k) T) (moveAll n (List.replicate k T) p0)) hx
    have h4 : totalVariation n p0 (moveAll n (List.replicate k T) p0) ≤ 1 :=
      totalVariation_le_one hp0 (moveAll_nonneg (replicate_stochastic hT _) hp0) hp1
        (by rw [moveAll_sum (replicate_stochastic hT _), hp1])
    have h5 := mul_le_mul_of_nonneg_left h4 (pow_nonneg (sub_nonneg.2 h1) i)
    simp only [s]
    linarith
  have hlim : ∀ x, ∃ l, x < n → Filter.Tendsto (fun i => s i x) Filter.atTop (nhds l) := by
    intro x
    by_cases hx : x < n
    · have hc : CauchySeq fun i => s i x :=
        cauchySeq_of_le_geometric (1 - σ) 2 (by linarith) fun i => hd i x hx
      obtain ⟨l, hl⟩ := cauchySeq_tendsto_of_complete hc
      exact ⟨l, fun _ => hl⟩
    · exact ⟨0, fun h => absurd h hx⟩
  choose π hπ using hlim
  have hπ0 : ∀ x < n, 0 ≤ π x := fun x hx => ge_of_tendsto' (hπ x hx) fun i => hs0 i x hx
  have hπ1 : ∑ x ∈ range n, π x = 1 := by
    have h2 : Filter.Tendsto (fun i => ∑ x ∈ range n, s i x) Filter.atTop (nhds (∑ x ∈ range n, π x)) :=
      tendsto_finsetSum _ fun x hx => hπ x (mem_range.1 hx)
    simp only [hs1] at h2
    exact tendsto_nhds_unique h2 tendsto_const_nhds |>.symm ▸ rfl
  -- the limit does not change by `k` moves
  have hfix : ∀ y < n, moveAll n (List.replicate k T) π y = π y := by
    intro y hy
    have h2 : Filter.Tendsto (fun i => ∑ x ∈ range n, reach n (List.replicate k T) y x * s i x) Filter.atTop
        (nhds (∑ x ∈ range n, reach n (List.replicate k T) y x * π x)) :=
      tendsto_finsetSum _ fun x hx => (hπ x (mem_range.1 hx)).const_mul _
    rw [moveAll_linear _ _ hy]
    refine tendsto_nhds_unique h2 ?_
    have h3 := (hπ y hy).comp (Filter.tendsto_add_atTop_nat 1)
    refine h3.congr fun i => ?_
    simp only [Function.comp]
    rw [hstep', moveAll_linear _ _ hy]
  -- nor by one
  have hcomm : ∀ y < n, moveAll n (List.replicate k T) (totalProbability n T π) y = totalProbability n T π y := by
    intro y hy
    have e : moveAll n (List.replicate k T) (totalProbability n T π) =
        totalProbability n T (moveAll n (List.replicate k T) π) := by
      have e1 : moveAll n (List.replicate k T) (totalProbability n T π) = moveAll n (List.replicate (k + 1) T) π := rfl
      rw [e1, List.replicate_succ', moveAll_append]
      rfl
    rw [e]
    exact totalProbability_congr (fun _ _ => rfl) hfix
  refine ⟨π, hπ0, hπ1, ?_⟩
  have h2 := moves_contract hT hw h1 (p1 := totalProbability n T π) (p2 := π) (hT.sum_move π) 1 0
  rw [one_mul, Nat.add_zero, totalVariation_congr hcomm hfix, pow_one] at h2
  have h3 : totalVariation n (totalProbability n T π) π ≤ 0 := by
    by_contra hc
    have := mul_pos h0 (not_le.1 hc)
    linarith
  intro x hx
  have h4 := abs_sub_le_totalVariation (totalProbability n T π) π hx
  have : |totalProbability n T π x - π x| ≤ 0 := by linarith
  exact sub_eq_zero.1 (abs_nonpos_iff.1 this)

end BFL
