import Verif.Lemmas.HiddenWorld
import Verif.Lemmas.HistogramFilter
import Verif.Spec.MoreReadings
import Mathlib.Tactic.FieldSimp

/-! # Averages over plans with more readings -/

set_option linter.unusedSectionVars false

namespace BFL

open Finset Spec

variable {Z K : Type} [Fintype Z] [Field K] [LinearOrder K] [IsStrictOrderedRing K]

/-- `φ` of the distribution proportional to `v`, times the total of `v`. -/
def scaledReport (n : Nat) (φ : List K → K) (v : Nat → K) : K :=
  if 0 < ∑ x ∈ range n, v x then
    (∑ x ∈ range n, v x) * φ (tab n fun x => v x / ∑ x ∈ range n, v x) else 0

theorem scaledReport_congr {n : Nat} {φ : List K → K} {u v : Nat → K} (h : ∀ x < n, u x = v x) :
    scaledReport n φ u = scaledReport n φ v := by
  have e : ∑ x ∈ range n, u x = ∑ x ∈ range n, v x :=
    Finset.sum_congr rfl fun x hx => h x (Finset.mem_range.1 hx)
  unfold scaledReport
  rw [e, tab_congr fun x hx => by rw [h x hx]]

theorem zero_of_total {n : Nat} {v : Nat → K} (hv : ∀ x < n, 0 ≤ v x) (h : ¬ 0 < ∑ x ∈ range n, v x) :
    ∀ x < n, v x = 0 := by
  have h0 : ∑ x ∈ range n, v x = 0 :=
    le_antisymm (not_lt.1 h) (Finset.sum_nonneg fun x hx => hv x (Finset.mem_range.1 hx))
  exact fun x hx => (Finset.sum_eq_zero_iff_of_nonneg fun x hx => hv x (Finset.mem_range.1 hx)).1 h0 x
    (Finset.mem_range.2 hx)

theorem scaledReport_zero {n : Nat} {φ : List K → K} {v : Nat → K} (h : ∀ x < n, v x = 0) : scaledReport n φ v = 0 := by
  unfold scaledReport
  rw [if_neg]
  rw [Finset.sum_eq_zero fun x hx => h x (Finset.mem_range.1 hx)]
  exact lt_irrefl _

theorem scaledReport_add {n : Nat} {φ : List K → K} (hφ : ConvexReport n φ) {u v : Nat → K}
    (hu : ∀ x < n, 0 ≤ u x) (hv : ∀ x < n, 0 ≤ v x) :
    scaledReport n φ (fun x => u x + v x) ≤ scaledReport n φ u + scaledReport n φ v := by
  by_cases h1 : 0 < ∑ x ∈ range n, u x
  · by_cases h2 : 0 < ∑ x ∈ range n, v x
    · have e : ∑ x ∈ range n, (u x + v x) = ∑ x ∈ range n, u x + ∑ x ∈ range n, v x :=
        Finset.sum_add_distrib
      unfold scaledReport
      rw [e, if_pos (add_pos h1 h2), if_pos h1, if_pos h2]
      generalize hS : ∑ x ∈ range n, u x = S at *
      generalize hT : ∑ x ∈ range n, v x = T at *
      have hST : S + T ≠ 0 := (add_pos h1 h2).ne'
      have key := hφ (fun x => u x / S) (fun x => v x / T) (S / (S + T)) (T / (S + T))
        (fun x hx => div_nonneg (hu x hx) h1.le) (fun x hx => div_nonneg (hv x hx) h2.le)
        (by rw [← Finset.sum_div, hS, div_self h1.ne']) (by rw [← Finset.sum_div, hT, div_self h2.ne'])
        (div_nonneg h1.le (add_pos h1 h2).le) (div_nonneg h2.le (add_pos h1 h2).le)
        (by rw [← add_div, div_self hST])
      have et : (tab n fun x => S / (S + T) * (u x / S) + T / (S + T) * (v x / T)) =
          tab n fun x => (u x + v x) / (S + T) := by
        refine tab_congr fun x _ => ?_
        have := h1.ne'
        have := h2.ne'
        field_simp
      rw [et] at key
      have := mul_le_mul_of_nonneg_left key (add_pos h1 h2).le
      refine this.trans (le_of_eq ?_)
      field_simp
    · have hz := zero_of_total hv h2
      rw [scaledReport_zero hz, add_zero, scaledReport_congr (u := fun x => u x + v x) (v := u) fun x hx => by
        show u x + v x = u x
        rw [hz x hx, add_zero]]
  · have hz := zero_of_total hu h1
    rw [scaledReport_zero hz, zero_add, scaledReport_congr (u := fun x => u x + v x) (v := v) fun x hx => by
      show u x + v x = v x
      rw [hz x hx, zero_add]]

theorem step_apply_sum (n : Nat) {ι : Type} (S : Finset ι) (r : ι → Nat → K) (ss : List (Step K)) (x : Nat) :
    jointLast n (fun y => ∑ i ∈ S, r i y) ss x = ∑ i ∈ S, jointLast n (r i) ss x := by
  unfold jointLast
  rw [Finset.sum_comm]
  refine Finset.sum_congr rfl fun x0 _ => ?_
  induction paths n (moves ss) with
  | nil => simp
  | cons xs l ih =>
    simp only [List.map_cons, List.sum_cons, ih, Finset.sum_add_distrib]
    congr 1
    split
    · rw [Finset.sum_mul]
    · simp

theorem scaledReport_sum {n : Nat} {φ : List K → K} (hφ : ConvexReport n φ) {ι : Type} (S : Finset ι)
    {r : ι → Nat → K} (hr : ∀ i, ∀ x < n, 0 ≤ r i x) :
    scaledReport n φ (fun x => ∑ i ∈ S, r i x) ≤ ∑ i ∈ S, scaledReport n φ (r i) := by
  classical
  induction S using Finset.induction_on with
  | empty => rw [scaledReport_zero fun x _ => Finset.sum_empty]; simp
  | insert a S ha ih =>
    simp only [Finset.sum_insert ha]
    exact (scaledReport_add hφ (hr a) fun x hx => Finset.sum_nonneg fun i _ => hr i x hx).trans
      (add_le_add le_rfl ih)

theorem plan_sum_sum (plan : Plan Z K) {ι : Type} (S : Finset ι) (F : ι → List Z → K) :
    plan.sum (fun zs => ∑ i ∈ S, F i zs) = ∑ i ∈ S, plan.sum (F i) := by
  classical
  induction S using Finset.induction_on with
  | empty =>
    have := plan_sum_mul plan (0 : K) fun _ => 0
    simpa using this
  | insert a S ha ih =>
    simp only [Finset.sum_insert ha]
    rw [plan_sum_add, ih]

theorem more_sum {n : Nat} {φ : List K → K} (hφ : ConvexReport n φ) {p q : Plan Z K} (h : p.More q) :
    p.Proper n → q.Proper n → ∀ r : Nat → K, (∀ x < n, 0 ≤ r x) →
      p.sum (fun zs => scaledReport n φ (p.joint n r zs)) ≤ q.sum (fun zs => scaledReport n φ (q.joint n r zs)) := by
  induction h with
  | stop => intro _ _ r _; exact le_rfl
  | @move T p q _ ih =>
    intro hp hq r hr
    have := ih hp.2.2 hq.2.2 (totalProbability n T r) (Step.apply_nonneg (s := .move T) hr hp.1)
    refine le_trans (le_of_eq ?_) (this.trans (le_of_eq ?_))
    · exact plan_sum_congr p fun zs _ => scaledReport_congr fun x _ => jointLast_cons n r (.move T) _ x
    · exact plan_sum_congr q fun zs _ => scaledReport_congr fun x _ => (jointLast_cons n r (.move T) _ x).symm
  | @sense L p q _ ih =>
    intro hp hq r hr
    refine Finset.sum_le_sum fun z _ => ?_
    have := ih z (hp.2.2 z) (hq.2.2 z) (fun x => r x * L z x) fun x hx => mul_nonneg (hr x hx) (hp.1 z x hx)
    refine le_trans (le_of_eq ?_) (this.trans (le_of_eq ?_))
    · exact plan_sum_congr _ fun zs _ => scaledReport_congr fun x _ => jointLast_cons n r (.observe (L z)) _ x
    · exact plan_sum_congr _ fun zs _ => scaledReport_congr fun x _ =>
        (jointLast_cons n r (.observe (L z)) _ x).symm
  | @extra L p q _ ih =>
    intro hp hq r hr
    have hz : ∀ z, ∀ x < n, 0 ≤ r x * L z x := fun z x hx => mul_nonneg (hr x hx) (hq.1 z x hx)
    have e : ∀ x < n, r x = ∑ z, r x * L z x := fun x hx => by
      rw [← Finset.mul_sum, hq.2.1 x hx, mul_one]
    have h1 : p.sum (fun zs => scaledReport n φ (p.joint n r zs)) ≤
        ∑ z, p.sum (fun zs => scaledReport n φ (p.joint n (fun x => r x * L z x) zs)) := by
      rw [← plan_sum_sum]
      refine plan_sum_le p fun zs _ => ?_
      rw [scaledReport_congr (v := fun x => ∑ z, p.joint n (fun y => r y * L z y) zs x) fun x hx => by
        show jointLast n r _ x = _
        rw [jointLast_congr e _ x, step_apply_sum]
        rfl]
      exact scaledReport_sum hφ _ fun z => jointLast_nonneg (plan_nonneg p hp zs) (hz z)
    refine h1.trans (Finset.sum_le_sum fun z _ => (ih z hp (hq.2.2 z) _ (hz z)).trans (le_of_eq ?_))
    exact plan_sum_congr _ fun zs _ => scaledReport_congr fun x _ =>
      (jointLast_cons n r (.observe (L z)) _ x).symm

theorem mapIdx_tab {n : Nat} (f : Nat → K) (g : Nat → K) :
    ((tab n f).mapIdx fun x w => w * g x).sum = ∑ x ∈ range n, f x * g x := by
  have : (tab n f).mapIdx (fun x w => w * g x) = tab n fun x => f x * g x := by
    apply List.ext_getElem
    · simp [tab]
    · intro i h1 h2
      simp [tab]
  rw [this, tab_sum]

end BFL
