import Verif.Spec.Ordered
import Verif.Props.Histogram
import Verif.Props.Forgetting

set_option linter.unusedSectionVars false

/-! # Moves and readings keep the order of distributions -/

namespace BFL.Props

open Finset Spec HistogramFilter

variable {K : Type} [Field K] [LinearOrder K] [IsStrictOrderedRing K] {n : Nat} {p q : Nat → K}

theorem below_refl (n : Nat) (p : Nat → K) : Below n p p := fun x y _ _ => (mul_comm (p y) (p x)).le

/-- The sum over all pairs, taken twice, is a sum over pairs of products of the same sign. -/
theorem below_sum (h : Below n p q) {D : Nat → Nat → K} (hD : ∀ a b, a < b → b < n → 0 ≤ D a b)
    (ha : ∀ a b, D b a = - D a b) : 0 ≤ ∑ a ∈ range n, ∑ b ∈ range n, D a b * (p a * q b) := by
  have e : ∑ a ∈ range n, ∑ b ∈ range n, D a b * (p a * q b) = -∑ a ∈ range n, ∑ b ∈ range n, D a b * (p b * q a) := by
    rw [Finset.sum_comm, ← Finset.sum_neg_distrib]
    refine Finset.sum_congr rfl fun a _ => ?_
    rw [← Finset.sum_neg_distrib]
    refine Finset.sum_congr rfl fun b _ => ?_
    rw [ha a b]
    ring
  have hs : 0 ≤ ∑ a ∈ range n, ∑ b ∈ range n, D a b * (p a * q b - p b * q a) := by
    refine Finset.sum_nonneg fun a ia => Finset.sum_nonneg fun b ib => ?_
    rcases lt_trichotomy a b with hab | rfl | hab
    · exact mul_nonneg (hD a b hab (mem_range.1 ib)) (sub_nonneg.2 (h a b hab (mem_range.1 ib)))
    · rw [mul_comm (p a) (q a), sub_self, mul_zero]
    · have h1 := hD b a hab (mem_range.1 ia)
      have h2 := h b a hab (mem_range.1 ia)
      rw [ha a b] at h1
      exact mul_nonneg_of_nonpos_of_nonpos (by linarith) (by linarith)
  simp only [mul_sub, Finset.sum_sub_distrib] at hs
  linarith

theorem below_move (h : Below n p q) {T : Nat → Nat → K} (hT : Orderly n T) :
    Below n (fun y => ∑ x ∈ range n, T y x * p x) (fun y => ∑ x ∈ range n, T y x * q x) := by
  intro y y' hy hy'
  have := below_sum h (D := fun a b => T y a * T y' b - T y' a * T y b)
    (fun a b hab hb => sub_nonneg.2 (hT a b hab hb y y' hy hy')) (fun a b => by ring)
  rw [← sub_nonneg, Finset.sum_mul_sum, Finset.sum_mul_sum, ← Finset.sum_sub_distrib]
  refine this.trans (le_of_eq ?_)
  refine Finset.sum_congr rfl fun a _ => ?_
  rw [← Finset.sum_sub_distrib]
  exact Finset.sum_congr rfl fun b _ => by ring

theorem below_observe (hp : ∀ x < n, 0 ≤ p x) (hq : ∀ x < n, 0 ≤ q x) (h : Below n p q) {L L' : Nat → K}
    (hL : ∀ x < n, 0 ≤ L x) (hL' : ∀ x < n, 0 ≤ L' x) (h' : Below n L L') :
    Below n (fun x => p x * L x) (fun x => q x * L' x) := by
  intro x y hxy hy
  have hx := hxy.trans hy
  have := mul_le_mul (h x y hxy hy) (h' x y hxy hy) (mul_nonneg (hL y hy) (hL' x hx)) (mul_nonneg (hp x hx) (hq y hy))
  beta_reduce
  linarith

theorem below_history {ss ss' : List (Step K)} (hr : List.Forall₂ (Step.Rises n) ss ss')
    (hss : ∀ s ∈ ss, s.Nonneg n) (hss' : ∀ s ∈ ss', s.Nonneg n) :
    ∀ {p q : Nat → K}, (∀ x < n, 0 ≤ p x) → (∀ x < n, 0 ≤ q x) → Below n p q →
      Below n (jointLast n p ss) (jointLast n q ss') := by
  induction hr with
  | nil =>
    intro p q _ _ h x y hxy hy
    rw [jointLast_nil n p hy, jointLast_nil n q hy, jointLast_nil n p (hxy.trans hy), jointLast_nil n q (hxy.trans hy)]
    exact h x y hxy hy
  | @cons s s' ss ss' h1 _ ih =>
    intro p q hp hq h
    have hs := hss s List.mem_cons_self
    have hs' := hss' s' List.mem_cons_self
    have key : Below n (s.apply n p) (s'.apply n q) := by
      match s, s', h1 with
      | .move T, .move T', h1 =>
        intro y y' hy hy'
        have e : ∀ z < n, Step.apply n q (.move T') z = ∑ x ∈ range n, T z x * q x := by
          intro z hz
          show ∑ x ∈ range n, T' z x * q x = _
          exact Finset.sum_congr rfl fun x hx => by rw [h1.2 z hz x (mem_range.1 hx)]
        rw [e y (hy.trans hy'), e y' hy']
        exact below_move h h1.1 y y' hy hy'
      | .observe L, .observe L', h1 => exact below_observe hp hq h hs hs' h1
    have := ih (fun s hs => hss s (List.mem_cons_of_mem _ hs)) (fun s hs => hss' s (List.mem_cons_of_mem _ hs))
      (Step.apply_nonneg hp hs) (Step.apply_nonneg hq hs') key
    intro x y hxy hy
    simp only [jointLast_cons]
    exact this x y hxy hy

theorem below_div (h : Below n p q) {a b : K} (ha : 0 < a) (hb : 0 < b) :
    Below n (fun x => p x / a) (fun x => q x / b) := by
  intro x y hxy hy
  beta_reduce
  rw [div_mul_div_comm, div_mul_div_comm]
  exact div_le_div_of_nonneg_right (h x y hxy hy) (mul_pos ha hb).le

theorem below_mean (h : Below n p q) (hp : ∑ x ∈ range n, p x = 1) (hq : ∑ x ∈ range n, q x = 1) {g : Nat → K}
    (hg : ∀ x y, x < y → y < n → g x ≤ g y) : ∑ x ∈ range n, g x * p x ≤ ∑ x ∈ range n, g x * q x := by
  have := below_sum h (D := fun a b => g b - g a) (fun a b hab hb => sub_nonneg.2 (hg a b hab hb)) (fun a b => by ring)
  have e : ∑ a ∈ range n, ∑ b ∈ range n, (g b - g a) * (p a * q b) =
      (∑ a ∈ range n, p a) * (∑ b ∈ range n, g b * q b) - (∑ a ∈ range n, g a * p a) * ∑ b ∈ range n, q b := by
    rw [Finset.sum_mul_sum, Finset.sum_mul_sum, ← Finset.sum_sub_distrib]
    refine Finset.sum_congr rfl fun a _ => ?_
    rw [← Finset.sum_sub_distrib]
    exact Finset.sum_congr rfl fun b _ => by ring
  rw [e, hp, hq] at this
  linarith

theorem mostProbable_tab {d : DiscretePdf K} (hd : d.values = tab n p) (hp : ∀ x < n, 0 ≤ p x)
    (h1 : ∑ x ∈ range n, p x = 1) : ∃ s : Nat, d.mostProbableStateGet = s ∧ s < n ∧ (∀ x < n, p x ≤ p s) ∧
      ∀ x < n, s < x → p x < p s := by
  unfold DiscretePdf.mostProbableStateGet
  rw [hd]
  have hn : 0 < n := by
    rcases Nat.eq_zero_or_pos n with rfl | h
    · simp at h1
    · exact h
  rcases DiscretePdf.mostProbableLoop_spec (tab n p) 0 (-1) 0 with ⟨_, h⟩ | ⟨m, hm, k1, _, k3, k4⟩
  · exact absurd (h _ (List.mem_map.2 ⟨0, List.mem_range.2 hn, rfl⟩)) (not_lt.2 (hp 0 hn))
  · have hm' : m < n := by simpa [tab] using hm
    refine ⟨m, by rw [Nat.zero_add] at k1; exact k1, hm', fun x hx => ?_, fun x hx hmx => ?_⟩
    · have := k3 _ (List.mem_map.2 ⟨x, List.mem_range.2 hx, rfl⟩)
      simpa [tab] using this
    · have := k4 x (by simpa [tab] using hx) hmx
      simpa [tab] using this

theorem below_mode (h : Below n p q) (hq : ∀ x < n, 0 ≤ q x) (hp1 : ∑ x ∈ range n, p x = 1) {a b : Nat} (ha : a < n)
    (pa : ∀ x < n, p x ≤ p a) (hb : b < n) (qb : ∀ x < n, b < x → q x < q b) : a ≤ b := by
  by_contra hlt
  push Not at hlt
  have pos : 0 < p a := by
    by_contra h0
    have : ∑ x ∈ range n, p x ≤ 0 := Finset.sum_nonpos fun x hx => (pa x (mem_range.1 hx)).trans (not_lt.1 h0)
    linarith
  have h1 := h b a hlt ha
  have h2 := qb a ha hlt
  have h3 := pa b hb
  have h4 : p a * q a < p a * q b := mul_lt_mul_of_pos_left h2 pos
  have := mul_le_mul_of_nonneg_right h3 (hq a ha)
  linarith

end BFL.Props
