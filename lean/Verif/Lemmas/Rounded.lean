import Verif.Model.Rounded
import Verif.Spec.Rounding
import Verif.Lemmas.HistogramFilter
import Mathlib.Tactic.Linarith
import Mathlib.Tactic.GCongr
import Mathlib.Tactic.FieldSimp
import Mathlib.Algebra.Order.Ring.Pow

/-!
# Lemmas about rounded arithmetic
-/

set_option linter.unusedSectionVars false

namespace BFL

open Finset Spec

variable {Z K : Type} [Field K] [LinearOrder K] [IsStrictOrderedRing K]

/-- `y` is `x` up to `k` roundings. -/
def Near (u : K) (k : Nat) (x y : K) : Prop := x * (1 - u) ^ k ≤ y ∧ y * (1 - u) ^ k ≤ x

section near

variable {u : K} {k l : Nat} {x y x' y' : K}

theorem Near.symm (h : Near u k x y) : Near u k y x := ⟨h.2, h.1⟩

theorem near_refl (h0 : 0 ≤ u) (h1 : u ≤ 1) (k : Nat) (hx : 0 ≤ x) : Near u k x x := by
  have : (1 - u) ^ k ≤ 1 := pow_le_one₀ (by linarith) (by linarith)
  exact ⟨mul_le_of_le_one_right hx this, mul_le_of_le_one_right hx this⟩

theorem Near.mono (h0 : 0 ≤ u) (h1 : u ≤ 1) (h : Near u k x y) (hx : 0 ≤ x) (hy : 0 ≤ y)
    (hkl : k ≤ l) : Near u l x y := by
  have : (1 - u) ^ l ≤ (1 - u) ^ k := pow_le_pow_of_le_one (by linarith) (by linarith) hkl
  exact ⟨(mul_le_mul_of_nonneg_left this hx).trans h.1,
    (mul_le_mul_of_nonneg_left this hy).trans h.2⟩

theorem Near.trans (h1 : u ≤ 1) {z : K} (h : Near u k x y) (h' : Near u l y z) :
    Near u (k + l) x z := by
  have hk : 0 ≤ (1 - u) ^ k := pow_nonneg (by linarith) _
  have hl : 0 ≤ (1 - u) ^ l := pow_nonneg (by linarith) _
  constructor
  · rw [pow_add, ← mul_assoc]
    exact (mul_le_mul_of_nonneg_right h.1 hl).trans h'.1
  · rw [pow_add, mul_comm ((1 - u) ^ k), ← mul_assoc]
    exact (mul_le_mul_of_nonneg_right h'.2 hk).trans h.2

theorem Near.add (h : Near u k x y) (h' : Near u k x' y') : Near u k (x + x') (y + y') := by
  constructor
  · rw [add_mul]; exact add_le_add h.1 h'.1
  · rw [add_mul]; exact add_le_add h.2 h'.2

theorem Near.mul (h1 : u ≤ 1) (hx : 0 ≤ x) (hy : 0 ≤ y) (hx' : 0 ≤ x') (hy' : 0 ≤ y')
    (h : Near u k x y) (h' : Near u l x' y') : Near u (k + l) (x * x') (y * y') := by
  have hk : 0 ≤ (1 - u) ^ k := pow_nonneg (by linarith) _
  have hl : 0 ≤ (1 - u) ^ l := pow_nonneg (by linarith) _
  constructor
  · have := mul_le_mul h.1 h'.1 (mul_nonneg hx' hl) hy
    rw [pow_add]
    linarith
  · have := mul_le_mul h.2 h'.2 (mul_nonneg hy' hl) hx
    rw [pow_add]
    linarith

theorem Near.const_mul {c : K} (hc : 0 ≤ c) (h : Near u k x y) : Near u k (c * x) (c * y) := by
  constructor
  · rw [mul_assoc]; exact mul_le_mul_of_nonneg_left h.1 hc
  · rw [mul_assoc]; exact mul_le_mul_of_nonneg_left h.2 hc

theorem Near.pos (h1 : u < 1) (h : Near u k x y) (hx : 0 < x) : 0 < y :=
  lt_of_lt_of_le (mul_pos hx (pow_pos (by linarith) _)) h.1

theorem Near.inv (h1 : u < 1) (h : Near u k x y) (hx : 0 < x) : Near u k x⁻¹ y⁻¹ := by
  have hy := h.pos h1 hx
  have hk : 0 < (1 - u) ^ k := pow_pos (by linarith) _
  constructor
  · rw [inv_mul_le_iff₀ hx, ← div_eq_mul_inv, le_div_iff₀ hy, mul_comm]
    exact h.2
  · rw [inv_mul_le_iff₀ hy, ← div_eq_mul_inv, le_div_iff₀ hx, mul_comm]
    exact h.1

theorem near_sum {n : Nat} {p q : Nat → K} (h : ∀ x < n, Near u k (p x) (q x)) :
    Near u k (∑ x ∈ range n, p x) (∑ x ∈ range n, q x) := by
  induction n with
  | zero => simp [Near]
  | succ n ih =>
    rw [Finset.sum_range_succ, Finset.sum_range_succ]
    exact (ih fun x hx => h x (by omega)).add (h n (by omega))

end near

section rounding

variable {u : K} {fl : K → K}

theorem Spec.IsRounding.near (h : IsRounding u fl) (h1 : u ≤ 1) {x : K} (hx : 0 ≤ x) :
    Near u 1 x (fl x) := by
  have h0 := h.1
  have h2 := abs_le.1 (h.2 x)
  rw [abs_of_nonneg hx] at h2
  refine ⟨by rw [pow_one]; linarith, ?_⟩
  rw [pow_one]
  have h4 : fl x * (1 - u) ≤ (x + u * x) * (1 - u) := by
    apply mul_le_mul_of_nonneg_right _ (by linarith)
    linarith
  have h3 : 0 ≤ u * u * x := mul_nonneg (mul_nonneg h0 h0) hx
  have h5 : (x + u * x) * (1 - u) = x - u * u * x := by ring
  linarith

theorem Spec.IsRounding.nonneg (h : IsRounding u fl) (h1 : u ≤ 1) {x : K} (hx : 0 ≤ x) : 0 ≤ fl x := by
  have h2 := abs_le.1 (h.2 x)
  rw [abs_of_nonneg hx] at h2
  have : u * x ≤ x := mul_le_of_le_one_left hx h1
  linarith

/-- Sums computed by a loop. -/
theorem sum_tab (h : IsRounding u fl) (h1 : u ≤ 1) {n : Nat} {p : Nat → K}
    (hp : ∀ x < n, 0 ≤ p x) :
    0 ≤ Rounded.sum fl (tab n p) ∧ Near u n (∑ x ∈ range n, p x) (Rounded.sum fl (tab n p)) := by
  induction n with
  | zero => simp [Rounded.sum, tab, Near]
  | succ n ih =>
    obtain ⟨i1, i2⟩ := ih fun x hx => hp x (by omega)
    have e : Rounded.sum fl (tab (n + 1) p) = fl (Rounded.sum fl (tab n p) + p n) := by
      simp [Rounded.sum, tab, List.range_succ]
    have hn := hp n (by omega)
    rw [e, Finset.sum_range_succ]
    refine ⟨h.nonneg h1 (add_nonneg i1 hn), ?_⟩
    exact (i2.add (near_refl h.1 h1 n hn)).trans h1 (h.near h1 (add_nonneg i1 hn))

theorem vget_runningSums (fl : K → K) (l : List K) (s : K) :
    vget (Rounded.runningSums fl s l) l.length = .ok (l.foldl (fun s x => fl (s + x)) s) := by
  induction l generalizing s with
  | nil => rfl
  | cons x xs ih =>
    have := ih (fl (s + x))
    simp only [Rounded.runningSums, List.length_cons, List.foldl_cons]
    rw [← this]
    rfl

/-- The number of roundings that the check of the cumulative sum tolerates. -/
theorem check_ok (h : IsRounding u fl) {m : Nat} (hm : ((m : K) + 3) * u ≤ 1 / (2 * 10 ^ 9))
    {t : K} (ht : Near u m 1 t) :
    fl (1 - fl numericPrecision) ≤ t ∧ t ≤ fl (1 + fl numericPrecision) := by
  have h0 := h.1
  have hm0 : (0 : K) ≤ m := Nat.cast_nonneg m
  have hu : u ≤ 1 / (2 * 10 ^ 9) / 3 := by
    have : 0 ≤ (m : K) * u := mul_nonneg hm0 h0
    linarith
  have hu1 : u ≤ 1 := hu.trans (by norm_num)
  have hu2 : 0 < 1 - u := by
    have : u ≤ 1 / 2 := hu.trans (by norm_num)
    linarith
  have hb : 1 - (m : K) * u ≤ (1 - u) ^ m := by
    have := one_add_mul_le_pow (a := -u) (by linarith) m
    have e : (1 : K) + -u = 1 - u := by ring
    rw [e] at this
    linarith
  have hc : fl (numericPrecision : K) ∈ Set.Icc (9 / 10 ^ 10 : K) (1 / 10 ^ 8) := by
    have h2 := abs_le.1 (h.2 numericPrecision)
    have hp : (0 : K) ≤ numericPrecision := by unfold numericPrecision; positivity
    rw [abs_of_nonneg hp] at h2
    have h3 : u * (numericPrecision : K) ≤ 1 / 10 ^ 10 := by
      have := mul_le_mul_of_nonneg_right (hu.trans (show 1 / (2 * 10 ^ 9) / 3 ≤ (1 / 10 : K) by
        norm_num)) hp
      refine this.trans (le_of_eq ?_)
      unfold numericPrecision
      norm_num
    have h4 : (numericPrecision : K) = 10 / 10 ^ 10 := by unfold numericPrecision; norm_num
    constructor
    · rw [h4] at h2 h3 ⊢
      have : (10 / 10 ^ 10 : K) - 1 / 10 ^ 10 = 9 / 10 ^ 10 := by norm_num
      linarith [h2.1]
    · rw [h4] at h2 h3 ⊢
      have : (10 / 10 ^ 10 : K) + 1 / 10 ^ 10 ≤ 1 / 10 ^ 8 := by norm_num
      linarith [h2.2]
  generalize fl (numericPrecision : K) = c at hc
  obtain ⟨hc1, hc2⟩ := hc
  have hsmall : (m : K) * u + 3 * u ≤ 1 / (2 * 10 ^ 9) := by linarith
  have hmu : 0 ≤ (m : K) * u := mul_nonneg hm0 h0
  constructor
  · have h2 := (abs_le.1 (h.2 (1 - c))).2
    have hc3 : 0 ≤ 1 - c := by
      have : (1 / 10 ^ 8 : K) ≤ 1 := by norm_num
      linarith
    rw [abs_of_nonneg hc3] at h2
    have h3 : u * (1 - c) ≤ u := mul_le_of_le_one_right h0 (by
      have : (0 : K) ≤ 9 / 10 ^ 10 := by norm_num
      linarith)
    have h4 := ht.1
    rw [one_mul] at h4
    have h5 : (1 / (2 * 10 ^ 9) : K) ≤ 9 / 10 ^ 10 := by norm_num
    linarith
  · have h2 := (abs_le.1 (h.2 (1 + c))).1
    have hc3 : 0 ≤ 1 + c := by
      have : (0 : K) ≤ 9 / 10 ^ 10 := by norm_num
      linarith
    rw [abs_of_nonneg hc3] at h2
    have h4 : t * (1 - (m : K) * u) ≤ 1 := by
      rcases le_total t 0 with h6 | h6
      · have h7 : 0 ≤ 1 - (m : K) * u := by
          have : (1 / (2 * 10 ^ 9) : K) ≤ 1 := by norm_num
          linarith
        have := mul_nonpos_of_nonpos_of_nonneg h6 h7
        linarith
      · exact (mul_le_mul_of_nonneg_left hb h6).trans ht.2
    have h6 : t ≤ 2 := by
      by_contra h7
      have h8 : (1 / 2 : K) < 1 - (m : K) * u := by
        have : (1 / (2 * 10 ^ 9) : K) < 1 / 2 := by norm_num
        linarith
      have := mul_lt_mul'' (not_le.1 h7) h8 (by norm_num) (by norm_num)
      linarith
    have h9 : t ≤ 1 + (m : K) * u * t := by linarith
    -- one more turn of the bound
    have h10 : (m : K) * u * t ≤ (m : K) * u * (1 + 2 * (m * u)) := by
      refine mul_le_mul_of_nonneg_left ?_ hmu
      have := mul_le_mul_of_nonneg_left h6 hmu
      linarith
    have h11 : (m : K) * u ≤ 1 / (2 * 10 ^ 9) := by linarith
    have h12 : (m : K) * u * (2 * (m * u)) ≤ 1 / 10 ^ 10 := by
      have a := mul_le_mul h11 (mul_le_mul_of_nonneg_left h11 (zero_le_two (α := K)))
        (by positivity) (by norm_num)
      refine a.trans ?_
      norm_num
    have h13 : u * (1 + c) ≤ u * 2 := mul_le_mul_of_nonneg_left (by
      have : (1 / 10 ^ 8 : K) ≤ 1 := by norm_num
      linarith) h0
    have h14 : (1 / (2 * 10 ^ 9) : K) + 1 / 10 ^ 10 ≤ 9 / 10 ^ 10 := by norm_num
    linarith

/-- The bound on the number of states. -/
def Fits (u : K) (n : Nat) : Prop := (2 * (n : K) + 4) * u ≤ 1 / (2 * 10 ^ 9)

theorem Fits.lt_one {n : Nat} (h : IsRounding u fl) (hf : Fits u n) : u < 1 := by
  have h0 := h.1
  have : 0 ≤ 2 * (n : K) * u := by positivity
  have h2 : (1 / (2 * 10 ^ 9) : K) < 4 := by norm_num
  unfold Fits at hf
  linarith

theorem cumUpdate_near (h : IsRounding u fl) {n : Nat} (hf : Fits u n) {p : Nat → K}
    (hp : ∀ x < n, 0 ≤ p x) (hs : Near u (n + 1) 1 (∑ x ∈ range n, p x)) (c : List K) :
    Rounded.cumUpdate fl ⟨tab n p, c⟩ =
      .ok (true, ⟨tab n p, setLast (Rounded.runningSums fl 0 (tab n p)) 1⟩) := by
  have h1 := (hf.lt_one h).le
  have h2 : vget (Rounded.runningSums fl 0 (tab n p)) (DiscretePdf.mk (tab n p) c).numStates =
      .ok (Rounded.sum fl (tab n p)) := vget_runningSums fl (tab n p) 0
  have h3 := hs.trans h1 (sum_tab h h1 hp).2
  have h4 : (((n + 1 + n : Nat) : K) + 3) * u ≤ 1 / (2 * 10 ^ 9) := by
    refine le_trans (le_of_eq ?_) hf
    push_cast
    ring
  unfold Rounded.cumUpdate
  rw [h2, Outcome.ok_bind, cassert_true (check_ok h h4 h3)]
  rfl

/-- Storing the unnormalised result `q` in the posterior. -/
theorem storeF (h : IsRounding u fl) {n : Nat} (hf : Fits u n) {d : DiscretePdf K}
    (hd : d.values.length = n) {q : Nat → K} (hq : ∀ x < n, 0 ≤ q x)
    (hpos : 0 < ∑ x ∈ range n, q x) :
    0 < Rounded.sum fl (tab n q) ∧
    (∀ x < n, 0 ≤ fl (q x / Rounded.sum fl (tab n q)) ∧
      Near u 1 (q x / Rounded.sum fl (tab n q)) (fl (q x / Rounded.sum fl (tab n q)))) ∧
    Near u (n + 1) 1 (∑ x ∈ range n, fl (q x / Rounded.sum fl (tab n q))) ∧
    Rounded.probabilitiesSet fl d (tab n q) = .ok (true,
      ⟨tab n fun x => fl (q x / Rounded.sum fl (tab n q)),
        setLast (Rounded.runningSums fl 0
          (tab n fun x => fl (q x / Rounded.sum fl (tab n q)))) 1⟩) := by
  have h1 := hf.lt_one h
  obtain ⟨hS0, hS⟩ := sum_tab h h1.le hq
  have hSpos := hS.pos h1 hpos
  generalize hSd : Rounded.sum fl (tab n q) = S at *
  have hx : ∀ x < n, 0 ≤ q x / S := fun x hx => div_nonneg (hq x hx) hS0
  have hsum : Near u (n + 1) 1 (∑ x ∈ range n, fl (q x / S)) := by
    have a : Near u 1 (∑ x ∈ range n, q x / S) (∑ x ∈ range n, fl (q x / S)) :=
      near_sum fun x hx' => h.near h1.le (hx x hx')
    have b : Near u n 1 (∑ x ∈ range n, q x / S) := by
      rw [← Finset.sum_div]
      have := (hS.symm.const_mul (c := S⁻¹) (inv_nonneg.2 hS0))
      rw [inv_mul_cancel₀ hSpos.ne'] at this
      rw [div_eq_inv_mul]
      exact this
    exact b.trans h1.le a
  have hnn : ∀ x < n, 0 ≤ fl (q x / S) := fun x hx' => h.nonneg h1.le (hx x hx')
  refine ⟨hSpos, fun x hx' => ⟨hnn x hx', h.near h1.le (hx x hx')⟩, hsum, ?_⟩
  have e1 : mapOutcome mkProb (tab n q) = .ok (tab n q) := by
    rw [mapOutcome_eq_ok (g := id)]
    · simp
    · intro v hv
      exact mkProb_of_nonneg (forall_mem_tab.2 hq v hv)
  unfold Rounded.probabilitiesSet
  rw [e1, Outcome.ok_bind, cassert_true (by simp [hd]), Outcome.ok_bind]
  simp only [Rounded.normalizeProbs, hSd, if_pos hSpos]
  rw [mapOutcome_eq_ok (g := fun v => fl (v / S))]
  · simp only [Outcome.ok_bind, Outcome.pure_eq, if_true, tab_map]
    exact cumUpdate_near h hf hnn hsum d.cum
  · intro v hv
    unfold Rounded.divProb
    rw [if_neg hSpos.ne']
    exact mkProb_of_nonneg (h.nonneg h1.le (div_nonneg (forall_mem_tab.2 hq v hv) hS0))

theorem sysUpdateF (h : IsRounding u fl) {n : Nat} (h1 : u ≤ 1) {f : HistogramFilter K}
    (hf : HistogramFilter.Sized n f) {p : Nat → K}
    (hp : f.post.values = tab n p) (hp0 : ∀ x < n, 0 ≤ p x) {sys : Model Int Int K}
    {v : Option Int} {w : Bool} (hw : sys.withoutInputs = .ok w) {T : Nat → Nat → K}
    (hT : ∀ y < n, ∀ x < n, HistogramFilter.sysProb sys v (y : Int) (x : Int) = .ok (T y x))
    (hT0 : ∀ y < n, ∀ x < n, 0 ≤ T y x) :
    ∃ q : Nat → K, (∀ y < n, 0 ≤ q y ∧ Near u (1 + n) (∑ x ∈ range n, T y x * p x) (q y)) ∧
    Rounded.sysUpdate fl f sys v = (do
      let r ← Rounded.probabilitiesSet fl f.post (tab n q)
      return { f with post := r.2, newProb := tab n q }) := by
  refine ⟨fun y => Rounded.sum fl (tab n fun x => fl (T y x * p x)), ?_, ?_⟩
  · intro y hy
    have hnn : ∀ x < n, 0 ≤ T y x * p x := fun x hx => mul_nonneg (hT0 y hy x hx) (hp0 x hx)
    have hs := sum_tab h h1 (n := n) (p := fun x => fl (T y x * p x))
      fun x hx => h.nonneg h1 (hnn x hx)
    exact ⟨hs.1, (near_sum fun x hx => h.near h1 (hnn x hx)).trans h1 hs.2⟩
  · have hcell : ∀ y < n, Rounded.predictCell fl sys v f.post.values n y =
        .ok (Rounded.sum fl (tab n fun x => fl (T y x * p x))) := by
      intro y hy
      unfold Rounded.predictCell
      rw [mapOutcome_eq_ok (g := fun x => fl (T y x * p x))]
      · rfl
      · intro x hx
        have hx' := List.mem_range.1 hx
        have : vget f.post.values x = .ok (p x) := by
          rw [hp, vget_of_lt (by simpa using hx'), tab_getElem]
        rw [hT y hy x hx', Outcome.ok_bind, this, Outcome.ok_bind]
        rfl
    have hnn : ∀ y < n, 0 ≤ Rounded.sum fl (tab n fun x => fl (T y x * p x)) := fun y hy =>
      (sum_tab h h1 fun x hx => h.nonneg h1 (mul_nonneg (hT0 y hy x hx) (hp0 x hx))).1
    unfold Rounded.sysUpdate
    simp only [hw, Outcome.ok_bind]
    have hns : f.post.numStates = n := hf.1
    rw [hns, HistogramFilter.predictLoop_eq
      (g := fun y => Rounded.sum fl (tab n fun x => fl (T y x * p x))) hcell hnn n 0 f.newProb
      (by omega) hf.2.1]
    simp

theorem measUpdateF (h : IsRounding u fl) {n : Nat} (h1 : u ≤ 1) {f : HistogramFilter K}
    (hf : HistogramFilter.Sized n f) {p : Nat → K}
    (hp : f.post.values = tab n p) (hp0 : ∀ x < n, 0 ≤ p x) {meas : Model Int Z K} {z : Z}
    {s : Option Int} {L : Nat → K}
    (hL : ∀ x < n, HistogramFilter.measProb meas z s (x : Int) = .ok (L x))
    (hL0 : ∀ x < n, 0 ≤ L x) :
    ∃ q : Nat → K, (∀ y < n, 0 ≤ q y ∧ Near u 1 (p y * L y) (q y)) ∧
    Rounded.measUpdate fl f meas z s = (do
      let r ← Rounded.probabilitiesSet fl f.post (tab n q)
      return { f with post := r.2 }) := by
  have hnn : ∀ x < n, 0 ≤ p x * L x := fun x hx => mul_nonneg (hp0 x hx) (hL0 x hx)
  refine ⟨fun y => fl (p y * L y), fun y hy => ⟨h.nonneg h1 (hnn y hy), h.near h1 (hnn y hy)⟩, ?_⟩
  unfold Rounded.measUpdate
  have hns : f.post.numStates = n := hf.1
  rw [hns, mapOutcome_eq_ok (g := fun x => fl (p x * L x))]
  · rfl
  · intro x hx
    have hx' := List.mem_range.1 hx
    have : vget f.post.values x = .ok (p x) := by
      rw [hp, vget_of_lt (by simpa using hx'), tab_getElem]
    rw [this, Outcome.ok_bind, hL x hx', Outcome.ok_bind]
    exact mkProb_of_nonneg (h.nonneg h1 (hnn x hx'))

end rounding

/-! ## Without rounding the model of `Model/HistogramFilter.lean` is obtained -/

theorem Rounded.sum_id (l : List K) : Rounded.sum id l = l.sum := by
  rw [List.sum_eq_foldl]
  rfl

theorem Rounded.runningSums_id (s : K) (l : List K) :
    Rounded.runningSums id s l = BFL.runningSums s l := by
  induction l generalizing s with
  | nil => rfl
  | cons x xs ih => simp only [Rounded.runningSums, BFL.runningSums, id_eq, ih]

theorem Rounded.cumUpdate_id (d : DiscretePdf K) : Rounded.cumUpdate id d = d.cumUpdate := by
  simp only [Rounded.cumUpdate, DiscretePdf.cumUpdate, Rounded.runningSums_id, id_eq]

theorem Rounded.makeFilter_id (d : DiscretePdf K) :
    Rounded.makeFilter id d = HistogramFilter.make d := by
  simp only [Rounded.makeFilter, HistogramFilter.make, Rounded.copy, DiscretePdf.copy,
    Rounded.cumUpdate_id]

theorem Rounded.probabilitiesSet_id (d : DiscretePdf K) (v : List K) :
    Rounded.probabilitiesSet id d v = d.probabilitiesSet v := by
  have h : ∀ d : DiscretePdf K, Rounded.normalizeProbs id d = d.normalizeProbs := by
    intro d
    simp only [Rounded.normalizeProbs, DiscretePdf.normalizeProbs, Rounded.sum_id]
    rfl
  simp only [Rounded.probabilitiesSet, DiscretePdf.probabilitiesSet, h, Rounded.cumUpdate_id]

theorem Rounded.run_id (f : HistogramFilter K) (cs : List (HistogramFilter.Call Z K)) :
    Rounded.run id f cs = f.run cs := by
  have h1 : ∀ (f : HistogramFilter K) c, Rounded.sysPart id f c = f.sysPart c := by
    intro f c
    rcases c with _ | ⟨m, v⟩
    · rfl
    · have : ∀ (o : List K) n d, Rounded.predictCell id m v o n d =
          HistogramFilter.predictCell m v o n d := by
        intro o n d
        simp only [Rounded.predictCell, HistogramFilter.predictCell, Rounded.sum_id, id_eq]
      have e : Rounded.predictCell id m v f.post.values f.post.numStates =
          HistogramFilter.predictCell m v f.post.values f.post.numStates := by
        funext d; exact this _ _ d
      simp only [Rounded.sysPart, HistogramFilter.sysPart, Rounded.sysUpdate,
        HistogramFilter.sysUpdate, e, Rounded.probabilitiesSet_id]
  have h2 : ∀ (f : HistogramFilter K) (c : Option (Model Int Z K × Z × Option Int)),
      Rounded.measPart id f c = f.measPart c := by
    intro f c
    rcases c with _ | ⟨m, z, s⟩
    · rfl
    · simp only [Rounded.measPart, HistogramFilter.measPart, Rounded.measUpdate,
        HistogramFilter.measUpdate, Rounded.probabilitiesSet_id, id_eq]
  induction cs generalizing f with
  | nil => rfl
  | cons c cs ih =>
    simp only [Rounded.run, HistogramFilter.run, Rounded.update, HistogramFilter.update, h1, h2, ih]

end BFL
