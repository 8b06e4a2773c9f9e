import Verif.Lemmas.RoundedKalman
import Verif.Props.Rounding

/-!
# C90: the Kalman filters with rounded arithmetic
-/

set_option linter.unusedSectionVars false

namespace BFL.Props

open Spec Matrix

variable {K : Type} [Field K] [LinearOrder K] [IsStrictOrderedRing K] {u : K} {fl : K → K}

/-- The step that a call stands for. -/
def stepOf : Rounded.Call K → VarStep K
  | .sys _ F Q => .move F Q
  | .meas _ _ H R => .read H R

/-- Any number of further calls. -/
theorem rounded_run (hfl : IsRounding u fl) (be : Backend) {c : K} (hc : 1 ≤ c) {N : Nat}
    (hN : 80 * c * u * N ≤ 1) (cs : List (Rounded.Call K)) :
    ∀ (f : KF K 1) (p q : K) (k : Nat), f.sigma = !![q] → 0 ≤ p → 0 ≤ q →
    Near (40 * c * u) k p q → k + cs.length ≤ N → (∀ a ∈ cs, (stepOf a).Valid) →
    Improves c p (cs.map stepOf) →
    ∃ f' q', Rounded.runCalls be fl f cs = .ok f' ∧ f'.sigma = !![q'] ∧ 0 ≤ q' ∧
      0 ≤ varAfter p (cs.map stepOf) ∧
      Near (40 * c * u) (k + cs.length) (varAfter p (cs.map stepOf)) q' := by
  have h0 := hfl.1
  have hcu : 0 ≤ c * u := mul_nonneg (by linarith) h0
  induction cs with
  | nil =>
    intro f p q k hf hp hq hn _ _ _
    exact ⟨f, q, rfl, hf, hq, hp, hn⟩
  | cons a cs ih =>
    intro f p q k hf hp hq hn hk hv hi
    have hk' : ((k : K) + 1) ≤ N := by
      have : k + 1 ≤ N := by simp only [List.length_cons] at hk; omega
      exact_mod_cast this
    have hk0 : (0 : K) ≤ k := Nat.cast_nonneg k
    have hm : 80 * c * u * ((k : K) + 1) ≤ 1 :=
      (mul_le_mul_of_nonneg_left hk' (by linarith)).trans hN
    have hcuk : 0 ≤ c * u * k := mul_nonneg hcu hk0
    have hone : 80 * c * u ≤ 1 := by linarith
    have hw1 : 40 * c * u ≤ 1 / 2 := by linarith
    have hhalf : 1 / 2 ≤ (1 - 40 * c * u) ^ k := near_half hw1 (by linarith)
    have hva := hv a (by simp)
    have hnext := VarStep_next_near (by linarith) (by linarith) hp hq hn hva
    have hn0 := VarStep_next_nonneg hp hva
    have hq0 := VarStep_next_nonneg hq hva
    have key : ∀ (f1 : KF K 1) (q1 : K), f1.sigma = !![q1] →
        Near (40 * c * u) 1 ((stepOf a).next q) q1 → Improves c ((stepOf a).next p) (cs.map stepOf) →
        ∃ f' q', Rounded.runCalls be fl f1 cs = .ok f' ∧ f'.sigma = !![q'] ∧ 0 ≤ q' ∧
          0 ≤ varAfter p ((a :: cs).map stepOf) ∧
          Near (40 * c * u) (k + (a :: cs).length) (varAfter p ((a :: cs).map stepOf)) q' := by
      intro f1 q1 e1 e2 e3
      have hq1 : 0 ≤ q1 := (mul_nonneg hq0 (pow_nonneg (by linarith) 1)).trans e2.1
      have := ih f1 ((stepOf a).next p) q1 (k + 1) e1 hn0 hq1 (hnext.trans (by linarith) e2)
        (by simp only [List.length_cons] at hk; omega) (fun b hb => hv b (by simp [hb])) e3
      rw [show k + (a :: cs).length = k + 1 + cs.length by simp only [List.length_cons]; omega]
      exact this
    cases a with
    | sys J F Q =>
      exact key _ _ (by rw [calculateSys_one fl be f hf]) (roundedSys_near hfl hc hone hq hva) hi
    | meas z Z H R =>
      have hR : 0 < R := hva
      have h1 : u < 1 := by
        have : u ≤ c * u := le_mul_of_one_le_left h0 hc
        linarith
      have hS : 0 < H ^ 2 * q + R := by positivity
      have hsne : roundedS fl q H R ≠ 0 :=
        (((roundedS_rel (h := H) hfl h1.le hq hR).near hS.le).pos h1 hS).ne'
      have hi2 : H ^ 2 * q + R ≤ 2 * c * R := by
        have a1 : q * (1 / 2) ≤ p := (mul_le_mul_of_nonneg_left hhalf hq).trans hn.2
        have a2 : H ^ 2 * q ≤ H ^ 2 * (2 * p) :=
          mul_le_mul_of_nonneg_left (by linarith) (sq_nonneg H)
        have a3 := hi.1
        linarith
      obtain ⟨f', q', b1, b2⟩ := key
        { f with mu := ![fl (fl (fl (roundedGain fl q H R * fl (z - Z))) + f.mu 0)]
                 sigma := !![roundedVar fl q H R] } _ rfl (roundedVar_near hfl hc hone hq hR hi2) hi.2
      refine ⟨f', q', ?_, b2⟩
      rw [← b1]
      simp only [Rounded.runCalls]
      rw [calculateMeas_one fl be f hf hsne]
      rfl

/-- **C90** (a whole history, one state and one measurement). If no reading improves the variance by
more than a factor `c`, then after `N` calls the reported variance has a relative error of at most
`80 c u N`, provided this number is at most one; in particular it is not negative, and positive if
the exact one is. Missing for the full claim: readings of any quality (`C90_negative`), and states of
several dimensions (`C90_prediction`, `C90_correction` and `C90_many_history_partial` in
`Props/RoundedKalmanMany.lean`). -/
theorem C90_history_partial (hfl : IsRounding u fl) (be : Backend) {c p : K} (hc : 1 ≤ c)
    (hp : 0 ≤ p) (cs : List (Rounded.Call K)) (hv : ∀ a ∈ cs, (stepOf a).Valid)
    (hi : Improves c p (cs.map stepOf)) (hN : 80 * c * u * cs.length ≤ 1) (x : K) (t : Nat) :
    ∃ f', Rounded.runCalls be fl ⟨![x], !![p], t⟩ cs = .ok f' ∧
      |f'.sigma 0 0 - varAfter p (cs.map stepOf)| ≤
        80 * c * u * cs.length * varAfter p (cs.map stepOf) ∧
      0 ≤ f'.sigma 0 0 ∧ (0 < varAfter p (cs.map stepOf) → 0 < f'.sigma 0 0) := by
  have h0 := hfl.1
  have hcu : 0 ≤ c * u := mul_nonneg (by linarith) h0
  have hl : (0 : K) ≤ cs.length := Nat.cast_nonneg _
  obtain ⟨f', q, e1, e2, e3, e4, e5⟩ := rounded_run hfl be hc hN cs ⟨![x], !![p], t⟩ p p 0 rfl hp hp
    ⟨by simp, by simp⟩ (by simp) hv hi
  have hq : f'.sigma 0 0 = q := by rw [e2]; rfl
  rw [Nat.zero_add] at e5
  refine ⟨f', e1, ?_, by rw [hq]; exact e3, ?_⟩
  · rw [hq]
    by_cases hz : cs.length = 0
    · have : cs = [] := List.length_eq_zero_iff.1 hz
      subst this
      simp only [List.map_nil, varAfter, List.length_nil, Near, pow_zero, mul_one] at e5 ⊢
      rw [le_antisymm e5.2 e5.1]
      simp
    have h1l : (1 : K) ≤ cs.length := by exact_mod_cast Nat.one_le_iff_ne_zero.2 hz
    have hw : 40 * c * u ≤ 1 / 2 := by
      have : c * u * 1 ≤ c * u * cs.length := mul_le_mul_of_nonneg_left h1l hcu
      linarith
    have hb : 1 - cs.length * (40 * c * u) ≤ (1 - 40 * c * u) ^ cs.length := by
      have := one_add_mul_le_pow (a := -(40 * c * u)) (by linarith) cs.length
      have e : (1 : K) + -(40 * c * u) = 1 - 40 * c * u := by ring
      rw [e] at this
      linarith
    have hcl : 0 ≤ cs.length * (40 * c * u) := by positivity
    obtain ⟨d, hd⟩ : ∃ d, d = cs.length * (40 * c * u) := ⟨_, rfl⟩
    have ed : 80 * c * u * cs.length = 2 * d := by rw [hd]; ring
    rw [← hd] at hb hcl
    rw [ed] at hN ⊢
    obtain ⟨e5, e6⟩ := e5
    generalize (1 - 40 * c * u) ^ cs.length = w at hb e5 e6
    generalize varAfter p (cs.map stepOf) = v at *
    have a1 : v * (1 - d) ≤ q := (mul_le_mul_of_nonneg_left hb e4).trans e5
    have a2 : q * (1 - d) ≤ v := (mul_le_mul_of_nonneg_left hb e3).trans e6
    have a3 : q ≤ 2 * v := by
      have : q * (1 / 2) ≤ q * (1 - d) := mul_le_mul_of_nonneg_left (by linarith) e3
      linarith
    have a4 : d * q ≤ d * (2 * v) := mul_le_mul_of_nonneg_left a3 hcl
    have a5 : 0 ≤ d * v := mul_nonneg hcl e4
    rw [abs_le]
    constructor <;> linarith
  · intro hpos
    rw [hq]
    by_cases hz : cs.length = 0
    · rw [hz] at e5
      simp only [Near, pow_zero, mul_one] at e5
      exact hpos.trans_le e5.1
    · have h1l : (1 : K) ≤ cs.length := by exact_mod_cast Nat.one_le_iff_ne_zero.2 hz
      have hw : 40 * c * u < 1 := by
        have : c * u * 1 ≤ c * u * cs.length := mul_le_mul_of_nonneg_left h1l hcu
        linarith
      exact e5.pos hw hpos

/-- **C90** (one correction, readings of any quality). The reported variance is off by at most
`20 u` times the variance before the correction, and the mean by at most `20 u` times the size of the
old mean plus the size of the shift: a reported variance can be negative, but only of the order of
the rounding of the variance before. -/
theorem C90_step (hfl : IsRounding u fl) (hu : u ≤ 1 / 64) (be : Backend) {p h r : K} (hp : 0 ≤ p)
    (hr : 0 < r) (x z Z : K) (t : Nat) :
    ∃ f', Rounded.calculateMeasUpdate be fl ⟨![x], !![p], t⟩ ![z] ![Z] !![h] !![r] = .ok f' ∧
      |f'.sigma 0 0 - p * r / (h ^ 2 * p + r)| ≤ 20 * u * p ∧
      |f'.mu 0 - (x + p * h / (h ^ 2 * p + r) * (z - Z))| ≤
        20 * u * (|x| + |p * h / (h ^ 2 * p + r) * (z - Z)|) := by
  have h0 := hfl.1
  have h1 : u < 1 := by linarith
  have hS : 0 < h ^ 2 * p + r := by positivity
  have hsne : roundedS fl p h r ≠ 0 :=
    (((roundedS_rel (h := h) hfl h1.le hp hr).near hS.le).pos h1 hS).ne'
  refine ⟨_, calculateMeas_one fl be _ rfl hsne, roundedVar_abs hfl hu hp hr, ?_⟩
  have a1 := (roundedGain_rel (h := h) hfl h1 hp hr).mul h1.le (hfl.rel h1.le (z - Z))
  have a2 := (a1.trans h1.le (hfl.rel h1.le _)).trans h1.le (hfl.rel h1.le _)
  have a3 : Rel u 14 (p * h / (h ^ 2 * p + r) * (z - Z))
      (fl (fl (roundedGain fl p h r * fl (z - Z)))) := by
    obtain ⟨s, e, b, d⟩ := a2
    have hb : 0 ≤ (1 - u) ^ 13 := pow_nonneg (by linarith) _
    refine ⟨s, e, ?_, ?_⟩
    · rw [pow_succ]
      exact (mul_le_of_le_one_right hb (by linarith)).trans b
    · rw [pow_succ, ← mul_assoc]
      have : 0 ≤ s * (1 - u) ^ 13 := mul_nonneg (hb.trans b) hb
      exact (mul_le_of_le_one_right this (by linarith)).trans d
  obtain ⟨s, e, hs⟩ := a3.small h0 hu
  change |fl (fl (fl (roundedGain fl p h r * fl (z - Z))) + x) - _| ≤ _
  rw [e]
  generalize p * h / (h ^ 2 * p + r) * (z - Z) = d
  have b1 := hfl.2 (d * s + x)
  have b2 : |d * s + x - (x + d)| ≤ |d| * (18 * u) := by
    have : d * s + x - (x + d) = d * (s - 1) := by ring
    rw [this, abs_mul]
    exact mul_le_mul_of_nonneg_left hs (abs_nonneg d)
  have b3 : |d * s + x| ≤ |d| * (3 / 2) + |x| := by
    refine (abs_add_le _ _).trans (add_le_add ?_ le_rfl)
    rw [abs_mul]
    refine mul_le_mul_of_nonneg_left ?_ (abs_nonneg d)
    have := abs_le.1 hs
    rw [abs_le]
    constructor <;> linarith [this.1, this.2]
  have b4 : u * |d * s + x| ≤ u * (|d| * (3 / 2) + |x|) := mul_le_mul_of_nonneg_left b3 h0
  have b5 := abs_sub_le (fl (d * s + x)) (d * s + x) (x + d)
  have b6 : 0 ≤ u * |d| := mul_nonneg h0 (abs_nonneg d)
  have b7 : 0 ≤ u * |x| := mul_nonneg h0 (abs_nonneg x)
  linarith

/-- Rounding of the numbers that occur in `C90_negative`. -/
theorem round_31 : nearest53 (31 : ℚ) = 31 := by
  unfold nearest53
  have : Int.log 2 |(31 : ℚ)| = 4 := by decide +kernel
  rw [this]
  decide +kernel

theorem round_961 : nearest53 (961 : ℚ) = 961 := by
  unfold nearest53
  have : Int.log 2 |(961 : ℚ)| = 9 := by decide +kernel
  rw [this]
  decide +kernel

theorem round_S : nearest53 (961 + 1 / 2 ^ 60 : ℚ) = 961 := by
  unfold nearest53
  have : Int.log 2 |(961 + 1 / 2 ^ 60 : ℚ)| = 9 := by decide +kernel
  rw [this]
  decide +kernel

theorem round_inv : nearest53 (1 / 961 : ℚ) = 2399420405009047/2305843009213693952 := by
  unfold nearest53
  have : Int.log 2 |(1 / 961 : ℚ)| = -10 := by decide +kernel
  rw [this]
  decide +kernel

theorem round_gain : nearest53 (31 * (2399420405009047/2305843009213693952) : ℚ) =
    4648877034705029/144115188075855872 := by
  unfold nearest53
  have : Int.log 2 |(31 * (2399420405009047/2305843009213693952) : ℚ)| = -5 := by decide +kernel
  rw [this]
  decide +kernel

theorem round_gain' : nearest53 (4648877034705029/144115188075855872 : ℚ) =
    4648877034705029/144115188075855872 := by
  unfold nearest53
  have : Int.log 2 |(4648877034705029/144115188075855872 : ℚ)| = -5 := by decide +kernel
  rw [this]
  decide +kernel

theorem round_one : nearest53 (4648877034705029/144115188075855872 * 31 : ℚ) =
    4503599627370497/4503599627370496 := by
  unfold nearest53
  have : Int.log 2 |(4648877034705029/144115188075855872 * 31 : ℚ)| = 0 := by decide +kernel
  rw [this]
  decide +kernel

theorem round_one' : nearest53 (4503599627370497/4503599627370496 : ℚ) =
    4503599627370497/4503599627370496 := by
  unfold nearest53
  have : Int.log 2 |(4503599627370497/4503599627370496 : ℚ)| = 0 := by decide +kernel
  rw [this]
  decide +kernel

theorem round_var : nearest53 (-1/4503599627370496 : ℚ) = -1/4503599627370496 := by
  unfold nearest53
  have : Int.log 2 |(-1/4503599627370496 : ℚ)| = -52 := by decide +kernel
  rw [this]
  decide +kernel

/-- **C90** fails for sharp sensors: with double precision, a state of variance 1 and a sensor that
reads 31 times the state with noise of variance 2⁻⁶⁰, the reported variance is −2⁻⁵². -/
theorem C90_negative (be : Backend) (x z Z : ℚ) (t : Nat) :
    ∃ f', Rounded.calculateMeasUpdate be nearest53 ⟨![x], !![1], t⟩ ![z] ![Z] !![31]
        !![1 / 2 ^ 60] = .ok f' ∧ f'.sigma 0 0 = -1 / 2 ^ 52 := by
  have hS : roundedS nearest53 1 31 (1 / 2 ^ 60 : ℚ) = 961 := by
    have e : (31 : ℚ) * 31 = 961 := by norm_num
    rw [roundedS, one_mul, round_31, round_31, e, round_961, round_961, round_S]
  refine ⟨_, calculateMeas_one nearest53 be _ rfl (by rw [hS]; norm_num), ?_⟩
  have hG : roundedGain nearest53 1 31 (1 / 2 ^ 60 : ℚ) = 4648877034705029/144115188075855872 := by
    rw [roundedGain, hS, one_mul, round_31, round_31, round_inv, round_gain, round_gain']
  change roundedVar nearest53 1 31 (1 / 2 ^ 60 : ℚ) = _
  have e : (1 : ℚ) - 4503599627370497/4503599627370496 = -1/4503599627370496 := by norm_num
  rw [roundedVar, hG, round_one, round_one', mul_one, round_one', round_one', e, round_var]
  norm_num

theorem rounded_sum_nonneg (hfl : IsRounding u fl) (h1 : u ≤ 1) (l : List K) (hl : ∀ x ∈ l, 0 ≤ x)
    (s : K) (hs : 0 ≤ s) : 0 ≤ l.foldl (fun s x => fl (s + x)) s := by
  induction l generalizing s with
  | nil => exact hs
  | cons x l ih =>
    exact ih (fun y hy => hl y (by simp [hy])) _ (hfl.nonneg h1 (add_nonneg hs (hl x (by simp))))

/-- **C90** for the square root filter, any number of states and measurements: the variances that it
reports are never negative. -/
theorem C90_squareroot (hfl : IsRounding u fl) (h1 : u ≤ 1) (be : Backend) {n m : Nat}
    (JP : Matrix (Fin n) (Fin n) K) (H : Matrix (Fin m) (Fin n) K)
    (invS inv : Matrix (Fin m) (Fin m) K) (i : Fin n) :
    0 ≤ (Rounded.calculateCovariance be fl JP H invS inv).2 i i := by
  have key : ∀ J : Matrix (Fin n) (Fin n) K, 0 ≤ be.toSym (Rounded.mul fl J Jᵀ)ᵀ i i := by
    intro J
    have : 0 ≤ Rounded.mul fl J Jᵀ i i := by
      refine rounded_sum_nonneg hfl h1 _ ?_ 0 le_rfl
      intro x hx
      obtain ⟨t, rfl⟩ := (List.mem_ofFn' _ _).1 hx
      exact hfl.nonneg h1 (mul_self_nonneg _)
    cases be <;> simpa [Backend.toSym] using this
  exact key _

/-! ## Concrete cases -/

/-- `C90_history_partial` in double precision: a prior of variance 1, a move, and a reading. -/
example (be : Backend) : ∃ f', Rounded.runCalls be nearest53 ⟨![(0 : ℚ)], !![1], 0⟩
      [.sys 0 1 (1 / 10), .meas 3 0 2 (1 / 3)] = .ok f' ∧
    |f'.sigma 0 0 - 11 / 142| ≤ 80 * 15 * (1 / 2 ^ 53) * 2 * (11 / 142) ∧
    0 < f'.sigma 0 0 := by
  have e : varAfter (1 : ℚ) (List.map stepOf [.sys 0 1 (1 / 10), .meas 3 0 2 (1 / 3)]) = 11 / 142 := by
    decide +kernel
  obtain ⟨f', h1, h2, -, h4⟩ := C90_history_partial (nearest53_isRounding (K := ℚ)) be (c := 15)
    (p := 1) (by norm_num) (by norm_num) [.sys 0 1 (1 / 10), .meas 3 0 2 (1 / 3)]
    (by simp [stepOf, VarStep.Valid])
    (by simp only [List.map, stepOf, Improves, VarStep.next]; norm_num) (by norm_num) 0 0
  rw [e] at h2 h4
  exact ⟨f', h1, by simpa using h2, h4 (by norm_num)⟩

/-- `C90_step` in double precision with the numbers of `C90_negative`. -/
example (be : Backend) :
    ∃ f', Rounded.calculateMeasUpdate be nearest53 ⟨![(0 : ℚ)], !![1], 0⟩ ![5] ![0] !![31]
        !![1 / 2 ^ 60] = .ok f' ∧
      |f'.sigma 0 0 - 1 * (1 / 2 ^ 60) / (31 ^ 2 * 1 + 1 / 2 ^ 60)| ≤ 20 * (1 / 2 ^ 53) * 1 ∧
      |f'.mu 0 - (0 + 1 * 31 / (31 ^ 2 * 1 + 1 / 2 ^ 60) * (5 - 0))| ≤
        20 * (1 / 2 ^ 53) * (|0| + |1 * 31 / (31 ^ 2 * 1 + 1 / 2 ^ 60) * (5 - 0)|) :=
  C90_step (nearest53_isRounding (K := ℚ)) (by norm_num) be (by norm_num) (by norm_num) 0 5 0 0

/-- `C90_squareroot` in double precision for two states. -/
example (be : Backend) (i : Fin 2) :
    0 ≤ (Rounded.calculateCovariance be nearest53 !![(1 : ℚ), 1 / 3; 0, 1] !![1, 1] !![1 / 7]
      !![1 / 9]).2 i i :=
  C90_squareroot nearest53_isRounding (by norm_num) be _ _ _ _ i

end BFL.Props
