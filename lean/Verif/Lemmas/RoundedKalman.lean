import Verif.Model.RoundedKalman
import Verif.Spec.RoundedKalman
import Verif.Lemmas.Rounded
import Mathlib.Tactic.Ring
import Mathlib.Tactic.Positivity

/-!
# Lemmas about the Kalman filters with rounded arithmetic
-/

set_option linter.unusedSectionVars false

namespace BFL

open Spec Matrix

variable {K : Type} [Field K] [LinearOrder K] [IsStrictOrderedRing K]

/-- `y` is `x` up to `k` roundings, of either sign. -/
def Rel (u : K) (k : Nat) (x y : K) : Prop := ∃ t, y = x * t ∧ (1 - u) ^ k ≤ t ∧ t * (1 - u) ^ k ≤ 1

section rel

variable {u : K} {fl : K → K} {k l : Nat} {x y x' y' : K}

theorem Spec.IsRounding.rel (h : IsRounding u fl) (h1 : u ≤ 1) (x : K) : Rel u 1 x (fl x) := by
  have h0 := h.1
  have hx := h.2 x
  by_cases e : x = 0
  · subst e
    have : fl 0 = 0 := by simpa using hx
    exact ⟨1, by simp [this], by rw [pow_one]; linarith, by rw [pow_one]; linarith⟩
  · refine ⟨fl x / x, by field_simp, ?_⟩
    have hp : 0 < |x| := abs_pos.2 e
    have : |fl x / x - 1| ≤ u := by
      have e2 : fl x / x - 1 = (fl x - x) / x := by field_simp
      rw [e2, abs_div, div_le_iff₀ hp]
      exact hx
    obtain ⟨a, b⟩ := abs_le.1 this
    constructor
    · rw [pow_one]; linarith
    · rw [pow_one]
      have : fl x / x * (1 - u) ≤ (1 + u) * (1 - u) :=
        mul_le_mul_of_nonneg_right (by linarith) (by linarith)
      nlinarith

theorem Rel.trans (h1 : u ≤ 1) {z : K} (h : Rel u k x y) (h' : Rel u l y z) : Rel u (k + l) x z := by
  obtain ⟨t, rfl, a, b⟩ := h
  obtain ⟨s, rfl, c, d⟩ := h'
  have hk : 0 ≤ (1 - u) ^ k := pow_nonneg (by linarith) _
  have hl : 0 ≤ (1 - u) ^ l := pow_nonneg (by linarith) _
  refine ⟨t * s, by ring, ?_, ?_⟩
  · rw [pow_add]; exact mul_le_mul a c hl (hk.trans a)
  · have := mul_le_mul b d (mul_nonneg (hl.trans c) hl) zero_le_one
    rw [pow_add]
    calc t * s * ((1 - u) ^ k * (1 - u) ^ l) = t * (1 - u) ^ k * (s * (1 - u) ^ l) := by ring
      _ ≤ 1 := by linarith

theorem Rel.mul (h1 : u ≤ 1) (h : Rel u k x y) (h' : Rel u l x' y') :
    Rel u (k + l) (x * x') (y * y') := by
  obtain ⟨t, rfl, a, b⟩ := h
  obtain ⟨s, rfl, c, d⟩ := h'
  have : Rel u (k + l) (x * x') (x * x' * t * s) :=
    Rel.trans h1 ⟨t, rfl, a, b⟩ ⟨s, rfl, c, d⟩
  have e : x * t * (x' * s) = x * x' * t * s := by ring
  rwa [e]

theorem Rel.refl (x : K) : Rel u 0 x x := ⟨1, by simp, by simp, by simp⟩

theorem Rel.near (hx : 0 ≤ x) (h : Rel u k x y) : Near u k x y := by
  obtain ⟨t, rfl, a, b⟩ := h
  refine ⟨mul_le_mul_of_nonneg_left a hx, ?_⟩
  rw [mul_assoc]
  exact mul_le_of_le_one_right hx b

theorem Near.rel (hx : 0 < x) (h : Near u k x y) : Rel u k x y := by
  refine ⟨y / x, by field_simp, ?_, ?_⟩
  · rw [le_div_iff₀ hx, mul_comm]; exact h.1
  · rw [div_mul_eq_mul_div, div_le_one hx]; exact h.2

theorem Rel.nonneg (h1 : u ≤ 1) (hx : 0 ≤ x) (h : Rel u k x y) : 0 ≤ y := by
  obtain ⟨t, rfl, a, -⟩ := h
  exact mul_nonneg hx ((pow_nonneg (by linarith) _).trans a)

/-- The factor of a few roundings. -/
theorem Rel.small (h0 : 0 ≤ u) (hu : u ≤ 1 / 64) (h : Rel u 14 x y) :
    ∃ t, y = x * t ∧ |t - 1| ≤ 18 * u := by
  obtain ⟨t, e, a, b⟩ := h
  have hb : 1 - 14 * u ≤ (1 - u) ^ 14 := by
    have := one_add_mul_le_pow (a := -u) (by linarith) 14
    have e : (1 : K) + -u = 1 - u := by ring
    rw [e] at this
    push_cast at this
    linarith
  refine ⟨t, e, abs_le.2 ⟨by linarith, ?_⟩⟩
  have ht : 0 ≤ t := by linarith
  have h2 : t * (1 - 14 * u) ≤ 1 := (mul_le_mul_of_nonneg_left hb ht).trans b
  by_contra hc
  push Not at hc
  have h3 : (1 + 18 * u) * (1 - 14 * u) < t * (1 - 14 * u) :=
    mul_lt_mul_of_pos_right (by linarith) (by linarith)
  have h4 : (1 + 18 * u) * (1 - 14 * u) = 1 + u * (4 - 252 * u) := by ring
  have h5 : 0 ≤ u * (4 - 252 * u) := mul_nonneg h0 (by linarith)
  linarith

end rel

section one

variable (fl : K → K)

theorem rounded_one (x : K) : Rounded.sum fl [x] = fl x := by simp [Rounded.sum]

theorem rounded_mul (a b : K) :
    Rounded.mul fl (!![a] : Matrix (Fin 1) (Fin 1) K) !![b] = !![fl (fl (a * b))] := by
  ext i j
  obtain rfl : i = 0 := Subsingleton.elim _ _
  obtain rfl : j = 0 := Subsingleton.elim _ _
  simp [Rounded.mul, rounded_one]

theorem rounded_add (a b : K) :
    Rounded.add fl (!![a] : Matrix (Fin 1) (Fin 1) K) !![b] = !![fl (a + b)] := by
  ext i j
  obtain rfl : i = 0 := Subsingleton.elim _ _
  obtain rfl : j = 0 := Subsingleton.elim _ _
  simp [Rounded.add]

theorem rounded_sub (a b : K) :
    Rounded.sub fl (!![a] : Matrix (Fin 1) (Fin 1) K) !![b] = !![fl (a - b)] := by
  ext i j
  obtain rfl : i = 0 := Subsingleton.elim _ _
  obtain rfl : j = 0 := Subsingleton.elim _ _
  simp [Rounded.sub]

theorem rounded_mulVec (a b : K) :
    Rounded.mulVec fl (!![a] : Matrix (Fin 1) (Fin 1) K) ![b] = ![fl (fl (a * b))] := by
  ext i
  obtain rfl : i = 0 := Subsingleton.elim _ _
  simp [Rounded.mulVec, rounded_one]

theorem toSym_one (be : Backend) (a : Matrix (Fin 1) (Fin 1) K) : be.toSym a = a := by
  ext i j
  obtain rfl : i = 0 := Subsingleton.elim _ _
  obtain rfl : j = 0 := Subsingleton.elim _ _
  cases be <;> simp [Backend.toSym]

theorem one_T (a : K) : (!![a] : Matrix (Fin 1) (Fin 1) K)ᵀ = !![a] := by
  ext i j
  obtain rfl : i = 0 := Subsingleton.elim _ _
  obtain rfl : j = 0 := Subsingleton.elim _ _
  rfl

/-- The innovation variance, the gain and the variance as computed. -/
def roundedS (p h r : K) : K := fl (fl (fl (h * fl (fl (p * h)))) + r)

def roundedGain (p h r : K) : K := fl (fl (fl (fl (p * h)) * fl (1 / roundedS fl p h r)))

def roundedVar (p h r : K) : K :=
  fl (p - fl (fl (fl (fl (roundedGain fl p h r * h)) * p)))

theorem calculateMeas_one (be : Backend) (f : KF K 1) {p h r z Z : K} (hf : f.sigma = !![p])
    (hs : roundedS fl p h r ≠ 0) :
    Rounded.calculateMeasUpdate be fl f ![z] ![Z] !![h] !![r] = .ok
      { f with mu := ![fl (fl (fl (roundedGain fl p h r * fl (z - Z))) + f.mu 0)]
               sigma := !![roundedVar fl p h r] } := by
  have e : (fun i => fl ((![z] : Fin 1 → K) i - ![Z] i)) = ![fl (z - Z)] := by
    ext i
    obtain rfl : i = 0 := Subsingleton.elim _ _
    rfl
  have hi : Rounded.inverseOne fl !![roundedS fl p h r] = .ok !![fl (1 / roundedS fl p h r)] := by
    unfold Rounded.inverseOne
    rw [if_neg]
    · rfl
    · exact hs
  unfold Rounded.calculateMeasUpdate
  rw [hf]
  simp only [one_T, rounded_mul, rounded_add, e]
  rw [show fl (fl (fl (h * fl (fl (p * h)))) + r) = roundedS fl p h r from rfl, hi]
  simp only [Outcome.ok_bind, rounded_mul, rounded_mulVec, rounded_sub, toSym_one]
  simp only [Outcome.pure_eq, KF.postMuSet, KF.postSigmaSet, roundedVar]
  congr 2
  ext i
  obtain rfl : i = 0 := Subsingleton.elim _ _
  rfl

theorem calculateSys_one (be : Backend) (f : KF K 1) {p F Q J : K} (hf : f.sigma = !![p]) :
    Rounded.calculateSysUpdate be fl f ![J] !![F] !![Q] =
      { f with mu := ![J], sigma := !![fl (fl (fl (F * fl (fl (p * F)))) + Q)] } := by
  unfold Rounded.calculateSysUpdate
  rw [hf]
  simp only [one_T, rounded_mul, rounded_add, toSym_one]
  rfl

end one

section error

variable {u : K} {fl : K → K} {p h r : K}

theorem roundedS_rel (hfl : IsRounding u fl) (h1 : u ≤ 1) (hp : 0 ≤ p) (hr : 0 < r) :
    Rel u 5 (h ^ 2 * p + r) (roundedS fl p h r) := by
  have a1 : Rel u 2 (p * h) (fl (fl (p * h))) := (hfl.rel h1 _).trans h1 (hfl.rel h1 _)
  have a2 : Rel u 2 (h * (p * h)) (h * fl (fl (p * h))) := by
    simpa using (Rel.refl (u := u) h).mul h1 a1
  have a3 : Rel u 4 (h * (p * h)) (fl (fl (h * fl (fl (p * h))))) :=
    (a2.trans h1 (hfl.rel h1 _)).trans h1 (hfl.rel h1 _)
  have e : h * (p * h) = h ^ 2 * p := by ring
  rw [e] at a3
  have hx : 0 ≤ h ^ 2 * p := mul_nonneg (sq_nonneg h) hp
  have a4 := (a3.near hx).add (near_refl hfl.1 h1 4 hr.le)
  exact (a4.rel (by linarith)).trans h1 (hfl.rel h1 _)

theorem Rel.inv (h1 : u < 1) {k : Nat} {x y : K} (h : Rel u k x y) (hx : 0 < x) :
    Rel u k (1 / x) (1 / y) := by
  have := (h.near hx.le).inv h1 hx
  rw [one_div, one_div]
  exact this.rel (by positivity)

theorem roundedGain_rel (hfl : IsRounding u fl) (h1 : u < 1) (hp : 0 ≤ p) (hr : 0 < r) :
    Rel u 10 (p * h / (h ^ 2 * p + r)) (roundedGain fl p h r) := by
  have hS : 0 < h ^ 2 * p + r := by positivity
  have a1 : Rel u 2 (p * h) (fl (fl (p * h))) := (hfl.rel h1.le _).trans h1.le (hfl.rel h1.le _)
  have a2 := ((roundedS_rel (h := h) hfl h1.le hp hr).inv h1 hS).trans h1.le (hfl.rel h1.le _)
  have a3 := a1.mul h1.le a2
  rw [mul_one_div] at a3
  exact (a3.trans h1.le (hfl.rel h1.le _)).trans h1.le (hfl.rel h1.le _)

theorem rounded_correction (hfl : IsRounding u fl) (h1 : u < 1) (hp : 0 ≤ p) (hr : 0 < r) :
    Rel u 14 (p * (h ^ 2 * p / (h ^ 2 * p + r)))
      (fl (fl (fl (fl (roundedGain fl p h r * h)) * p))) := by
  have a1 := ((roundedGain_rel (h := h) hfl h1 hp hr).mul h1.le (Rel.refl h)).trans h1.le
    (hfl.rel h1.le _)
  have a2 := ((a1.trans h1.le (hfl.rel h1.le _)).mul h1.le (Rel.refl p)).trans h1.le (hfl.rel h1.le _)
  have a3 := a2.trans h1.le (hfl.rel h1.le _)
  have e : p * h / (h ^ 2 * p + r) * h * p = p * (h ^ 2 * p / (h ^ 2 * p + r)) := by ring
  rw [e] at a3
  exact a3

/-- The error of the corrected variance, whatever the improvement. -/
theorem roundedVar_abs (hfl : IsRounding u fl) (hu : u ≤ 1 / 64) (hp : 0 ≤ p) (hr : 0 < r) :
    |roundedVar fl p h r - p * r / (h ^ 2 * p + r)| ≤ 20 * u * p := by
  have h0 := hfl.1
  have hS : 0 < h ^ 2 * p + r := by positivity
  obtain ⟨t, e, ht⟩ := (rounded_correction (h := h) hfl (by linarith) hp hr).small h0 hu
  have hg : h ^ 2 * p / (h ^ 2 * p + r) ≤ 1 := (div_le_one hS).2 (by linarith)
  have hg0 : 0 ≤ h ^ 2 * p / (h ^ 2 * p + r) := by positivity
  have hx : p * r / (h ^ 2 * p + r) = p * (1 - h ^ 2 * p / (h ^ 2 * p + r)) := by
    field_simp
    ring
  unfold roundedVar
  rw [e, hx]
  generalize h ^ 2 * p / (h ^ 2 * p + r) = g at *
  have d1 : |p - p * g * t - p * (1 - g)| ≤ 18 * u * p := by
    have e1 : p - p * g * t - p * (1 - g) = -(p * g * (t - 1)) := by ring
    rw [e1, abs_neg, abs_mul, abs_of_nonneg (mul_nonneg hp hg0)]
    calc p * g * |t - 1| ≤ p * 1 * (18 * u) :=
          mul_le_mul (mul_le_mul_of_nonneg_left hg hp) ht (abs_nonneg _) (by linarith)
      _ = 18 * u * p := by ring
  have hpu : u * p ≤ 1 / 64 * p := mul_le_mul_of_nonneg_right hu hp
  have d2 : |p - p * g * t| ≤ p * (3 / 2) := by
    have a := abs_le.1 d1
    have b : p * (1 - g) ≤ p := mul_le_of_le_one_right hp (by linarith)
    have c : 0 ≤ p * (1 - g) := mul_nonneg hp (by linarith)
    rw [abs_le]
    constructor <;> linarith [a.1, a.2]
  have d3 := hfl.2 (p - p * g * t)
  have d4 : u * |p - p * g * t| ≤ u * (p * (3 / 2)) := mul_le_mul_of_nonneg_left d2 h0
  have d5 := abs_sub_le (fl (p - p * g * t)) (p - p * g * t) (p * (1 - g))
  have d6 : 0 ≤ u * p := mul_nonneg h0 hp
  linarith

/-- The relative error of the corrected variance. -/
theorem roundedVar_near (hfl : IsRounding u fl) {c : K} (hc : 1 ≤ c) (hcu : 80 * c * u ≤ 1)
    (hp : 0 ≤ p) (hr : 0 < r) (hi : h ^ 2 * p + r ≤ 2 * c * r) :
    Near (40 * c * u) 1 (p * r / (h ^ 2 * p + r)) (roundedVar fl p h r) := by
  have h0 := hfl.1
  have hcu0 : u ≤ c * u := le_mul_of_one_le_left h0 hc
  have hu : u ≤ 1 / 64 := by linarith
  have hS : 0 < h ^ 2 * p + r := by positivity
  have hle : p ≤ 2 * c * (p * r / (h ^ 2 * p + r)) := by
    rw [← mul_div_assoc, le_div_iff₀ hS]
    calc p * (h ^ 2 * p + r) ≤ p * (2 * c * r) := mul_le_mul_of_nonneg_left hi hp
      _ = 2 * c * (p * r) := by ring
  have ha := roundedVar_abs (h := h) hfl hu hp hr
  have hx0 : 0 ≤ p * r / (h ^ 2 * p + r) := by positivity
  generalize p * r / (h ^ 2 * p + r) = x at *
  have hb : 20 * u * p ≤ 40 * c * u * x := by
    calc 20 * u * p ≤ 20 * u * (2 * c * x) := mul_le_mul_of_nonneg_left hle (by linarith)
      _ = 40 * c * u * x := by ring
  obtain ⟨a, b⟩ := abs_le.1 (ha.trans hb)
  constructor
  · rw [pow_one]; linarith
  · rw [pow_one]
    have : roundedVar fl p h r * (1 - 40 * c * u) ≤ (x + 40 * c * u * x) * (1 - 40 * c * u) :=
      mul_le_mul_of_nonneg_right (by linarith) (by linarith)
    have e : (x + 40 * c * u * x) * (1 - 40 * c * u) = x - (40 * c * u) ^ 2 * x := by ring
    have : 0 ≤ (40 * c * u) ^ 2 * x := by positivity
    linarith

theorem roundedSys_near (hfl : IsRounding u fl) {c : K} (hc : 1 ≤ c) (hcu : 80 * c * u ≤ 1)
    (hp : 0 ≤ p) {F Q : K} (hq : 0 ≤ Q) :
    Near (40 * c * u) 1 (F ^ 2 * p + Q) (fl (fl (fl (F * fl (fl (p * F)))) + Q)) := by
  have h0 := hfl.1
  have hcu0 : u ≤ c * u := le_mul_of_one_le_left h0 hc
  have h1 : u ≤ 1 := by linarith
  have a1 : Rel u 2 (p * F) (fl (fl (p * F))) := (hfl.rel h1 _).trans h1 (hfl.rel h1 _)
  have a2 : Rel u 2 (F * (p * F)) (F * fl (fl (p * F))) := by
    simpa using (Rel.refl (u := u) F).mul h1 a1
  have a3 : Rel u 4 (F * (p * F)) (fl (fl (F * fl (fl (p * F))))) :=
    (a2.trans h1 (hfl.rel h1 _)).trans h1 (hfl.rel h1 _)
  have e : F * (p * F) = F ^ 2 * p := by ring
  rw [e] at a3
  have hx : 0 ≤ F ^ 2 * p := mul_nonneg (sq_nonneg F) hp
  have hy := a3.nonneg h1 hx
  have a4 := ((a3.near hx).add (near_refl h0 h1 4 hq)).trans h1 (hfl.near h1 (add_nonneg hy hq))
  have hz : 0 ≤ fl (fl (fl (F * fl (fl (p * F)))) + Q) := hfl.nonneg h1 (add_nonneg hy hq)
  have hb : 1 - 40 * c * u ≤ (1 - u) ^ 5 := by
    have := one_add_mul_le_pow (a := -u) (by linarith) 5
    have e : (1 : K) + -u = 1 - u := by ring
    rw [e] at this
    push_cast at this
    linarith
  constructor
  · rw [pow_one]; exact (mul_le_mul_of_nonneg_left hb (add_nonneg hx hq)).trans a4.1
  · rw [pow_one]; exact (mul_le_mul_of_nonneg_left hb hz).trans a4.2

/-- The exact correction does not amplify relative errors. -/
theorem correction_mono {c p q : K} (hc0 : 0 ≤ c) (hc : c ≤ 1) (hp : 0 ≤ p)
    (hr : 0 < r) (hq : p * c ≤ q) :
    p * r / (h ^ 2 * p + r) * c ≤ q * r / (h ^ 2 * q + r) := by
  have hq0 : 0 ≤ q := (mul_nonneg hp hc0).trans hq
  have hS : 0 < h ^ 2 * p + r := by positivity
  have hS' : 0 < h ^ 2 * q + r := by positivity
  rw [div_mul_eq_mul_div, div_le_div_iff₀ hS hS']
  have e1 : q * r * (h ^ 2 * p + r) - p * r * c * (h ^ 2 * q + r) =
      r * (h ^ 2 * p * q * (1 - c) + r * (q - p * c)) := by ring
  have : 0 ≤ r * (h ^ 2 * p * q * (1 - c) + r * (q - p * c)) := by
    have a : 0 ≤ 1 - c := by linarith
    have b : 0 ≤ q - p * c := by linarith
    positivity
  linarith

theorem VarStep_next_near {w : K} (h0 : 0 ≤ w) (h1 : w ≤ 1) {k : Nat} {p q : K} (hp : 0 ≤ p)
    (hq : 0 ≤ q) (h : Near w k p q) {s : VarStep K} (hs : s.Valid) :
    Near w k (s.next p) (s.next q) := by
  have a : 0 ≤ (1 - w) ^ k := pow_nonneg (by linarith) _
  have b : (1 - w) ^ k ≤ 1 := pow_le_one₀ (by linarith) (by linarith)
  cases s with
  | move f q => exact (h.const_mul (sq_nonneg f)).add (near_refl h0 h1 k hs)
  | read h' r => exact ⟨correction_mono a b hp hs h.1, correction_mono a b hq hs h.2⟩

theorem VarStep_next_nonneg {p : K} (hp : 0 ≤ p) {s : VarStep K} (hs : s.Valid) : 0 ≤ s.next p := by
  cases s with
  | move f q => exact add_nonneg (mul_nonneg (sq_nonneg f) hp) hs
  | read h r =>
    have : 0 < r := hs
    simp only [VarStep.next]
    positivity

theorem near_half {w : K} {k : Nat} (h1 : w ≤ 1 / 2) (hk : k * w ≤ 1 / 2) :
    1 / 2 ≤ (1 - w) ^ k := by
  have := one_add_mul_le_pow (a := -w) (by linarith) k
  have e : (1 : K) + -w = 1 - w := by ring
  rw [e] at this
  linarith

end error

end BFL
