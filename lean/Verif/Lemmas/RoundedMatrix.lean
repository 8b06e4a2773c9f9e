import Verif.Lemmas.RoundedKalman
import Verif.Lemmas.Kalman
import Verif.Spec.RoundedMatrix
import Mathlib.Algebra.BigOperators.Fin
import Mathlib.Algebra.Order.BigOperators.Ring.Finset

/-!
# Componentwise error bounds for rounded matrix arithmetic
-/

set_option linter.unusedSectionVars false

namespace BFL

open Spec Matrix

variable {K : Type} [Field K] [LinearOrder K] [IsStrictOrderedRing K] {u : K} {fl : K → K}

/-- `y` stands for `x`; both are computed by the same formula, which for the absolute values of its
arguments has the value `a`. -/
def Maj (g a x y : K) : Prop := |x| ≤ a ∧ |y - x| ≤ (g - 1) * a

namespace Maj

variable {g h a b x y z w : K}

theorem nonneg (m : Maj g a x y) : 0 ≤ a := (abs_nonneg x).trans m.1

theorem refl (x : K) : Maj 1 |x| x x := ⟨le_rfl, by simp⟩

theorem mono (m : Maj g a x y) (hg : g ≤ h) : Maj h a x y :=
  ⟨m.1, m.2.trans (mul_le_mul_of_nonneg_right (by linarith) m.nonneg)⟩

theorem le (m : Maj g a x y) : |y| ≤ g * a := by
  have := abs_add_le (y - x) x
  rw [sub_add_cancel] at this
  linarith [m.1, m.2, sub_mul g 1 a, one_mul a]

theorem round (hf : IsRounding u fl) (m : Maj g a x y) : Maj (g * (1 + u)) a x (fl y) := by
  refine ⟨m.1, ?_⟩
  have h1 := abs_add_le (fl y - y) (y - x)
  rw [sub_add_sub_cancel] at h1
  have h2 := hf.2 y
  have h3 := mul_le_mul_of_nonneg_left m.le hf.1
  have h4 := m.2
  linarith [show (g * (1 + u) - 1) * a = (g - 1) * a + u * (g * a) by ring]

theorem add (m : Maj g a x y) (m' : Maj g b z w) : Maj g (a + b) (x + z) (y + w) := by
  refine ⟨(abs_add_le _ _).trans (add_le_add m.1 m'.1), ?_⟩
  have := abs_add_le (y - x) (w - z)
  rw [show y + w - (x + z) = y - x + (w - z) by ring]
  linarith [m.2, m'.2, mul_add (g - 1) a b]

theorem neg (m : Maj g a x y) : Maj g a (-x) (-y) :=
  ⟨by rw [abs_neg]; exact m.1, by rw [neg_sub_neg, abs_sub_comm]; exact m.2⟩

theorem sub (m : Maj g a x y) (m' : Maj g b z w) : Maj g (a + b) (x - z) (y - w) := by
  have := m.add m'.neg
  rwa [← sub_eq_add_neg, ← sub_eq_add_neg] at this

theorem mul (hg : 1 ≤ g) (m : Maj g a x y) (m' : Maj h b z w) : Maj (g * h) (a * b) (x * z) (y * w) := by
  refine ⟨by rw [abs_mul]; exact mul_le_mul m.1 m'.1 (abs_nonneg _) m.nonneg, ?_⟩
  have e : y * w - x * z = (y - x) * w + x * (w - z) := by ring
  rw [e]
  have h1 := abs_add_le ((y - x) * w) (x * (w - z))
  rw [abs_mul, abs_mul] at h1
  have h2 : |y - x| * |w| ≤ (g - 1) * a * (h * b) :=
    mul_le_mul m.2 m'.le (abs_nonneg _) (mul_nonneg (by linarith) m.nonneg)
  have h3 : |x| * |w - z| ≤ a * ((h - 1) * b) := mul_le_mul m.1 m'.2 (abs_nonneg _) m.nonneg
  linarith [show (g * h - 1) * (a * b) = (g - 1) * a * (h * b) + a * ((h - 1) * b) by ring]

end Maj

theorem Maj.foldl (hf : IsRounding u fl) {g : K} (hg : 1 ≤ g) :
    ∀ (l : List (K × K × K)) {h A X s : K}, g ≤ h → Maj h A X s → (∀ t ∈ l, Maj g t.1 t.2.1 t.2.2) →
      Maj (h * (1 + u) ^ l.length) (A + (l.map (·.1)).sum) (X + (l.map (·.2.1)).sum)
        ((l.map (·.2.2)).foldl (fun s x => fl (s + x)) s)
  | [], h, A, X, s, _, m, _ => by simpa using m
  | t :: l, h, A, X, s, hgh, m, hl => by
    have h0 := hf.1
    have m1 : Maj (h * (1 + u)) (A + t.1) (X + t.2.1) (fl (s + t.2.2)) :=
      (m.add ((hl t (by simp)).mono hgh)).round hf
    have hh : g ≤ h * (1 + u) := by nlinarith [mul_nonneg (by linarith : (0 : K) ≤ h) h0]
    have := Maj.foldl hf hg l hh m1 (fun t ht => hl t (by simp [ht]))
    simp only [List.map_cons, List.sum_cons, List.foldl_cons, List.length_cons]
    rw [← add_assoc, ← add_assoc, pow_succ', ← mul_assoc]
    exact this

theorem Maj.sum (hf : IsRounding u fl) {g : K} (hg : 1 ≤ g) {n : Nat} {a x y : Fin n → K}
    (m : ∀ t, Maj g (a t) (x t) (y t)) :
    Maj (g * (1 + u) ^ n) (∑ t, a t) (∑ t, x t) (Rounded.sum fl (List.ofFn y)) := by
  have := Maj.foldl hf hg (List.ofFn fun t => (a t, x t, y t)) (h := g) (A := 0) (X := 0) (s := 0) le_rfl
    ⟨by simp, by simp⟩ (fun t ht => by
      obtain ⟨i, rfl⟩ := (List.mem_ofFn' _ _).1 ht
      exact m i)
  simp only [List.length_ofFn, List.map_ofFn, Function.comp_def, zero_add, List.sum_ofFn] at this
  exact this

theorem one_le_pow_succ (hu : 0 ≤ u) (k : Nat) : 1 ≤ (1 + u) ^ k := one_le_pow₀ (by linarith)

variable {k l m n : Nat}

/-- Entrywise. -/
def MajM (g : K) (A X Y : Matrix (Fin k) (Fin l) K) : Prop := ∀ i j, Maj g (A i j) (X i j) (Y i j)

namespace MajM

theorem refl (X : Matrix (Fin k) (Fin l) K) : MajM 1 (absM X) X X := fun _ _ => Maj.refl _

theorem mono {g h : K} {A X Y : Matrix (Fin k) (Fin l) K} (m : MajM g A X Y) (hg : g ≤ h) :
    MajM h A X Y := fun i j => (m i j).mono hg

theorem transpose {g : K} {A X Y : Matrix (Fin k) (Fin l) K} (m : MajM g A X Y) :
    MajM g Aᵀ Xᵀ Yᵀ := fun i j => m j i

theorem mul (hf : IsRounding u fl) {g h : K} (hg : 1 ≤ g) (hh : 1 ≤ h)
    {A X Y : Matrix (Fin k) (Fin l) K} {B Z W : Matrix (Fin l) (Fin m) K} (m1 : MajM g A X Y)
    (m2 : MajM h B Z W) : MajM (g * h * (1 + u) ^ (l + 1)) (A * B) (X * Z) (Rounded.mul fl Y W) := by
  intro i j
  have h0 := hf.1
  have : ∀ t, Maj (g * h * (1 + u)) (A i t * B t j) (X i t * Z t j) (fl (Y i t * W t j)) :=
    fun t => ((m1 i t).mul hg (m2 t j)).round hf
  have := Maj.sum hf (one_le_mul_of_one_le_of_one_le (one_le_mul_of_one_le_of_one_le hg hh) (by linarith)) this
  rw [pow_succ', ← mul_assoc]
  simpa [Matrix.mul_apply, Rounded.mul] using this

theorem add (hf : IsRounding u fl) {g : K} {A X Y B Z W : Matrix (Fin k) (Fin l) K} (m1 : MajM g A X Y)
    (m2 : MajM g B Z W) : MajM (g * (1 + u)) (A + B) (X + Z) (Rounded.add fl Y W) :=
  fun i j => ((m1 i j).add (m2 i j)).round hf

theorem sub (hf : IsRounding u fl) {g : K} {A X Y B Z W : Matrix (Fin k) (Fin l) K} (m1 : MajM g A X Y)
    (m2 : MajM g B Z W) : MajM (g * (1 + u)) (A + B) (X - Z) (Rounded.sub fl Y W) :=
  fun i j => ((m1 i j).sub (m2 i j)).round hf

theorem toSym {g : K} {A X Y : Matrix (Fin n) (Fin n) K} (m : MajM g A X Y) (hA : Aᵀ = A) (be : Backend) :
    MajM g A (be.toSym X) (be.toSym Y) := by
  intro i j
  have e : A j i = A i j := congrFun (congrFun hA i) j
  have := m i j
  have := m j i
  cases be <;> simp only [Backend.toSym, Matrix.of_apply] <;> split_ifs <;> first | exact m i j | (rw [← e]; exact m j i)

end MajM

theorem absM_symm {A : Matrix (Fin n) (Fin n) K} (h : Aᵀ = A) : (absM A)ᵀ = absM A := by
  ext i j
  have := congrFun (congrFun h i) j
  simp only [transpose_apply] at this
  simp [absM, this]

/-- The prediction, from a covariance that may already be off. -/
theorem calculateSysUpdate_maj (hf : IsRounding u fl) (be : Backend) {g : K} (hg : 1 ≤ g) {e f : KF K n}
    {A F Q : Matrix (Fin n) (Fin n) K} (m : MajM g A e.sigma f.sigma) (hA : Aᵀ = A) (hQ : Qᵀ = Q)
    (J : Fin n → K) :
    MajM (g * (1 + u) ^ (2 * n + 3)) (absM F * A * (absM F)ᵀ + absM Q) (e.calculateSysUpdate be J F Q).sigma
      (Rounded.calculateSysUpdate be fl f J F Q).sigma := by
  have h0 := hf.1
  have hF := MajM.refl F
  have m1 := m.mul hf hg le_rfl hF.transpose
  have hp := one_le_pow_succ h0 (n + 1)
  have m2 := hF.mul hf le_rfl (one_le_mul_of_one_le_of_one_le (by linarith) hp) m1
  have m3 := m2.add hf ((MajM.refl Q).mono (h := 1 * (g * 1 * (1 + u) ^ (n + 1)) * (1 + u) ^ (n + 1)) (by
    rw [one_mul, mul_one]
    exact one_le_mul_of_one_le_of_one_le (one_le_mul_of_one_le_of_one_le hg hp) hp))
  have m4 := m3.toSym (by
    rw [transpose_add, absM_symm hQ, transpose_mul, transpose_mul, transpose_transpose, hA, Matrix.mul_assoc]) be
  rw [Matrix.mul_assoc]
  refine m4.mono (le_of_eq ?_)
  ring

/-- The inverse of a number that is off by less than half of it. -/
theorem Maj.inv {g a x y κ : K} (hx : 0 < x) (m : Maj g a x y) (ha : a ≤ κ * x) (hκ : κ * (g - 1) ≤ 1 / 2)
    (hg : 1 ≤ g) : 0 < y ∧ Maj (1 + 2 * (κ * (g - 1))) (1 / x) (1 / x) (1 / y) := by
  have h1 : |y - x| ≤ κ * (g - 1) * x := by
    have := mul_le_mul_of_nonneg_left ha (by linarith : 0 ≤ g - 1)
    linarith [m.2, show (g - 1) * (κ * x) = κ * (g - 1) * x by ring]
  have h2 := abs_le.1 h1
  have h3 : κ * (g - 1) * x ≤ 1 / 2 * x := mul_le_mul_of_nonneg_right hκ hx.le
  have hy : x / 2 ≤ y := by linarith [h2.1]
  have hy0 : 0 < y := by linarith
  refine ⟨hy0, by rw [abs_of_pos (by positivity)], ?_⟩
  have e : 1 / y - 1 / x = (x - y) / (x * y) := by field_simp
  rw [e, abs_div, abs_sub_comm, abs_of_pos (mul_pos hx hy0), div_le_iff₀ (mul_pos hx hy0)]
  have hE : 0 ≤ κ * (g - 1) := by
    by_contra hn
    push Not at hn
    have := mul_neg_of_neg_of_pos hn hx
    linarith [abs_nonneg (y - x)]
  have e2 : (1 + 2 * (κ * (g - 1)) - 1) * (1 / x) * (x * y) = 2 * (κ * (g - 1)) * y := by field_simp; ring
  rw [e2]
  have := mul_le_mul_of_nonneg_left hy hE
  linarith

/-- The correction with one reading, from an estimate that may already be off. -/
theorem calculateMeasUpdate_maj (hf : IsRounding u fl) (be : Backend) {g : K} (hg : 1 ≤ g) {e f : KF K n}
    {A : Matrix (Fin n) (Fin n) K} {b : Fin n → K} (m : MajM g A e.sigma f.sigma) (hA : Aᵀ = A)
    (hb : ∀ i, Maj g (b i) (e.mu i) (f.mu i)) {H : Matrix (Fin 1) (Fin n) K} {R : Matrix (Fin 1) (Fin 1) K}
    {s κ E : K} (hs : s = (H * (e.sigma * Hᵀ) + R) 0 0) (hs0 : 0 < s) (hκ0 : 0 ≤ κ)
    (hκ : (absM H * A * (absM H)ᵀ + absM R) 0 0 ≤ κ * s) (hE : E = 2 * (κ * (g * (1 + u) ^ (2 * n + 3) - 1)))
    (hE1 : E ≤ 1) (z Z : Fin 1 → K) :
    ∃ e' f', e.calculateMeasUpdate be z Z H R = .ok e' ∧ Rounded.calculateMeasUpdate be fl f z Z H R = .ok f' ∧
      MajM (g ^ 2 * (1 + u) ^ (2 * n + 8) * (1 + E))
        (A + (A * (absM H)ᵀ) * !![1 / s] * absM H * A) e'.sigma f'.sigma ∧
      ∀ i, Maj (g ^ 2 * (1 + u) ^ (2 * n + 8) * (1 + E))
        (b i + (A * (absM H)ᵀ) i 0 * (1 / s) * |z 0 - Z 0|) (e'.mu i) (f'.mu i) := by
  have h0 := hf.1
  have hp : ∀ k : Nat, 1 ≤ (1 + u) ^ k := fun k => one_le_pow_succ h0 k
  have mul1 : ∀ {a b : K}, 1 ≤ a → 1 ≤ b → 1 ≤ a * b := fun ha hb => one_le_mul_of_one_le_of_one_le ha hb
  have hH := MajM.refl H
  -- S
  have mP := m.mul hf hg le_rfl hH.transpose
  have hgP : 1 ≤ g * 1 * (1 + u) ^ (n + 1) := mul1 (by linarith) (hp _)
  have mS0 := hH.mul hf le_rfl hgP mP
  have hgS : 1 ≤ 1 * (g * 1 * (1 + u) ^ (n + 1)) * (1 + u) ^ (n + 1) := mul1 (by linarith) (hp _)
  have mS := mS0.add hf ((MajM.refl R).mono hgS)
  have eS : 1 * (g * 1 * (1 + u) ^ (n + 1)) * (1 + u) ^ (n + 1) * (1 + u) = g * (1 + u) ^ (2 * n + 3) := by ring
  rw [eS] at mS
  have hgS' : 1 ≤ g * (1 + u) ^ (2 * n + 3) := mul1 hg (hp _)
  set S' := Rounded.add fl (Rounded.mul fl H (Rounded.mul fl f.sigma Hᵀ)) R with hS'
  have mS00 := mS 0 0
  rw [← hs] at mS00
  have hκ' : (absM H * (A * (absM H)ᵀ) + absM R) 0 0 ≤ κ * s := by rw [← Matrix.mul_assoc]; exact hκ
  obtain ⟨hpos, mi⟩ := mS00.inv hs0 hκ' (by linarith) hgS'
  rw [← hE] at mi
  have hE0 : 0 ≤ E := by rw [hE]; exact mul_nonneg (by norm_num) (mul_nonneg hκ0 (by linarith))
  have mI : MajM ((1 + E) * (1 + u)) !![1 / s] !![1 / s] !![fl (1 / S' 0 0)] := by
    intro i j
    rw [Subsingleton.elim i 0, Subsingleton.elim j 0]
    exact mi.round hf
  have hgI : 1 ≤ (1 + E) * (1 + u) := mul1 (by linarith) (by linarith)
  -- the exact filter
  have hinv : be.inverse (H * (e.sigma * Hᵀ) + R) = .ok !![1 / s] := by
    have hd : (H * (e.sigma * Hᵀ) + R).det ≠ 0 := by rw [det_fin_one, ← hs]; exact hs0.ne'
    rw [be.inverse_of_det _ hd]
    congr 1
    rw [Matrix.inv_subsingleton]
    ext i j
    rw [Subsingleton.elim i 0, Subsingleton.elim j 0, diagonal_apply_eq, ← hs, Ring.inverse_eq_inv]
    simp
  have hinv' : Rounded.inverseOne fl S' = .ok !![fl (1 / S' 0 0)] := by
    rw [Rounded.inverseOne, if_neg hpos.ne']
  -- gain
  have mG := mP.mul hf hgP hgI mI
  have hgG : 1 ≤ g * 1 * (1 + u) ^ (n + 1) * ((1 + E) * (1 + u)) * (1 + u) ^ (1 + 1) := mul1 (mul1 hgP hgI) (hp _)
  have mGH := mG.mul hf hgG le_rfl hH
  have mGHS := mGH.mul hf (mul1 (mul1 hgG le_rfl) (hp _)) hg m
  have eT : g * 1 * (1 + u) ^ (n + 1) * ((1 + E) * (1 + u)) * (1 + u) ^ (1 + 1) * 1 * (1 + u) ^ (1 + 1) * g *
      (1 + u) ^ (n + 1) = g ^ 2 * (1 + u) ^ (2 * n + 7) * (1 + E) := by ring
  rw [eT] at mGHS
  have hgT : g ≤ g ^ 2 * (1 + u) ^ (2 * n + 7) * (1 + E) := by
    have : 1 ≤ g * (1 + u) ^ (2 * n + 7) * (1 + E) := mul1 (mul1 hg (hp _)) (by linarith)
    nlinarith
  have mC := (m.mono hgT).sub hf mGHS
  have mC' := mC.toSym (by
    have ht : (!![1 / s] : Matrix (Fin 1) (Fin 1) K)ᵀ = !![1 / s] := by
      ext i j; rw [Subsingleton.elim i 0, Subsingleton.elim j 0]; rfl
    simp only [transpose_add, transpose_mul, transpose_transpose, hA, ht, Matrix.mul_assoc]) be
  -- mean
  have mν : Maj (1 + u) |z 0 - Z 0| (z 0 - Z 0) (fl (z 0 - Z 0)) := by
    have := (Maj.refl (z 0 - Z 0)).round hf
    rwa [one_mul] at this
  have hexact : e.calculateMeasUpdate be z Z H R = .ok (((e.postMuSet
      ((e.sigma * Hᵀ * !![1 / s]) *ᵥ (z - Z) + e.mu))).postSigmaSet
      (be.toSym (e.sigma - e.sigma * Hᵀ * !![1 / s] * H * e.sigma))) := by
    simp only [KF.calculateMeasUpdate, hinv, Outcome.ok_bind, Outcome.pure_eq]
  have hround : Rounded.calculateMeasUpdate be fl f z Z H R = .ok ((f.postMuSet fun i =>
      fl (Rounded.mulVec fl (Rounded.mul fl (Rounded.mul fl f.sigma Hᵀ) !![fl (1 / S' 0 0)])
        (fun i => fl (z i - Z i)) i + f.mu i)).postSigmaSet (be.toSym (Rounded.sub fl f.sigma
      (Rounded.mul fl (Rounded.mul fl (Rounded.mul fl (Rounded.mul fl f.sigma Hᵀ) !![fl (1 / S' 0 0)]) H)
        f.sigma)))) := by
    simp only [Rounded.calculateMeasUpdate, ← hS', hinv', Outcome.ok_bind, Outcome.pure_eq]
  refine ⟨_, _, hexact, hround, ?_, fun i => ?_⟩
  · refine mC'.mono (le_of_eq ?_)
    ring
  · have m1 : Maj (g * 1 * (1 + u) ^ (n + 1) * ((1 + E) * (1 + u)) * (1 + u) ^ (1 + 1) * (1 + u) * (1 + u))
        ((A * (absM H)ᵀ * !![1 / s]) i 0 * |z 0 - Z 0|)
        ((e.sigma * Hᵀ * !![1 / s]) i 0 * (z 0 - Z 0)) _ := ((mG i 0).mul hgG mν).round hf
    have m2 := Maj.sum hf (mul1 (mul1 hgG (by linarith)) (by linarith)) (n := 1)
      (a := fun _ => (A * (absM H)ᵀ * !![1 / s]) i 0 * |z 0 - Z 0|)
      (x := fun _ => (e.sigma * Hᵀ * !![1 / s]) i 0 * (z 0 - Z 0)) (y := fun _ => _) (fun _ => m1)
    rw [Fin.sum_univ_one, Fin.sum_univ_one] at m2
    have m3 := m2.add ((hb i).mono (h := _) ?_)
    have m4 := m3.round hf
    · have e1 : (A * (absM H)ᵀ * !![1 / s]) i 0 = (A * (absM H)ᵀ) i 0 * (1 / s) := by
        rw [Matrix.mul_apply, Fin.sum_univ_one]; rfl
      rw [e1, add_comm _ (b i)] at m4
      have m5 := m4.mono (h := g ^ 2 * (1 + u) ^ (2 * n + 8) * (1 + E)) ?_
      · convert m5 using 1
        rotate_left
        · have ef : (fun t : Fin 1 => fl (Rounded.mul fl (Rounded.mul fl f.sigma Hᵀ) !![fl (1 / S' 0 0)] i t *
              fl (z t - Z t))) = fun _ => fl (Rounded.mul fl (Rounded.mul fl f.sigma Hᵀ) !![fl (1 / S' 0 0)] i 0 *
              fl (z 0 - Z 0)) := by
            funext t; rw [Subsingleton.elim t 0]
          rw [← ef]
          rfl
        show ((e.sigma * Hᵀ * !![1 / s]) *ᵥ (z - Z) + e.mu) i = _
        rw [Pi.add_apply, mulVec, dotProduct, Fin.sum_univ_one]
        rfl
      · have e2 : g * 1 * (1 + u) ^ (n + 1) * ((1 + E) * (1 + u)) * (1 + u) ^ (1 + 1) * (1 + u) * (1 + u) *
            (1 + u) ^ 1 * (1 + u) = g * ((1 + u) ^ (n + 8) * (1 + E)) := by ring
        have e3 : (1 + u) ^ (2 * n + 8) = (1 + u) ^ (n + 8) * (1 + u) ^ n := by ring
        rw [e2, e3]
        have hq : 0 ≤ g * ((1 + u) ^ (n + 8) * (1 + E)) :=
          mul_nonneg (by linarith) (mul_nonneg (zero_le_one.trans (hp _)) (by linarith))
        have := mul_le_mul_of_nonneg_left (mul1 hg (hp n)) hq
        calc _ ≤ g * ((1 + u) ^ (n + 8) * (1 + E)) * (g * (1 + u) ^ n) := by linarith
          _ = _ := by ring
    · have e2 : g * 1 * (1 + u) ^ (n + 1) * ((1 + E) * (1 + u)) * (1 + u) ^ (1 + 1) * (1 + u) * (1 + u) *
          (1 + u) ^ 1 = g * ((1 + u) ^ (n + 7) * (1 + E)) := by ring
      rw [e2]
      have := mul_le_mul_of_nonneg_left (mul1 (hp (n + 7)) (by linarith : 1 ≤ 1 + E)) (by linarith : 0 ≤ g)
      linarith

end BFL
