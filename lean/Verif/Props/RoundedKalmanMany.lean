import Verif.Lemmas.RoundedMatrix
import Verif.Props.Rounding

/-!
# C90: the Kalman filter with rounded arithmetic and several states
-/

set_option linter.unusedSectionVars false

namespace BFL.Props

open Spec Matrix

variable {K : Type} [Field K] [LinearOrder K] [IsStrictOrderedRing K] {u : K} {fl : K → K} {n : Nat}

theorem pow_excess (hu : 0 ≤ u) {k : Nat} (hk : (k : K) * u ≤ 1 / 2) : (1 + u) ^ k - 1 ≤ 2 * (k * u) := by
  rcases Nat.eq_zero_or_pos k with rfl | hpos
  · simp
  have hk1 : (1 : K) ≤ k := by exact_mod_cast hpos
  have hu2 : u ≤ 1 / 2 := by nlinarith
  have h1 := one_add_mul_le_pow (a := -u) (by linarith) k
  have h2 : (1 + u) ^ k * (1 + -u) ^ k ≤ 1 := by
    rw [← mul_pow]
    exact pow_le_one₀ (by nlinarith) (by nlinarith)
  have h3 : 1 ≤ (1 + u) ^ k := one_le_pow₀ (by linarith)
  have h4 := mul_le_mul_of_nonneg_left h1 (by linarith : 0 ≤ (1 + u) ^ k)
  have hku : 0 ≤ (k : K) * u := by positivity
  have h5 : (1 + u) ^ k * (1 - k * u) ≤ 1 := by
    have e : (1 : K) + k * -u = 1 - k * u := by ring
    rw [e] at h4
    linarith
  have h6 : (1 + u) ^ k ≤ 2 := by nlinarith
  nlinarith

/-- Motions, each with the position `J` that the model computed, its matrix `F` and its noise `Q`. -/
abbrev Motions (K : Type) (n : Nat) :=
  List ((Fin n → K) × Matrix (Fin n) (Fin n) K × Matrix (Fin n) (Fin n) K)

/-- The filter with exact arithmetic after the motions. -/
def predictAll (be : Backend) (f : KF K n) (steps : Motions K n) : KF K n :=
  steps.foldl (fun f s => f.calculateSysUpdate be s.1 s.2.1 s.2.2) f

/-- The filter with rounded arithmetic after the motions. -/
def predictAllRounded (be : Backend) (fl : K → K) (f : KF K n) (steps : Motions K n) : KF K n :=
  steps.foldl (fun f s => Rounded.calculateSysUpdate be fl f s.1 s.2.1 s.2.2) f

theorem predict_maj (hfl : IsRounding u fl) (be : Backend) (steps : Motions K n)
    (hQ : ∀ s ∈ steps, s.2.2ᵀ = s.2.2) : ∀ {g : K} {e f : KF K n} {A : Matrix (Fin n) (Fin n) K}, 1 ≤ g →
    MajM g A e.sigma f.sigma → Aᵀ = A → e.mu = f.mu →
    (predictAllRounded be fl f steps).mu = (predictAll be e steps).mu ∧
    MajM (g * (1 + u) ^ (steps.length * (2 * n + 3))) (absPredict A (steps.map (·.2)))
      (predictAll be e steps).sigma (predictAllRounded be fl f steps).sigma := by
  induction steps with
  | nil =>
    intro g e f A hg m _ hmu
    refine ⟨hmu.symm, ?_⟩
    rw [List.length_nil, zero_mul, pow_zero, mul_one]
    exact m
  | cons s steps ih =>
    intro g e f A hg m hA _
    have hQs := hQ s (by simp)
    have m1 := calculateSysUpdate_maj hfl be hg m hA hQs s.1 (F := s.2.1)
    have hg1 : 1 ≤ g * (1 + u) ^ (2 * n + 3) :=
      one_le_mul_of_one_le_of_one_le hg (one_le_pow_succ hfl.1 _)
    obtain ⟨r1, r2⟩ := ih (fun t ht => hQ t (by simp [ht])) hg1 m1 (by
      rw [transpose_add, absM_symm hQs, transpose_mul, transpose_mul, transpose_transpose, hA,
        Matrix.mul_assoc]) rfl
    refine ⟨r1, ?_⟩
    have e1 : g * (1 + u) ^ ((s :: steps).length * (2 * n + 3)) =
        g * (1 + u) ^ (2 * n + 3) * (1 + u) ^ (steps.length * (2 * n + 3)) := by
      rw [List.length_cons, mul_assoc, ← pow_add]
      congr 2
      ring
    rw [e1]
    exact r2

/-- **C90, predictions, any number of states.** After any number of motions the mean is the one of
exact arithmetic, and every entry of the covariance is off by at most `2 N (2n+3) u` times the entry that
results without cancellation. -/
theorem C90_prediction (hfl : IsRounding u fl) (be : Backend) (f : KF K n) (hf : f.sigmaᵀ = f.sigma)
    (steps : Motions K n) (hQ : ∀ s ∈ steps, s.2.2ᵀ = s.2.2)
    (hN : ((steps.length * (2 * n + 3) : Nat) : K) * u ≤ 1 / 2) :
    (predictAllRounded be fl f steps).mu = (predictAll be f steps).mu ∧
    ∀ i j, |(predictAllRounded be fl f steps).sigma i j - (predictAll be f steps).sigma i j| ≤
      2 * (((steps.length * (2 * n + 3) : Nat) : K) * u) * absPredict (absM f.sigma) (steps.map (·.2)) i j := by
  obtain ⟨h1, h2⟩ := predict_maj hfl be steps hQ le_rfl (MajM.refl f.sigma) (absM_symm hf) rfl
  refine ⟨h1, fun i j => (h2 i j).2.trans (mul_le_mul_of_nonneg_right ?_ (h2 i j).nonneg)⟩
  rw [one_mul]
  exact pow_excess hfl.1 hN

theorem absM_of_nonneg {k l : Nat} {A : Matrix (Fin k) (Fin l) K} (h : ∀ i j, 0 ≤ A i j) : absM A = A := by
  ext i j; exact abs_of_nonneg (h i j)

theorem absPredict_eq (be : Backend) (steps : Motions K n)
    (hs : ∀ s ∈ steps, (∀ i j, 0 ≤ s.2.1 i j) ∧ (∀ i j, 0 ≤ s.2.2 i j) ∧ s.2.2ᵀ = s.2.2) :
    ∀ {f : KF K n}, f.sigmaᵀ = f.sigma → absPredict f.sigma (steps.map (·.2)) = (predictAll be f steps).sigma := by
  induction steps with
  | nil => intro f _; rfl
  | cons s steps ih =>
    intro f hf
    obtain ⟨a, b, c⟩ := hs s (by simp)
    have hsym : (s.2.1 * (f.sigma * s.2.1ᵀ) + s.2.2)ᵀ = s.2.1 * (f.sigma * s.2.1ᵀ) + s.2.2 := by
      rw [transpose_add, c, transpose_mul, transpose_mul, transpose_transpose, hf, Matrix.mul_assoc]
    have e : (f.calculateSysUpdate be s.1 s.2.1 s.2.2).sigma = s.2.1 * f.sigma * s.2.1ᵀ + s.2.2 := by
      rw [Matrix.mul_assoc]
      exact be.toSym_of_symm hsym
    have := ih (fun t ht => hs t (by simp [ht])) (f := f.calculateSysUpdate be s.1 s.2.1 s.2.2) (by
      rw [e, Matrix.mul_assoc]; exact hsym)
    rw [e] at this
    show absPredict (absM s.2.1 * f.sigma * (absM s.2.1)ᵀ + absM s.2.2) _ = _
    rw [absM_of_nonneg a, absM_of_nonneg b]
    exact this

/-- **C90, predictions with nothing to cancel.** If the motions and covariances have no negative
entries, every entry of the covariance has a small relative error, and no variance is negative. -/
theorem C90_prediction_positive (hfl : IsRounding u fl) (be : Backend) (f : KF K n) (hf : f.sigmaᵀ = f.sigma)
    (hpos : ∀ i j, 0 ≤ f.sigma i j) (steps : Motions K n)
    (hs : ∀ s ∈ steps, (∀ i j, 0 ≤ s.2.1 i j) ∧ (∀ i j, 0 ≤ s.2.2 i j) ∧ s.2.2ᵀ = s.2.2)
    (hN : ((steps.length * (2 * n + 3) : Nat) : K) * u ≤ 1 / 2) (i j : Fin n) :
    |(predictAllRounded be fl f steps).sigma i j - (predictAll be f steps).sigma i j| ≤
        2 * (((steps.length * (2 * n + 3) : Nat) : K) * u) * (predictAll be f steps).sigma i j ∧
      0 ≤ (predictAllRounded be fl f steps).sigma i j := by
  have h := (C90_prediction hfl be f hf steps (fun s h => (hs s h).2.2) hN).2 i j
  rw [absM_of_nonneg hpos, absPredict_eq be steps hs hf] at h
  refine ⟨h, ?_⟩
  have h0 : 0 ≤ (predictAll be f steps).sigma i j := by
    have := (predict_maj hfl be steps (fun s h => (hs s h).2.2) le_rfl (MajM.refl f.sigma) (absM_symm hf) rfl).2 i j
    rw [absM_of_nonneg hpos, absPredict_eq be steps hs hf] at this
    exact this.nonneg
  have := (abs_le.1 h).1
  nlinarith

/-- **C90, one correction, any number of states.** A scalar reading, whose innovation variance `v` is at
least the part `1/κ` of what it would be without cancellation: every entry of the reported covariance and
mean is off by at most `20 (n+3) κ u` times the sum of the absolute values of which it is computed. -/
theorem C90_correction (hfl : IsRounding u fl) (be : Backend) (f : KF K n) (hf : f.sigmaᵀ = f.sigma)
    {H : Matrix (Fin 1) (Fin n) K} {R : Matrix (Fin 1) (Fin 1) K} {v κ : K}
    (hv : v = (H * (f.sigma * Hᵀ) + R) 0 0) (hv0 : 0 < v) (hκ1 : 1 ≤ κ)
    (hκ : (absM H * absM f.sigma * (absM H)ᵀ + absM R) 0 0 ≤ κ * v) (hu : 20 * (n + 3) * κ * u ≤ 1)
    (z Z : Fin 1 → K) :
    ∃ e f', f.calculateMeasUpdate be z Z H R = .ok e ∧ Rounded.calculateMeasUpdate be fl f z Z H R = .ok f' ∧
      (∀ i j, |f'.sigma i j - e.sigma i j| ≤ 20 * (n + 3) * κ * u *
        (|f.sigma i j| + (absM f.sigma * (absM H)ᵀ) i 0 * (absM H * absM f.sigma) 0 j / v)) ∧
      ∀ i, |f'.mu i - e.mu i| ≤ 20 * (n + 3) * κ * u *
        (|f.mu i| + (absM f.sigma * (absM H)ᵀ) i 0 / v * |z 0 - Z 0|) := by
  have h0 := hfl.1
  have hn0 : (0 : K) ≤ n := Nat.cast_nonneg n
  have hκu : u ≤ κ * u := le_mul_of_one_le_left h0 hκ1
  have hnu : (n : K) * u ≤ n * (κ * u) := mul_le_mul_of_nonneg_left hκu hn0
  have hκu0 : 0 ≤ κ * u := h0.trans hκu
  have hnκu0 : 0 ≤ (n : K) * (κ * u) := mul_nonneg hn0 hκu0
  have hu' : 20 * (n * (κ * u)) + 60 * (κ * u) ≤ 1 := by
    linarith [show 20 * ((n : K) + 3) * κ * u = 20 * (n * (κ * u)) + 60 * (κ * u) by ring]
  have p1 : ((2 * n + 3 : Nat) : K) * u ≤ 1 / 2 := by push_cast; linarith [show (2 * (n : K) + 3) * u = 2 * (n * u) + 3 * u by ring]
  have p2 : ((2 * n + 8 : Nat) : K) * u ≤ 1 / 2 := by push_cast; linarith [show (2 * (n : K) + 8) * u = 2 * (n * u) + 8 * u by ring]
  have q1 := pow_excess h0 p1
  have q2 := pow_excess h0 p2
  push_cast at q1 q2
  set E := 2 * (κ * (1 * (1 + u) ^ (2 * n + 3) - 1)) with hE
  have hEle : E ≤ 8 * (n * (κ * u)) + 12 * (κ * u) := by
    have := mul_le_mul_of_nonneg_left q1 (by linarith : 0 ≤ κ)
    rw [hE, one_mul]
    linarith [show κ * (2 * ((2 * (n : K) + 3) * u)) = 4 * (n * (κ * u)) + 6 * (κ * u) by ring]
  have hE1 : E ≤ 1 := by linarith
  obtain ⟨e, f', h1, h2, h3, h4⟩ := calculateMeasUpdate_maj hfl be le_rfl (MajM.refl f.sigma) (absM_symm hf)
    (fun i => Maj.refl (f.mu i)) hv hv0 (by linarith) hκ hE hE1 z Z
  have hT : 1 ^ 2 * (1 + u) ^ (2 * n + 8) * (1 + E) - 1 ≤ 20 * (n + 3) * κ * u := by
    have hE0 : 0 ≤ 1 + E := by
      have := one_le_pow_succ h0 (2 * n + 3)
      have : 0 ≤ E := by rw [hE]; exact mul_nonneg (by norm_num) (mul_nonneg (by linarith) (by linarith))
      linarith
    have a1 : (1 + u) ^ (2 * n + 8) * (1 + E) ≤ (1 + 2 * ((2 * n + 8) * u)) * (1 + E) :=
      mul_le_mul_of_nonneg_right (by linarith) hE0
    have a2 : 2 * ((2 * n + 8) * u) * E ≤ 2 * ((2 * n + 8) * u) * 1 :=
      mul_le_mul_of_nonneg_left hE1 (by positivity)
    rw [one_pow, one_mul]
    linarith [show (1 + 2 * ((2 * (n : K) + 8) * u)) * (1 + E) = 1 + E + 2 * ((2 * n + 8) * u) + 2 * ((2 * n + 8) * u) * E by ring,
      show 20 * ((n : K) + 3) * κ * u = 20 * (n * (κ * u)) + 60 * (κ * u) by ring,
      show 2 * ((2 * (n : K) + 8) * u) = 4 * (n * u) + 16 * u by ring]
  refine ⟨e, f', h1, h2, fun i j => ?_, fun i => ?_⟩
  · have := (h3 i j).2.trans (mul_le_mul_of_nonneg_right hT (h3 i j).nonneg)
    have eA : (absM f.sigma + absM f.sigma * (absM H)ᵀ * !![1 / v] * absM H * absM f.sigma) i j =
        |f.sigma i j| + (absM f.sigma * (absM H)ᵀ) i 0 * (absM H * absM f.sigma) 0 j / v := by
      have e1 : ∀ B : Matrix (Fin n) (Fin 1) K, ∀ C : Matrix (Fin 1) (Fin n) K,
          (B * !![1 / v] * C) i j = B i 0 * C 0 j / v := by
        intro B C
        rw [Matrix.mul_apply, Fin.sum_univ_one, Matrix.mul_apply, Fin.sum_univ_one]
        simp only [of_apply, cons_val', cons_val_fin_one]
        ring
      rw [Matrix.add_apply, Matrix.mul_assoc _ (absM H), e1]
      rfl
    rwa [eA] at this
  · have := (h4 i).2.trans (mul_le_mul_of_nonneg_right hT (h4 i).nonneg)
    rwa [mul_one_div] at this

/-- What is done to the filter: a motion, or a scalar reading `z` where `Z` was expected. -/
inductive ManyCall (K : Type) (n : Nat) where
  | move (J : Fin n → K) (F Q : Matrix (Fin n) (Fin n) K)
  | read (z Z : Fin 1 → K) (H : Matrix (Fin 1) (Fin n) K) (R : Matrix (Fin 1) (Fin 1) K)

/-- One call with exact arithmetic. -/
def ManyCall.exact (be : Backend) (f : KF K n) : ManyCall K n → Outcome (KF K n)
  | .move J F Q => .ok (f.calculateSysUpdate be J F Q)
  | .read z Z H R => f.calculateMeasUpdate be z Z H R

/-- One call with rounded arithmetic. -/
def ManyCall.rounded (be : Backend) (fl : K → K) (f : KF K n) : ManyCall K n → Outcome (KF K n)
  | .move J F Q => .ok (Rounded.calculateSysUpdate be fl f J F Q)
  | .read z Z H R => Rounded.calculateMeasUpdate be fl f z Z H R

/-- All calls with exact arithmetic. -/
def exactAll (be : Backend) (f : KF K n) : List (ManyCall K n) → Outcome (KF K n)
  | [] => .ok f
  | c :: cs => c.exact be f >>= fun f' => exactAll be f' cs

/-- All calls with rounded arithmetic. -/
def roundedAll (be : Backend) (fl : K → K) (f : KF K n) : List (ManyCall K n) → Outcome (KF K n)
  | [] => .ok f
  | c :: cs => c.rounded be fl f >>= fun f' => roundedAll be fl f' cs

/-- The bound after a call, made to the filter `e` with exact arithmetic. -/
def ManyCall.slack (u κ : K) (e : KF K n) (s : Slack K n) : ManyCall K n → Slack K n
  | .move J F Q => s.move u J F Q
  | .read z Z H R => s.read u κ ((H * (e.sigma * Hᵀ) + R) 0 0) (z 0 - Z 0) H

/-- What a call needs: symmetric noise; a positive innovation variance of which cancellation leaves at
least the part `1/κ`, and enough accuracy to compute it. -/
def ManyCall.Fits (u κ : K) (e : KF K n) (s : Slack K n) : ManyCall K n → Prop
  | .move _ _ Q => Qᵀ = Q
  | .read _ _ H R => 0 < (H * (e.sigma * Hᵀ) + R) 0 0 ∧
      (absM H * s.size * (absM H)ᵀ + absM R) 0 0 ≤ κ * (H * (e.sigma * Hᵀ) + R) 0 0 ∧ s.loss u κ ≤ 1

/-- The calls made with exact arithmetic to `e` leave the filter `e'` and the bound `s'`. -/
inductive Tracks (be : Backend) (u κ : K) : KF K n → Slack K n → List (ManyCall K n) → KF K n → Slack K n → Prop
  | nil (e : KF K n) (s : Slack K n) : Tracks be u κ e s [] e s
  | cons {e e' e'' : KF K n} {s s'' : Slack K n} {c : ManyCall K n} {cs : List (ManyCall K n)} :
      c.Fits u κ e s → c.exact be e = .ok e' → Tracks be u κ e' (c.slack u κ e s) cs e'' s'' →
      Tracks be u κ e s (c :: cs) e'' s''

/-- The rounded filter `f` is within the bound of the exact filter `e`. -/
def Within (s : Slack K n) (e f : KF K n) : Prop :=
  (∀ i j, |e.sigma i j| ≤ s.size i j ∧ |f.sigma i j - e.sigma i j| ≤ (s.factor - 1) * s.size i j) ∧
    ∀ i, |e.mu i| ≤ s.mean i ∧ |f.mu i - e.mu i| ≤ (s.factor - 1) * s.mean i

theorem within_of_tracks (hfl : IsRounding u fl) {be : Backend} {κ : K} (hκ : 0 ≤ κ)
    {cs : List (ManyCall K n)} {e e' : KF K n} {s s' : Slack K n} (h : Tracks be u κ e s cs e' s') :
    ∀ {f : KF K n}, 1 ≤ s.factor → s.sizeᵀ = s.size → Within s e f →
      ∃ f', roundedAll be fl f cs = .ok f' ∧ Within s' e' f' := by
  induction h with
  | nil e s => intro f _ _ w; exact ⟨f, rfl, w⟩
  | @cons e e1 e2 s s2 c cs fits he _ ih =>
    intro f hg hA w
    obtain ⟨ws, wm⟩ := w
    have p3 := one_le_pow_succ hfl.1 (2 * n + 3)
    cases c with
    | move J F Q =>
      have m1 := calculateSysUpdate_maj hfl be hg (fun i j => ws i j) hA fits J (F := F)
      have e1' : e1 = e.calculateSysUpdate be J F Q := (Outcome.ok.inj he).symm
      subst e1'
      obtain ⟨f', r1, r2⟩ := ih (f := Rounded.calculateSysUpdate be fl f J F Q)
        (one_le_mul_of_one_le_of_one_le hg p3) (by
          show (absM F * s.size * (absM F)ᵀ + absM Q)ᵀ = absM F * s.size * (absM F)ᵀ + absM Q
          rw [transpose_add, absM_symm fits, transpose_mul, transpose_mul, transpose_transpose, hA,
            Matrix.mul_assoc]) ⟨m1, fun i => ⟨le_rfl, by
          show |J i - J i| ≤ (s.factor * (1 + u) ^ (2 * n + 3) - 1) * |J i|
          rw [sub_self, abs_zero]
          exact mul_nonneg (by linarith [one_le_mul_of_one_le_of_one_le hg p3]) (abs_nonneg _)⟩⟩
      exact ⟨f', r1, r2⟩
    | read z Z H R =>
      obtain ⟨f1, f2, f3⟩ := fits
      obtain ⟨e0, f0, h1, h2, h3, h4⟩ := calculateMeasUpdate_maj hfl be hg (fun i j => ws i j) hA
        (fun i => wm i) rfl f1 hκ f2 rfl f3 z Z
      have e1' : e1 = e0 := Outcome.ok.inj (he.symm.trans h1)
      subst e1'
      have hl : 0 ≤ s.loss u κ := mul_nonneg (by norm_num) (mul_nonneg hκ
        (by linarith [one_le_mul_of_one_le_of_one_le hg p3]))
      obtain ⟨f', r1, r2⟩ := ih (f := f0)
        (one_le_mul_of_one_le_of_one_le (one_le_mul_of_one_le_of_one_le (one_le_pow₀ hg)
          (one_le_pow_succ hfl.1 _)) (by linarith)) (by
          have d : (!![1 / (H * (e.sigma * Hᵀ) + R) 0 0] : Matrix (Fin 1) (Fin 1) K)ᵀ =
              !![1 / (H * (e.sigma * Hᵀ) + R) 0 0] := by ext i j; fin_cases i; fin_cases j; rfl
          simp only [ManyCall.slack, Slack.read, transpose_add, transpose_mul, transpose_transpose, hA, d,
            Matrix.mul_assoc]) ⟨h3, h4⟩
      refine ⟨f', ?_, r2⟩
      show Rounded.calculateMeasUpdate be fl f z Z H R >>= _ = _
      rw [h2]
      exact r1

theorem exactAll_of_tracks {be : Backend} {κ : K} {cs : List (ManyCall K n)} {e e' : KF K n}
    {s s' : Slack K n} (h : Tracks be u κ e s cs e' s') : exactAll be e cs = .ok e' := by
  induction h with
  | nil => rfl
  | cons _ he _ ih =>
    show ManyCall.exact be _ _ >>= _ = _
    rw [he]
    exact ih

/-- **C90, any history, any number of states.** Motions and scalar readings in any order: whenever
`ManyCall.Fits` holds along the run with exact arithmetic, the run with rounded arithmetic ends too, and
covariance and mean are within the bound `s'` that the calls add up to.

Missing for the full property: vector readings, and a bound in closed form; the bound at hand squares
with every reading, and covariances that cancel strongly (`κ u` near one) are lost, as `C90_negative`
shows. -/
theorem C90_many_history_partial (hfl : IsRounding u fl) {be : Backend} {κ : K} (hκ : 0 ≤ κ) {f : KF K n}
    (hf : f.sigmaᵀ = f.sigma) {cs : List (ManyCall K n)} {e' : KF K n} {s' : Slack K n}
    (h : Tracks be u κ f ⟨1, absM f.sigma, fun i => |f.mu i|⟩ cs e' s') :
    exactAll be f cs = .ok e' ∧ ∃ f', roundedAll be fl f cs = .ok f' ∧
      (∀ i j, |f'.sigma i j - e'.sigma i j| ≤ (s'.factor - 1) * s'.size i j) ∧
      ∀ i, |f'.mu i - e'.mu i| ≤ (s'.factor - 1) * s'.mean i := by
  refine ⟨exactAll_of_tracks h, ?_⟩
  · obtain ⟨f', h1, h2, h3⟩ := within_of_tracks hfl hκ h (f := f) le_rfl (absM_symm hf)
      ⟨fun i j => ⟨le_rfl, by simp⟩, fun i => ⟨le_rfl, by simp⟩⟩
    exact ⟨f', h1, fun i j => (h2 i j).2, fun i => (h3 i).2⟩

/-! ## Concrete cases -/

/-- A position and a speed, the position known to 1, the speed to 2, and correlated. -/
def tracker : KF ℚ 2 := ⟨![0, 1], !![1, 1 / 3; 1 / 3, 2], 0⟩

/-- A second passes; the position and the speed are disturbed. -/
def second : (Fin 2 → ℚ) × Matrix (Fin 2) (Fin 2) ℚ × Matrix (Fin 2) (Fin 2) ℚ :=
  (![1, 1], !![1, 1; 0, 1], !![1 / 10, 0; 0, 1 / 7])

theorem tracker_symm : tracker.sigmaᵀ = tracker.sigma := by decide +kernel

/-- `C90_prediction` in double precision: a minute of motion. -/
example (be : Backend) (i j : Fin 2) :
    |(predictAllRounded be nearest53 tracker (List.replicate 60 second)).sigma i j -
        (predictAll be tracker (List.replicate 60 second)).sigma i j| ≤
      840 * (1 / 2 ^ 53) * absPredict (absM tracker.sigma) (List.replicate 60 second.2) i j := by
  have h := (C90_prediction nearest53_isRounding be tracker tracker_symm (List.replicate 60 second)
    (by intro s hs; rw [List.eq_of_mem_replicate hs]; decide +kernel)
    (by rw [List.length_replicate]; norm_num)).2 i j
  rw [List.length_replicate, List.map_replicate] at h
  refine h.trans (le_of_eq ?_)
  congr 1
  norm_num

/-- `C90_prediction_positive` in double precision for the same motion. -/
example (be : Backend) (i j : Fin 2) :
    0 ≤ (predictAllRounded be nearest53 tracker (List.replicate 60 second)).sigma i j :=
  (C90_prediction_positive nearest53_isRounding be tracker tracker_symm (by intro i j; fin_cases i <;> fin_cases j <;> decide +kernel)
    (List.replicate 60 second) (by intro s hs; rw [List.eq_of_mem_replicate hs]; exact
      ⟨by intro i j; fin_cases i <;> fin_cases j <;> decide +kernel,
        by intro i j; fin_cases i <;> fin_cases j <;> decide +kernel, by decide +kernel⟩)
    (by rw [List.length_replicate]; norm_num) i j).2

/-- `C90_correction` in double precision: a reading of the position minus the speed. -/
example (be : Backend) :
    ∃ e f', tracker.calculateMeasUpdate be ![5] ![0] !![1, -1] !![1 / 5] = .ok e ∧
      Rounded.calculateMeasUpdate be nearest53 tracker ![5] ![0] !![1, -1] !![1 / 5] = .ok f' ∧
      ∀ i, |f'.mu i - e.mu i| ≤ 20 * (2 + 3) * 2 * (1 / 2 ^ 53) *
        (|tracker.mu i| + (absM tracker.sigma * (absM !![(1 : ℚ), -1])ᵀ) i 0 / (38 / 15) * |5 - 0|) := by
  obtain ⟨e, f', h1, h2, -, h4⟩ := C90_correction nearest53_isRounding be tracker tracker_symm
    (H := !![1, -1]) (R := !![1 / 5]) (v := 38 / 15) (κ := 2) (by decide +kernel) (by norm_num) (by norm_num)
    (by decide +kernel) (by norm_num) ![5] ![0]
  exact ⟨e, f', h1, h2, h4⟩

/-- `C90_many_history_partial` in double precision: a motion and a reading of the position. -/
example (be : Backend) : ∃ e f',
    exactAll be tracker [.move second.1 second.2.1 second.2.2, .read ![2] ![1] !![1, 0] !![1 / 5]] = .ok e ∧
    roundedAll be nearest53 tracker
      [.move second.1 second.2.1 second.2.2, .read ![2] ![1] !![1, 0] !![1 / 5]] = .ok f' ∧
    (∀ i j, |f'.sigma i j - e.sigma i j| ≤ 1 / 2 ^ 43) := by
  have ex : ∃ e, (tracker.calculateSysUpdate be second.1 second.2.1 second.2.2).calculateMeasUpdate be
      ![2] ![1] !![1, 0] !![1 / 5] = .ok e := by
    refine ⟨_, calculateMeasUpdate_ok be _ _ _ _ _ ?_⟩
    cases be <;> decide +kernel
  obtain ⟨e, he⟩ := ex
  obtain ⟨h1, f', h2, h3, -⟩ := C90_many_history_partial (nearest53_isRounding (K := ℚ)) (be := be) (κ := 1)
    (by norm_num) tracker_symm (cs := [.move second.1 second.2.1 second.2.2,
      .read ![2] ![1] !![1, 0] !![1 / 5]]) (.cons (by
        show second.2.2ᵀ = second.2.2
        decide +kernel) rfl (.cons (by
          refine ⟨?_, ?_, ?_⟩
          · cases be <;> decide +kernel
          · cases be <;> decide +kernel
          · cases be <;> decide +kernel) he (.nil _ _)))
  refine ⟨e, f', h1, h2, fun i j => (h3 i j).trans ?_⟩
  cases be <;> fin_cases i <;> fin_cases j <;> decide +kernel

end BFL.Props
