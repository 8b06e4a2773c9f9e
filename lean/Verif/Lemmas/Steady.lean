import Verif.Spec.Steady
import Verif.Props.PriorMean
import Verif.Lemmas.Smoothing
import Mathlib.Analysis.SpecificLimits.Basic
import Mathlib.Analysis.SpecialFunctions.Sqrt

set_option linter.unusedSectionVars false

/-! Repeated prediction and correction with the same matrices; helper lemmas for C88. -/

namespace BFL

open Matrix Spec

section generic

variable {K : Type} [Field K] [LinearOrder K] [IsStrictOrderedRing K] {n m : Nat} {U : Type}
variable {A Q : Matrix (Fin n) (Fin n) K} {H : Matrix (Fin m) (Fin n) K} {R : Matrix (Fin m) (Fin m) K}

/-- The covariance after one prediction and one correction. -/
noncomputable def ric (A Q : Matrix (Fin n) (Fin n) K) (H : Matrix (Fin m) (Fin n) K) (R : Matrix (Fin m) (Fin m) K)
    (P : Matrix (Fin n) (Fin n) K) : Matrix (Fin n) (Fin n) K :=
  kcov (A * P * Aᵀ + Q) H R

/-- Covariance and difference of the means of two filters after one prediction and one correction. -/
noncomputable def pairStep (A Q : Matrix (Fin n) (Fin n) K) (H : Matrix (Fin m) (Fin n) K)
    (R : Matrix (Fin m) (Fin m) K) (x : Matrix (Fin n) (Fin n) K × (Fin n → K)) :
    Matrix (Fin n) (Fin n) K × (Fin n → K) :=
  (ric A Q H R x.1, (1 - kgain (A * x.1 * Aᵀ + Q) H R * H) *ᵥ (A *ᵥ x.2))

theorem Spec.PSD.smul {P : Matrix (Fin n) (Fin n) K} (h : PSD P) {t : K} (ht : 0 ≤ t) : PSD (t • P) := by
  refine ⟨by rw [transpose_smul, h.1], fun x => ?_⟩
  rw [smul_mulVec, dotProduct_smul, smul_eq_mul]
  exact mul_nonneg ht (h.2 x)

theorem Spec.PSD.zero : PSD (0 : Matrix (Fin n) (Fin n) K) := ⟨by simp, fun x => by simp⟩

theorem Spec.AtMost.smul {P P' : Matrix (Fin n) (Fin n) K} (h : AtMost P P') {t : K} (ht : 0 ≤ t) :
    AtMost (t • P) (t • P') := by
  have := Spec.PSD.smul h ht
  rwa [smul_sub] at this

theorem Spec.PSD.smul_le {P : Matrix (Fin n) (Fin n) K} (h : PSD P) {s t : K} (hst : s ≤ t) :
    AtMost (s • P) (t • P) := by
  have := h.smul (sub_nonneg.2 hst)
  rwa [sub_smul] at this

theorem Spec.PSD.zero_le {P : Matrix (Fin n) (Fin n) K} (h : PSD P) : AtMost 0 P := by
  rw [AtMost, sub_zero]; exact h

theorem Spec.AtMost.quad_le {P P' : Matrix (Fin n) (Fin n) K} (h : AtMost P P') (w : Fin n → K) :
    quad P w ≤ quad P' w := by
  have := h.2 w
  rw [sub_mulVec, dotProduct_sub] at this
  exact sub_nonneg.1 this

theorem predict_psd {P : Matrix (Fin n) (Fin n) K} (hQ : PSD Q) (hP : PSD P) : PSD (A * P * Aᵀ + Q) :=
  (hP.congr A).add hQ

theorem ric_psd {P : Matrix (Fin n) (Fin n) K} (hQ : PSD Q) (hR : PD R) (hP : PSD P) : PSD (ric A Q H R P) :=
  kcov_psd (predict_psd hQ hP) hR

theorem ric_pd {P : Matrix (Fin n) (Fin n) K} (hQ : PD Q) (hR : PD R) (hP : PSD P) : PD (ric A Q H R P) :=
  kcov_pd ((hP.congr A).add_pd hQ) hR

theorem ric_mono {P P' : Matrix (Fin n) (Fin n) K} (hQ : PSD Q) (hR : PD R) (hP : PSD P) (h : AtMost P P') :
    AtMost (ric A Q H R P) (ric A Q H R P') :=
  kcov_mono (predict_psd hQ hP) hR ((h.congr A).add (AtMost.refl Q)) (AtMost.refl R)

theorem iterate_psd (hQ : PSD Q) (hR : PD R) {P : Matrix (Fin n) (Fin n) K} (hP : PSD P) (k : Nat) :
    PSD ((ric A Q H R)^[k] P) := by
  induction k with
  | zero => exact hP
  | succ k ih => rw [Function.iterate_succ_apply']; exact ric_psd hQ hR ih

theorem iterate_mono (hQ : PSD Q) (hR : PD R) {P P' : Matrix (Fin n) (Fin n) K} (hP : PSD P) (h : AtMost P P')
    (k : Nat) : AtMost ((ric A Q H R)^[k] P) ((ric A Q H R)^[k] P') := by
  induction k with
  | zero => exact h
  | succ k ih =>
    rw [Function.iterate_succ_apply', Function.iterate_succ_apply']
    exact ric_mono hQ hR (iterate_psd hQ hR hP k) ih

theorem kcov_smul_le {M : Matrix (Fin n) (Fin n) K} (hM : PSD M) (hR : PD R) {t : K} (ht : 1 ≤ t) :
    AtMost (kcov (t • M) H R) (t • kcov M H R) := by
  have h0 : 0 ≤ t := zero_le_one.trans ht
  refine (kcov_le_joseph (hM.smul h0) hR (kgain M H R)).trans ?_
  rw [kcov_joseph (P := M) (innovCov_pd hM hR).det_ne, smul_add, joseph]
  refine AtMost.add ?_ ?_
  · rw [Matrix.mul_smul, Matrix.smul_mul]
    exact AtMost.refl _
  · have := (hR.psd.congr (kgain M H R)).smul_le ht
    rwa [one_smul] at this

theorem smul_kcov_le {M : Matrix (Fin n) (Fin n) K} (hM : PSD M) (hR : PD R) {s : K} (h0 : 0 ≤ s) (hs : s ≤ 1) :
    AtMost (s • kcov M H R) (kcov (s • M) H R) := by
  refine ((kcov_le_joseph (H := H) hM hR (kgain (s • M) H R)).smul h0).trans ?_
  rw [kcov_joseph (P := s • M) (innovCov_pd (hM.smul h0) hR).det_ne, joseph, smul_add]
  refine AtMost.add ?_ ?_
  · rw [Matrix.mul_smul, Matrix.smul_mul]
    exact AtMost.refl _
  · have := (hR.psd.congr (kgain (s • M) H R)).smul_le hs
    rwa [one_smul] at this

theorem sq_entry_le (hQ : PD Q) (x : Fin n → K) (i : Fin n) : x i ^ 2 ≤ quad Q⁻¹ (Pi.single i 1) * quad Q x := by
  have h := Props.dot_sq_le hQ.inv.psd (Pi.single i 1) (Q *ᵥ x)
  rw [mulVec_mulVec, nonsing_inv_mul _ hQ.det_ne.isUnit, one_mulVec, single_one_dotProduct] at h
  have e : quad Q⁻¹ (Q *ᵥ x) = quad Q x := by
    simp only [quad]
    rw [mulVec_mulVec, nonsing_inv_mul _ hQ.det_ne.isUnit, one_mulVec, dotProduct_comm]
  rw [e] at h
  linarith

/-- A positive definite matrix dominates every symmetric one. -/
theorem exists_dominates (hQ : PD Q) {M : Matrix (Fin n) (Fin n) K} (hM : Mᵀ = M) :
    ∃ t : K, 1 ≤ t ∧ AtMost M (t • Q) := by
  obtain ⟨q, hq⟩ : ∃ q : Fin n → K, q = fun i => quad Q⁻¹ (Pi.single i 1) := ⟨_, rfl⟩
  have hq0 : ∀ i, 0 ≤ q i := fun i => by rw [hq]; exact hQ.inv.psd.2 _
  have hx : ∀ x i, x i ^ 2 ≤ q i * quad Q x := fun x i => by rw [hq]; exact sq_entry_le hQ x i
  refine ⟨1 + ∑ i, ∑ j, |M i j| * (q i + q j), ?_, ?_, fun x => ?_⟩
  · have : 0 ≤ ∑ i, ∑ j, |M i j| * (q i + q j) := Finset.sum_nonneg fun i _ => Finset.sum_nonneg fun j _ =>
      mul_nonneg (abs_nonneg _) (add_nonneg (hq0 i) (hq0 j))
    linarith
  · rw [transpose_sub, transpose_smul, hM, hQ.1]
  · have hQx : 0 ≤ quad Q x := hQ.psd.2 x
    have h1 : quad M x ≤ ∑ i, ∑ j, |M i j| * (q i + q j) * quad Q x := by
      have e : quad M x = ∑ i, ∑ j, M i j * (x i * x j) := by
        simp only [quad, dotProduct, mulVec, Finset.mul_sum]
        refine Finset.sum_congr rfl fun i _ => Finset.sum_congr rfl fun j _ => by ring
      rw [e]
      refine Finset.sum_le_sum fun i _ => Finset.sum_le_sum fun j _ => ?_
      have h2 : |x i * x j| ≤ (q i + q j) * quad Q x := by
        have hi := hx x i
        have hj := hx x j
        have hi0 : 0 ≤ (x i - x j) ^ 2 := sq_nonneg _
        have hj0 : 0 ≤ (x i + x j) ^ 2 := sq_nonneg _
        have hs : 0 ≤ (q i + q j) * quad Q x := mul_nonneg (add_nonneg (hq0 i) (hq0 j)) hQx
        rw [abs_le]
        constructor <;> nlinarith
      calc M i j * (x i * x j) ≤ |M i j * (x i * x j)| := le_abs_self _
        _ = |M i j| * |x i * x j| := abs_mul _ _
        _ ≤ |M i j| * ((q i + q j) * quad Q x) := mul_le_mul_of_nonneg_left h2 (abs_nonneg _)
        _ = _ := by ring
    have h3 : ∑ i, ∑ j, |M i j| * (q i + q j) * quad Q x = (∑ i, ∑ j, |M i j| * (q i + q j)) * quad Q x := by
      simp only [Finset.sum_mul]
    rw [h3] at h1
    rw [sub_mulVec, dotProduct_sub, smul_mulVec, dotProduct_smul, smul_eq_mul]
    simp only [quad] at *
    linarith

theorem exists_share (hQ : PD Q) {M : Matrix (Fin n) (Fin n) K} (hM : PSD M) :
    ∃ c : K, 0 < c ∧ c ≤ 1 ∧ AtMost (c • M) Q := by
  obtain ⟨t, ht, h⟩ := exists_dominates hQ hM.1
  have h0 : 0 < t := zero_lt_one.trans_le ht
  refine ⟨t⁻¹, inv_pos.2 h0, inv_le_one_of_one_le₀ ht, ?_⟩
  have := h.smul (inv_pos.2 h0).le
  rwa [smul_smul, inv_mul_cancel₀ h0.ne', one_smul] at this

section fixed

variable {P : Matrix (Fin n) (Fin n) K} {c : K}

theorem step_up (hQ : PSD Q) (hR : PD R) (hP : PSD P) (hfix : ric A Q H R P = P) (h1 : c ≤ 1)
    (hc : AtMost (c • (A * P * Aᵀ + Q)) Q) {S : Matrix (Fin n) (Fin n) K} (hS : PSD S) {t : K} (ht : 0 ≤ t)
    (hle : AtMost S ((1 + t) • P)) : AtMost (ric A Q H R S) ((1 + t * (1 - c)) • P) := by
  have hM := predict_psd (A := A) hQ hP
  have ht' : 1 ≤ 1 + t * (1 - c) := by
    have := mul_nonneg ht (sub_nonneg.2 h1)
    linarith
  have h2 : AtMost (A * S * Aᵀ + Q) ((1 + t * (1 - c)) • (A * P * Aᵀ + Q)) := by
    refine ((hle.congr A).add (AtMost.refl Q)).trans ?_
    have := hc.smul ht
    rw [AtMost] at this ⊢
    rw [Matrix.mul_smul, Matrix.smul_mul]
    have e : (1 + t * (1 - c)) • (A * P * Aᵀ + Q) - ((1 + t) • (A * P * Aᵀ) + Q)
        = t • Q - t • c • (A * P * Aᵀ + Q) := by module
    rw [e]
    exact this
  have h3 := kcov_mono (predict_psd hQ hS) hR h2 (AtMost.refl R) (H := H)
  have h4 := kcov_smul_le (H := H) hM hR ht'
  have e : kcov (A * P * Aᵀ + Q) H R = P := hfix
  rw [e] at h4
  exact h3.trans h4

theorem step_low (hQ : PSD Q) (hR : PD R) (hP : PSD P) (hfix : ric A Q H R P = P) (h0 : 0 ≤ c) (h1 : c ≤ 1)
    (hc : AtMost (c • (A * P * Aᵀ + Q)) Q) {S : Matrix (Fin n) (Fin n) K} {s : K} (hs0 : 0 ≤ s) (hs : s ≤ 1)
    (hle : AtMost ((1 - s) • P) S) : AtMost ((1 - s * (1 - c)) • P) (ric A Q H R S) := by
  have hM := predict_psd (A := A) hQ hP
  have hs1 : 0 ≤ s * (1 - c) := mul_nonneg hs0 (sub_nonneg.2 h1)
  have hs2 : s * (1 - c) ≤ 1 := mul_le_one₀ hs (sub_nonneg.2 h1) (by linarith)
  have h2 : AtMost ((1 - s * (1 - c)) • (A * P * Aᵀ + Q)) (A * S * Aᵀ + Q) := by
    refine AtMost.trans ?_ ((hle.congr A).add (AtMost.refl Q))
    have := hc.smul hs0
    rw [AtMost] at this ⊢
    rw [Matrix.mul_smul, Matrix.smul_mul]
    have e : (1 - s) • (A * P * Aᵀ) + Q - (1 - s * (1 - c)) • (A * P * Aᵀ + Q)
        = s • Q - s • c • (A * P * Aᵀ + Q) := by module
    rw [e]
    exact this
  have h3 := kcov_mono (hM.smul (by linarith)) hR h2 (AtMost.refl R) (H := H)
  have h4 := smul_kcov_le (H := H) hM hR (s := 1 - s * (1 - c)) (by linarith) (by linarith)
  have e : kcov (A * P * Aᵀ + Q) H R = P := hfix
  rw [e] at h4
  exact h4.trans h3

theorem iterate_bounds (hQ : PSD Q) (hR : PD R) (hP : PSD P) (hfix : ric A Q H R P = P) (h0 : 0 ≤ c) (h1 : c ≤ 1)
    (hc : AtMost (c • (A * P * Aᵀ + Q)) Q) {S : Matrix (Fin n) (Fin n) K} (hS : PSD S) {t : K} (ht : 0 ≤ t)
    (hle : AtMost S ((1 + t) • P)) (k : Nat) :
    AtMost ((1 - (1 - c) ^ k) • P) ((ric A Q H R)^[k] S) ∧
      AtMost ((ric A Q H R)^[k] S) ((1 + t * (1 - c) ^ k) • P) := by
  have hc1 : 0 ≤ 1 - c := sub_nonneg.2 h1
  induction k with
  | zero => simpa using ⟨hS.zero_le, hle⟩
  | succ k ih =>
    rw [Function.iterate_succ_apply', pow_succ, ← mul_assoc]
    exact ⟨step_low hQ hR hP hfix h0 h1 hc (pow_nonneg hc1 k) (pow_le_one₀ hc1 (by linarith)) ih.1,
      step_up hQ hR hP hfix h1 hc (iterate_psd hQ hR hS k) (mul_nonneg ht (pow_nonneg hc1 k)) ih.2⟩

end fixed

theorem riccati_iff (hQ : PD Q) (hR : PD R) {P : Matrix (Fin n) (Fin n) K} (hP : PD P) :
    Riccati A Q H R P ↔ ric A Q H R P = P := by
  have hM : PD (A * P * Aᵀ + Q) := (hP.psd.congr A).add_pd hQ
  have hi : (ric A Q H R P)⁻¹ = (A * P * Aᵀ + Q)⁻¹ + Hᵀ * R⁻¹ * H :=
    kcov_information (innovCov_pd hM.psd hR).det_ne hR.det_ne hM.det_ne
  rw [Riccati, ← hi]
  constructor
  · intro h
    have h2 := (ric_pd (A := A) (H := H) hQ hR hP.psd).det_ne
    rw [← nonsing_inv_nonsing_inv _ h2.isUnit, ← h, nonsing_inv_nonsing_inv _ hP.det_ne.isUnit]
  · intro h
    rw [h]

/-- One steady call, for two filters with the same covariance. -/
theorem update_steady {be be' : Backend} {kind kind' : KF.Kind K n} (hk : kind.Runs) (hk' : kind'.Runs) (hQ : PSD Q)
    (hR : PD R) {a : Props.KStep K n U} (ha : Steady A Q H R a) {f g : KF K n} (hf : PSD f.sigma)
    (hs : g.sigma = f.sigma) :
    ∃ f1 g1, f.update be kind a.sys a.meas = .ok (true, f1) ∧ g.update be' kind' a.sys a.meas = .ok (true, g1) ∧
      g1.sigma = f1.sigma ∧ (f1.sigma, f1.mu - g1.mu) = pairStep A Q H R (f.sigma, f.mu - g.mu) := by
  cases ha with
  | @mk sy u b me z c s hsy hme =>
    have hM := predict_psd (A := A) hQ hf
    have e1 : f.sysPart be (some (sy, u)) = .ok ⟨A *ᵥ f.mu + b, A * f.sigma * Aᵀ + Q, f.timestep⟩ := by
      have := sysUpdate_eq (be := be) (hsy f.mu)
      rwa [be.toSym_of_symm hM.1] at this
    have e2 : g.sysPart be' (some (sy, u)) = .ok ⟨A *ᵥ g.mu + b, A * f.sigma * Aᵀ + Q, g.timestep⟩ := by
      have := sysUpdate_eq (be := be') (hsy g.mu)
      rwa [hs, be'.toSym_of_symm hM.1] at this
    have e3 := fun (be : Backend) (kind : KF.Kind K n) (hk : kind.Runs) (v : Fin n → K) (t : Nat) =>
      (measUpdate_linear (be := be) (f := ⟨v, A * f.sigma * Aᵀ + Q, t⟩) (z := z) hk hme).trans
        (calc_valid (f := ⟨v, A * f.sigma * Aᵀ + Q, t⟩) hM hR)
    have u1 : f.update be kind (some (sy, u)) (some (me, z, s)) = .ok (true,
        ⟨kgain (A * f.sigma * Aᵀ + Q) H R *ᵥ (z - (H *ᵥ (A *ᵥ f.mu + b) + c)) + (A *ᵥ f.mu + b),
          kcov (A * f.sigma * Aᵀ + Q) H R, f.timestep⟩) := by
      simp only [KF.update]
      rw [e1]
      simp only [Outcome.ok_bind, KF.measPart]
      rw [e3 be kind hk]
      rfl
    have u2 : g.update be' kind' (some (sy, u)) (some (me, z, s)) = .ok (true,
        ⟨kgain (A * f.sigma * Aᵀ + Q) H R *ᵥ (z - (H *ᵥ (A *ᵥ g.mu + b) + c)) + (A *ᵥ g.mu + b),
          kcov (A * f.sigma * Aᵀ + Q) H R, g.timestep⟩) := by
      simp only [KF.update]
      rw [e2]
      simp only [Outcome.ok_bind, KF.measPart]
      rw [e3 be' kind' hk']
      rfl
    refine ⟨_, _, u1, u2, rfl, ?_⟩
    · simp only [pairStep, ric, Prod.mk.injEq, true_and]
      simp only [sub_mulVec, one_mulVec, mulVec_sub, mulVec_add, ← mulVec_mulVec]
      abel

theorem pairStep_fst (k : Nat) (x : Matrix (Fin n) (Fin n) K × (Fin n → K)) :
    ((pairStep A Q H R)^[k] x).1 = (ric A Q H R)^[k] x.1 := by
  induction k with
  | zero => rfl
  | succ k ih => rw [Function.iterate_succ_apply', Function.iterate_succ_apply', ← ih]; rfl

theorem run_steady {be be' : Backend} {kind kind' : KF.Kind K n} (hk : kind.Runs) (hk' : kind'.Runs) (hQ : PSD Q)
    (hR : PD R) {as : List (Props.KStep K n U)} (ha : ∀ a ∈ as, Steady A Q H R a) : ∀ {f g : KF K n},
    PSD f.sigma → g.sigma = f.sigma →
    ∃ f' g', Props.runAll be kind as f = .ok f' ∧ Props.runAll be' kind' as g = .ok g' ∧ g'.sigma = f'.sigma ∧
      (f'.sigma, f'.mu - g'.mu) = (pairStep A Q H R)^[as.length] (f.sigma, f.mu - g.mu) := by
  induction as with
  | nil => intro f g _ hs; exact ⟨f, g, rfl, rfl, hs, rfl⟩
  | cons a as ih =>
    intro f g hf hs
    obtain ⟨f1, g1, h1, h2, h3, h4⟩ := update_steady (be := be) (be' := be') hk hk' hQ hR (ha a (by simp)) hf hs
    have hf1 : PSD f1.sigma := by
      have : f1.sigma = ric A Q H R f.sigma := congrArg Prod.fst h4
      rw [this]
      exact ric_psd hQ hR hf
    obtain ⟨f', g', h5, h6, h7, h8⟩ := ih (fun a h => ha a (by simp [h])) hf1 h3
    refine ⟨f', g', ?_, ?_, h7, ?_⟩
    · simp only [Props.runAll]
      rw [h1]
      exact h5
    · simp only [Props.runAll]
      rw [h2]
      exact h6
    · rw [h8, h4, List.length_cons, Function.iterate_succ_apply]

/-- With noise in every direction the difference of the means shrinks relative to the reported uncertainty. -/
theorem within_step (hR : PD R) {S : Matrix (Fin n) (Fin n) K} (hM : PSD (A * S * Aᵀ + Q)) {c e : K}
    (he : 0 ≤ e) (h1 : c ≤ 1) (hc : AtMost (c • (A * S * Aᵀ + Q)) Q) {d : Fin n → K} (h : WithinSigmas e S d) :
    WithinSigmas (e * (1 - c)) (pairStep A Q H R (S, d)).1 (pairStep A Q H R (S, d)).2 := by
  have h2 : WithinSigmas (e * (1 - c)) (A * S * Aᵀ + Q) (A *ᵥ d) := by
    intro w
    have h3 := h (Aᵀ *ᵥ w)
    have h4 := hc.quad_le w
    have h5 : w ⬝ᵥ (A *ᵥ d) = (Aᵀ *ᵥ w) ⬝ᵥ d := by rw [quad_transpose]
    have h6 : quad (c • (A * S * Aᵀ + Q)) w = c * quad (A * S * Aᵀ + Q) w := by
      simp only [quad, smul_mulVec, dotProduct_smul, smul_eq_mul]
    rw [h6] at h4
    have h7 := Props.quad_add_left (A * S * Aᵀ) Q w
    rw [Props.quad_congr] at h7
    rw [h5]
    refine h3.trans ?_
    rw [mul_assoc]
    refine mul_le_mul_of_nonneg_left ?_ he
    simp only [quad] at *
    linarith
  have h3 := Props.WithinSigmas_move (mul_nonneg he (sub_nonneg.2 h1)) h2 (1 - kgain (A * S * Aᵀ + Q) H R * H)
    (hR.psd.congr (kgain (A * S * Aᵀ + Q) H R))
  rw [← kcov_joseph (innovCov_pd hM hR).det_ne] at h3
  exact h3

theorem within_iterate (hQ : PSD Q) (hR : PD R) {S : Matrix (Fin n) (Fin n) K} (hS : PSD S) {c e : K}
    (he : 0 ≤ e) (h1 : c ≤ 1) (hc : ∀ k, AtMost (c • (A * (ric A Q H R)^[k] S * Aᵀ + Q)) Q) {d : Fin n → K}
    (h : WithinSigmas e S d) (k : Nat) :
    WithinSigmas (e * (1 - c) ^ k) ((ric A Q H R)^[k] S) ((pairStep A Q H R)^[k] (S, d)).2 := by
  induction k with
  | zero => simpa using h
  | succ k ih =>
    have h2 := within_step (H := H) hR (predict_psd hQ (iterate_psd hQ hR hS k))
      (mul_nonneg he (pow_nonneg (sub_nonneg.2 h1) k)) h1 (hc k) ih
    rw [Function.iterate_succ_apply', Function.iterate_succ_apply', pow_succ, ← mul_assoc]
    have e1 : ((ric A Q H R)^[k] S, ((pairStep A Q H R)^[k] (S, d)).2) = (pairStep A Q H R)^[k] (S, d) :=
      Prod.ext (pairStep_fst k (S, d)).symm rfl
    rw [e1] at h2
    have e2 : (pairStep A Q H R ((pairStep A Q H R)^[k] (S, d))).1 = ric A Q H R ((ric A Q H R)^[k] S) := by
      rw [← pairStep_fst k (S, d)]
      rfl
    rw [e2] at h2
    exact h2

end generic

section real

open Filter

variable {n m : Nat} {A Q : Matrix (Fin n) (Fin n) ℝ} {H : Matrix (Fin m) (Fin n) ℝ} {R : Matrix (Fin m) (Fin m) ℝ}

theorem entry_eq {S : Matrix (Fin n) (Fin n) ℝ} (hS : Sᵀ = S) (i j : Fin n) :
    S i j = (quad S (Pi.single i 1 + Pi.single j 1) - quad S (Pi.single i 1) - quad S (Pi.single j 1)) / 2 := by
  have h := quad_add_symm hS (Pi.single i 1) (Pi.single j 1)
  have e : (Pi.single i 1 : Fin n → ℝ) ⬝ᵥ (S *ᵥ Pi.single j 1) = S i j := by simp
  rw [e] at h
  rw [h]
  ring

theorem tendsto_matrix {p q : Nat} {S : Nat → Matrix (Fin p) (Fin q) ℝ} {P : Matrix (Fin p) (Fin q) ℝ}
    (h : ∀ i j, Tendsto (fun k => S k i j) atTop (nhds (P i j))) : Tendsto S atTop (nhds P) :=
  tendsto_pi_nhds.2 fun i => tendsto_pi_nhds.2 fun j => h i j

theorem tendsto_quad {S : Nat → Matrix (Fin n) (Fin n) ℝ} {P : Matrix (Fin n) (Fin n) ℝ}
    (h : Tendsto S atTop (nhds P)) (x : Fin n → ℝ) : Tendsto (fun k => quad (S k) x) atTop (nhds (quad P x)) := by
  have hc : Continuous fun S : Matrix (Fin n) (Fin n) ℝ => quad S x :=
    continuous_const.dotProduct (continuous_id.matrix_mulVec continuous_const)
  exact (hc.tendsto P).comp h

theorem tendsto_of_quad {S : Nat → Matrix (Fin n) (Fin n) ℝ} {P : Matrix (Fin n) (Fin n) ℝ} (hS : ∀ k, (S k)ᵀ = S k)
    (hP : Pᵀ = P) (h : ∀ x, Tendsto (fun k => quad (S k) x) atTop (nhds (quad P x))) : Tendsto S atTop (nhds P) := by
  refine tendsto_matrix fun i j => ?_
  rw [entry_eq hP]
  have := (((h (Pi.single i 1 + Pi.single j 1)).sub (h (Pi.single i 1))).sub (h (Pi.single j 1))).div_const 2
  exact this.congr fun k => (entry_eq (hS k) i j).symm

theorem psd_limit {S : Nat → Matrix (Fin n) (Fin n) ℝ} {P : Matrix (Fin n) (Fin n) ℝ} (hS : ∀ k, PSD (S k))
    (h : Tendsto S atTop (nhds P)) : PSD P := by
  constructor
  · have h2 : Tendsto (fun k => (S k)ᵀ) atTop (nhds Pᵀ) := (continuous_id.matrix_transpose.tendsto P).comp h
    have h3 : (fun k => (S k)ᵀ) = S := funext fun k => (hS k).1
    rw [h3] at h2
    exact tendsto_nhds_unique h2 h
  · exact fun x => ge_of_tendsto' (tendsto_quad h x) fun k => (hS k).2 x

/-- An increasing bounded sequence of covariances converges. -/
theorem exists_limit {S : Nat → Matrix (Fin n) (Fin n) ℝ} {B : Matrix (Fin n) (Fin n) ℝ} (hS : ∀ k, PSD (S k))
    (hup : ∀ k, AtMost (S k) (S (k + 1))) (hB : ∀ k, AtMost (S k) B) :
    ∃ P, PSD P ∧ Tendsto S atTop (nhds P) := by
  have hlim : ∀ x, ∃ v, Tendsto (fun k => quad (S k) x) atTop (nhds v) := fun x =>
    ⟨_, tendsto_atTop_ciSup (monotone_nat_of_le_succ fun k => (hup k).quad_le x)
      ⟨quad B x, by rintro _ ⟨k, rfl⟩; exact (hB k).quad_le x⟩⟩
  choose v hv using hlim
  have h : Tendsto S atTop (nhds (Matrix.of fun i j =>
      (v (Pi.single i 1 + Pi.single j 1) - v (Pi.single i 1) - v (Pi.single j 1)) / 2)) := by
    refine tendsto_matrix fun i j => ?_
    have := (((hv (Pi.single i 1 + Pi.single j 1)).sub (hv (Pi.single i 1))).sub (hv (Pi.single j 1))).div_const 2
    exact this.congr fun k => (entry_eq (hS k).1 i j).symm
  exact ⟨_, psd_limit hS h, h⟩

theorem ric_continuousAt (hQ : PSD Q) (hR : PD R) {P : Matrix (Fin n) (Fin n) ℝ} (hP : PSD P) :
    ContinuousAt (ric A Q H R) P := by
  have hS := (innovCov_pd (H := H) (predict_psd (A := A) hQ hP) hR).det_ne
  have c1 : Continuous fun S : Matrix (Fin n) (Fin n) ℝ => A * S * Aᵀ + Q := by fun_prop
  have c2 : Continuous fun S : Matrix (Fin n) (Fin n) ℝ => innovCov (A * S * Aᵀ + Q) H R := by
    unfold innovCov; fun_prop
  have c3 : ContinuousAt (fun S : Matrix (Fin n) (Fin n) ℝ => (innovCov (A * S * Aᵀ + Q) H R)⁻¹) P := by
    simp only [Matrix.inv_def, Ring.inverse_eq_inv']
    exact (c2.matrix_det.continuousAt.inv₀ hS).smul c2.matrix_adjugate.continuousAt
  unfold ric
  simp only [kcov, kgain]
  fun_prop

theorem exists_fixed (hQ : PSD Q) (hR : PD R) {B : Matrix (Fin n) (Fin n) ℝ}
    (hB : ∀ k, AtMost ((ric A Q H R)^[k] 0) B) : ∃ P, PSD P ∧ ric A Q H R P = P := by
  have hup : ∀ k, AtMost ((ric A Q H R)^[k] 0) ((ric A Q H R)^[k + 1] 0) := fun k => by
    rw [Function.iterate_succ_apply]
    exact iterate_mono hQ hR Spec.PSD.zero (ric_psd hQ hR Spec.PSD.zero).zero_le k
  obtain ⟨P, hP, h⟩ := exists_limit (fun k => iterate_psd hQ hR Spec.PSD.zero k) hup hB
  refine ⟨P, hP, ?_⟩
  have h2 := (ric_continuousAt (A := A) (H := H) hQ hR hP).tendsto.comp h
  have h3 := (tendsto_add_atTop_iff_nat 1).2 h
  refine tendsto_nhds_unique h2 (h3.congr fun k => ?_)
  rw [Function.iterate_succ_apply']
  rfl

/-- The error covariance of an observer with a constant gain that follows. -/
theorem exists_lyapunov {F N : Matrix (Fin n) (Fin n) ℝ} (hF : Tendsto (fun k => F ^ k) atTop (nhds 0)) (hN : PSD N) :
    ∃ S, PSD S ∧ F * S * Fᵀ + N = S := by
  let T : Matrix (Fin n) (Fin n) ℝ →ₗ[ℝ] Matrix (Fin n) (Fin n) ℝ :=
    { toFun := fun X => X - F * X * Fᵀ
      map_add' := fun X Y => by simp only [Matrix.mul_add, Matrix.add_mul]; abel
      map_smul' := fun t X => by simp only [Matrix.mul_smul, Matrix.smul_mul, smul_sub, RingHom.id_apply] }
  have hz : ∀ X : Matrix (Fin n) (Fin n) ℝ, Tendsto (fun k => F ^ k * X * (F ^ k)ᵀ) atTop (nhds 0) := by
    intro X
    have hc : Continuous fun Y : Matrix (Fin n) (Fin n) ℝ => Y * X * Yᵀ := by fun_prop
    have := (hc.tendsto 0).comp hF
    simp only [Matrix.zero_mul] at this
    exact this
  have hinj : Function.Injective T := by
    rw [← LinearMap.ker_eq_bot, LinearMap.ker_eq_bot']
    intro X hX
    have hX' : F * X * Fᵀ = X := (sub_eq_zero.1 hX).symm
    have hk : ∀ k, F ^ k * X * (F ^ k)ᵀ = X := by
      intro k
      induction k with
      | zero => simp
      | succ k ih =>
        rw [pow_succ, transpose_mul]
        calc F ^ k * F * X * (Fᵀ * (F ^ k)ᵀ) = F ^ k * (F * X * Fᵀ) * (F ^ k)ᵀ := by simp only [Matrix.mul_assoc]
          _ = X := by rw [hX', ih]
    exact tendsto_nhds_unique (tendsto_const_nhds.congr fun k => (hk k).symm) (hz X)
  obtain ⟨S, hS⟩ := LinearMap.injective_iff_surjective.1 hinj N
  have hS' : S - F * S * Fᵀ = N := hS
  have hsum : ∀ k, S - F ^ k * S * (F ^ k)ᵀ = ∑ j ∈ Finset.range k, F ^ j * N * (F ^ j)ᵀ := by
    intro k
    induction k with
    | zero => simp
    | succ k ih =>
      rw [Finset.sum_range_succ, ← ih, ← hS', pow_succ, transpose_mul]
      simp only [Matrix.mul_sub, Matrix.sub_mul, Matrix.mul_assoc]
      abel
  have hlim : Tendsto (fun k => ∑ j ∈ Finset.range k, F ^ j * N * (F ^ j)ᵀ) atTop (nhds S) := by
    have := (tendsto_const_nhds (x := S)).sub (hz S)
    rw [sub_zero] at this
    exact this.congr hsum
  refine ⟨S, psd_limit (fun k => ?_) hlim, ?_⟩
  · induction k with
    | zero => simpa using Spec.PSD.zero
    | succ k ih => rw [Finset.sum_range_succ]; exact ih.add (hN.congr _)
  · rw [← hS']; abel

/-- The covariance of an observer with gain `G`: prediction and correction in one step. -/
theorem joseph_predict (S : Matrix (Fin n) (Fin n) ℝ) (G : Matrix (Fin n) (Fin m) ℝ) :
    joseph (A * S * Aᵀ + Q) H R G = (1 - G * H) * A * S * ((1 - G * H) * A)ᵀ
      + ((1 - G * H) * Q * (1 - G * H)ᵀ + G * R * Gᵀ) := by
  rw [joseph, transpose_mul]
  simp only [Matrix.mul_add, Matrix.add_mul, Matrix.mul_assoc]
  abel

theorem bounded_of_follows (hQ : PSD Q) (hR : PD R) {G : Matrix (Fin n) (Fin m) ℝ} (hG : Follows A H G) :
    ∃ B, ∀ k, AtMost ((ric A Q H R)^[k] 0) B := by
  obtain ⟨S, hS, he⟩ := exists_lyapunov hG ((hQ.congr (1 - G * H)).add (hR.psd.congr G))
  have h1 : AtMost (ric A Q H R S) S := by
    have := kcov_le_joseph (H := H) (predict_psd (A := A) hQ hS) hR G
    rwa [joseph_predict, he] at this
  refine ⟨S, fun k => ?_⟩
  induction k with
  | zero => exact hS.zero_le
  | succ k ih =>
    rw [Function.iterate_succ_apply']
    exact (ric_mono hQ hR (iterate_psd hQ hR Spec.PSD.zero k) ih).trans h1

/-- The noise of an observer has a part in every direction. -/
theorem observer_noise_pd (hQ : PD Q) (hR : PD R) (G : Matrix (Fin n) (Fin m) ℝ) :
    PD ((1 - G * H) * Q * (1 - G * H)ᵀ + G * R * Gᵀ) := by
  have h1 := hQ.psd.congr (1 - G * H)
  have h2 := hR.psd.congr G
  refine ⟨(h1.add h2).1, fun x hx => ?_⟩
  have e := Props.quad_add_left ((1 - G * H) * Q * (1 - G * H)ᵀ) (G * R * Gᵀ) x
  have q1 := Props.quad_congr Q (1 - G * H) x
  have q2 := Props.quad_congr R G x
  show 0 < quad _ x
  rw [e, q1, q2]
  by_cases hG : Gᵀ *ᵥ x = 0
  · have hx' : (1 - G * H)ᵀ *ᵥ x = x := by
      rw [transpose_sub, transpose_one, transpose_mul, sub_mulVec, one_mulVec, ← mulVec_mulVec, hG, mulVec_zero, sub_zero]
    rw [hx', hG]
    have := hQ.2 x hx
    simp only [quad, mulVec_zero, dotProduct_zero, add_zero]
    exact this
  · have := hR.2 _ hG
    have h3 := hQ.psd.2 ((1 - G * H)ᵀ *ᵥ x)
    simp only [quad]
    linarith

theorem follows_of_fixed (hQ : PD Q) (hR : PD R) {P : Matrix (Fin n) (Fin n) ℝ} (hP : PD P)
    (hfix : ric A Q H R P = P) : Follows A H (kgain (A * P * Aᵀ + Q) H R) := by
  obtain ⟨G, hG⟩ : ∃ G, G = kgain (A * P * Aᵀ + Q) H R := ⟨_, rfl⟩
  obtain ⟨F, hF⟩ : ∃ F, F = (1 - G * H) * A := ⟨_, rfl⟩
  have hN := observer_noise_pd (H := H) hQ hR G
  have he : F * P * Fᵀ + ((1 - G * H) * Q * (1 - G * H)ᵀ + G * R * Gᵀ) = P := by
    rw [hF, ← joseph_predict, joseph, hG, ← kcov_joseph (innovCov_pd (predict_psd hQ.psd hP.psd) hR).det_ne]
    exact hfix
  obtain ⟨c, hc0, hc1, hc⟩ := exists_share hN hP.psd
  have h1 : AtMost (F * P * Fᵀ) ((1 - c) • P) := by
    rw [AtMost] at hc ⊢
    have e : (1 - c) • P - F * P * Fᵀ = (P - F * P * Fᵀ) - c • P := by module
    have e2 : P - F * P * Fᵀ = (1 - G * H) * Q * (1 - G * H)ᵀ + G * R * Gᵀ := by
      rw [sub_eq_iff_eq_add, add_comm]
      exact he.symm
    rw [e, e2]
    exact hc
  have hc2 : 0 ≤ 1 - c := sub_nonneg.2 hc1
  have h2 : ∀ k, AtMost (F ^ k * P * (F ^ k)ᵀ) ((1 - c) ^ k • P) := by
    intro k
    induction k with
    | zero => simpa using AtMost.refl P
    | succ k ih =>
      have h3 := h1.congr (F ^ k)
      rw [Matrix.mul_smul, Matrix.smul_mul] at h3
      have h4 := h3.trans (ih.smul hc2)
      rw [smul_smul, ← pow_succ'] at h4
      rw [pow_succ F, transpose_mul]
      simp only [Matrix.mul_assoc] at h4 ⊢
      exact h4
  obtain ⟨t, ht1, ht⟩ := exists_dominates hP (transpose_one (n := Fin n) (α := ℝ))
  have ht0 : 0 ≤ t := zero_le_one.trans ht1
  have h3 : ∀ k i j, (F ^ k) i j ^ 2 ≤ t * (1 - c) ^ k * quad P (Pi.single i 1) := by
    intro k i j
    have h4 := ((ht.congr (F ^ k)).trans (by
      have := (h2 k).smul ht0
      rwa [← Matrix.smul_mul, ← Matrix.mul_smul] at this)).quad_le (Pi.single i 1)
    have h5 : quad (t • (1 - c) ^ k • P) (Pi.single i 1) = t * (1 - c) ^ k * quad P (Pi.single i 1) := by
      simp only [quad, smul_mulVec, dotProduct_smul, smul_eq_mul, mul_assoc]
    rw [h5, Matrix.mul_one] at h4
    refine le_trans ?_ h4
    have h6 : quad (F ^ k * (F ^ k)ᵀ) (Pi.single i 1) = ∑ j, (F ^ k) i j ^ 2 := by
      simp only [quad, single_one_dotProduct, mulVec_single_one, col_apply, mul_apply, transpose_apply, pow_two]
    rw [h6]
    exact Finset.single_le_sum (f := fun j => (F ^ k) i j ^ 2) (fun j _ => sq_nonneg _) (Finset.mem_univ j)
  rw [Follows, ← hG, ← hF]
  refine tendsto_matrix fun i j => ?_
  have h4 : Tendsto (fun k => t * (1 - c) ^ k * quad P (Pi.single i 1)) atTop (nhds 0) := by
    have := ((tendsto_pow_atTop_nhds_zero_of_lt_one hc2 (by linarith : 1 - c < 1)).const_mul t).mul_const
      (quad P (Pi.single i 1))
    simpa using this
  have h5 : Tendsto (fun k => (F ^ k) i j ^ 2) atTop (nhds 0) :=
    tendsto_of_tendsto_of_tendsto_of_le_of_le tendsto_const_nhds h4 (fun k => sq_nonneg _) fun k => h3 k i j
  have h6 := h5.sqrt
  rw [Real.sqrt_zero] at h6
  simp only [Real.sqrt_sq_eq_abs] at h6
  exact (tendsto_zero_iff_abs_tendsto_zero _).2 h6

end real

end BFL
