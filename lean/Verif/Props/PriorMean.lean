import Verif.Spec.PriorMean
import Verif.Props.KalmanOrder

set_option linter.unusedSectionVars false

/-!
# C79: a wrong prior mean does no lasting harm to the Kalman filters
-/

namespace BFL.Props

open Matrix Spec

variable {K : Type} [Field K] [LinearOrder K] [IsStrictOrderedRing K] {n : Nat} {U : Type}

theorem quad_congr {m : Nat} (P : Matrix (Fin n) (Fin n) K) (A : Matrix (Fin m) (Fin n) K)
    (w : Fin m → K) : quad (A * P * Aᵀ) w = quad P (Aᵀ *ᵥ w) := by
  simp only [quad]
  rw [← mulVec_mulVec, ← mulVec_mulVec, quad_transpose A]

theorem quad_add_left (P Q : Matrix (Fin n) (Fin n) K) (w : Fin n → K) :
    quad (P + Q) w = quad P w + quad Q w := by
  simp only [quad, add_mulVec, dotProduct_add]

/-- The difference is moved by `A`, the covariance by `A` with noise `Q` added. -/
theorem WithinSigmas_move {m : Nat} {e : K} (he : 0 ≤ e) {P : Matrix (Fin n) (Fin n) K} {d : Fin n → K}
    (h : WithinSigmas e P d) (A : Matrix (Fin m) (Fin n) K) {Q : Matrix (Fin m) (Fin m) K}
    (hQ : PSD Q) : WithinSigmas e (A * P * Aᵀ + Q) (A *ᵥ d) := by
  intro w
  have h1 := h (Aᵀ *ᵥ w)
  have h2 := mul_nonneg he (hQ.2 w)
  rw [quad_add_left, quad_congr]
  have : w ⬝ᵥ (A *ᵥ d) = (Aᵀ *ᵥ w) ⬝ᵥ d := by rw [quad_transpose]
  rw [this, mul_add]
  simp only [quad] at *
  linarith

theorem WithinSigmas_correct {m : Nat} {e : K} (he : 0 ≤ e) {P : Matrix (Fin n) (Fin n) K}
    {H : Matrix (Fin m) (Fin n) K} {R : Matrix (Fin m) (Fin m) K} (hP : PSD P) (hR : PD R)
    {μ ν : Fin n → K} (h : WithinSigmas e P (μ - ν)) (z c : Fin m → K) :
    WithinSigmas e (kcov P H R) ((kgain P H R *ᵥ (z - (H *ᵥ μ + c)) + μ)
      - (kgain P H R *ᵥ (z - (H *ᵥ ν + c)) + ν)) := by
  have hd : (kgain P H R *ᵥ (z - (H *ᵥ μ + c)) + μ) - (kgain P H R *ᵥ (z - (H *ᵥ ν + c)) + ν)
      = (1 - kgain P H R * H) *ᵥ (μ - ν) := by
    simp only [sub_mulVec, one_mulVec, mulVec_sub, mulVec_add, ← mulVec_mulVec]
    abel
  rw [hd, kcov_joseph (innovCov_pd hP hR).det_ne]
  exact WithinSigmas_move he h _ (hR.psd.congr _)

/-- The two filters agree on the covariance, and their means differ by at most `√e` standard
deviations. -/
def Apart (e : K) (f g : KF K n) : Prop :=
  PSD f.sigma ∧ g.sigma = f.sigma ∧ WithinSigmas e f.sigma (f.mu - g.mu)

theorem sysPart_apart {be be' : Backend} {e : K} (he : 0 ≤ e)
    {sys : Option (AnalyticModel K n n U × Option U)}
    (hl : ∀ sy u, sys = some (sy, u) → ∃ A b Q, sy.IsLinear u A b Q ∧ PSD Q) {f g : KF K n}
    (h : Apart e f g) :
    ∃ f' g', f.sysPart be sys = .ok f' ∧ g.sysPart be' sys = .ok g' ∧ Apart e f' g' := by
  obtain ⟨hP, hs, hd⟩ := h
  rcases sys with _ | ⟨sy, u⟩
  · exact ⟨f, g, rfl, rfl, hP, hs, hd⟩
  · obtain ⟨A, b, Q, hlin, hQ⟩ := hl sy u rfl
    have h1 := (hP.congr A).add hQ
    refine ⟨_, _, sysUpdate_eq (hlin _), sysUpdate_eq (hlin _), ?_, ?_, ?_⟩
    · simp only; rw [be.toSym_of_symm h1.1]; exact h1
    · simp only; rw [hs, be.toSym_of_symm h1.1, be'.toSym_of_symm h1.1]
    · simp only
      rw [be.toSym_of_symm h1.1, add_sub_add_right_eq_sub, ← mulVec_sub]
      exact WithinSigmas_move he hd A hQ

theorem measPart_apart {be be' : Backend} {kind kind' : KF.Kind K n} (hk : kind.Runs)
    (hk' : kind'.Runs) {e : K} (he : 0 ≤ e) {m : Nat}
    {meas : Option (AnalyticModel K n m U × (Fin m → K) × Option U)}
    (hl : ∀ me z s, meas = some (me, z, s) → ∃ H c R, me.IsLinear s H c R ∧ PD R) {f g : KF K n}
    (h : Apart e f g) :
    ∃ f' g', f.measPart be kind meas = .ok f' ∧ g.measPart be' kind' meas = .ok g' ∧ Apart e f' g' := by
  obtain ⟨hP, hs, hd⟩ := h
  rcases meas with _ | ⟨me, z, s⟩
  · exact ⟨f, g, rfl, rfl, hP, hs, hd⟩
  · obtain ⟨H, c, R, hlin, hR⟩ := hl me z s rfl
    refine ⟨_, _, (measUpdate_linear hk hlin).trans (calc_valid hP hR),
      (measUpdate_linear hk' hlin).trans (calc_valid (by rw [hs]; exact hP) hR), kcov_psd hP hR, ?_, ?_⟩
    · simp only; rw [hs]
    · simp only; rw [hs]; exact WithinSigmas_correct he hP hR hd z c

theorem run_apart {be be' : Backend} {kind kind' : KF.Kind K n} (hk : kind.Runs) (hk' : kind'.Runs)
    {e : K} (he : 0 ≤ e) {as : List (KStep K n U)} (hl : ∀ a ∈ as, LinearCall a) :
    ∀ {f g : KF K n}, Apart e f g →
    ∃ f' g', runAll be kind as f = .ok f' ∧ runAll be' kind' as g = .ok g' ∧ Apart e f' g' := by
  induction as with
  | nil => intro f g h; exact ⟨f, g, rfl, rfl, h⟩
  | cons a as ih =>
    intro f g h
    have ha := hl a (by simp)
    obtain ⟨f1, g1, e1, e1', h1⟩ := sysPart_apart (be := be) (be' := be') he ha.1 h
    obtain ⟨f2, g2, e2, e2', h2⟩ := measPart_apart (be := be) (be' := be') hk hk' he ha.2 h1
    obtain ⟨f3, g3, e3, e3', h3⟩ := ih (fun a ha => hl a (by simp [ha])) h2
    refine ⟨f3, g3, ?_, ?_, h3⟩
    · simp only [runAll, KF.update]
      rw [e1]; simp only [Outcome.ok_bind]; rw [e2]; simp only [Outcome.ok_bind, Outcome.pure_eq]
      exact e3
    · simp only [runAll, KF.update]
      rw [e1']; simp only [Outcome.ok_bind]; rw [e2']; simp only [Outcome.ok_bind, Outcome.pure_eq]
      exact e3'

/-- C79. Two Kalman filters start with the same covariance and with means that are at most `√e` standard
deviations apart in every direction. They get the same calls with linear models. Then they always report
the same covariance, and their means are always at most `√e` of the *reported* standard deviations apart:
as the filter becomes certain of a direction, the prior mean stops mattering there. -/
theorem C79_sigmas (be be' : Backend) (kind kind' : KF.Kind K n) (hk : kind.Runs) (hk' : kind'.Runs)
    (as : List (KStep K n U)) (hl : ∀ a ∈ as, LinearCall a) (f g : KF K n) (hf : PSD f.sigma)
    (hs : g.sigma = f.sigma) (e : K) (he : 0 ≤ e) (hd : WithinSigmas e f.sigma (f.mu - g.mu)) :
    ∃ f' g', runAll be kind as f = .ok f' ∧ runAll be' kind' as g = .ok g' ∧ g'.sigma = f'.sigma ∧
      WithinSigmas e f'.sigma (f'.mu - g'.mu) := by
  obtain ⟨f', g', h1, h2, h3⟩ := run_apart (be := be) (be' := be') hk hk' he hl ⟨hf, hs, hd⟩
  exact ⟨f', g', h1, h2, h3.2⟩

theorem sensor_le {m : Nat} {P : Matrix (Fin n) (Fin n) K} {H : Matrix (Fin m) (Fin n) K}
    {R : Matrix (Fin m) (Fin m) K} (hP : PSD P) (hR : PD R) : AtMost (H * kcov P H R * Hᵀ) R := by
  have hS := innovCov_pd (H := H) hP hR
  have e : H * kcov P H R * Hᵀ = R - R * (innovCov P H R)⁻¹ * Rᵀ := by
    rw [mul_kcov hS.det_ne]
    have : H * P * Hᵀ = innovCov P H R - R := by rw [innovCov]; abel
    simp only [Matrix.mul_assoc] at this ⊢
    rw [this, Matrix.mul_sub, nonsing_inv_mul _ hS.det_ne.isUnit, Matrix.mul_sub, Matrix.mul_one, hR.1]
  rw [AtMost, e, sub_sub_cancel]
  exact hS.inv.psd.congr R

/-- C79. Whatever happened before and however large the prior covariance was: right after a reading of a
sensor, the readings that the two filters expect of it differ by at most `√e` standard deviations of the
*noise of that sensor*. -/
theorem C79_sensor (be be' : Backend) (kind kind' : KF.Kind K n) (hk : kind.Runs) (hk' : kind'.Runs)
    (as : List (KStep K n U)) (hl : ∀ a ∈ as, LinearCall a) (f g : KF K n) (hf : PSD f.sigma)
    (hs : g.sigma = f.sigma) (e : K) (he : 0 ≤ e) (hd : WithinSigmas e f.sigma (f.mu - g.mu))
    (r : Reading K n U) (hr : r.Right) :
    ∃ f' g', runAll be kind (as ++ [r.call]) f = .ok f' ∧
      runAll be' kind' (as ++ [r.call]) g = .ok g' ∧
      WithinSigmas e r.R ((r.H *ᵥ f'.mu + r.c) - (r.H *ᵥ g'.mu + r.c)) := by
  obtain ⟨hlin, hR⟩ := hr
  have split : ∀ (be : Backend) (kind : KF.Kind K n) (as bs : List (KStep K n U)) (f f1 : KF K n),
      runAll be kind as f = .ok f1 → runAll be kind (as ++ bs) f = runAll be kind bs f1 := by
    intro be kind as bs
    induction as with
    | nil => intro f f1 h; cases h; rfl
    | cons a as ih =>
      intro f f1 h
      simp only [runAll, List.cons_append, Outcome.bind_eq_ok] at h ⊢
      obtain ⟨x, hx, h⟩ := h
      rw [hx]; exact ih _ _ h
  obtain ⟨f1, g1, e1, e1', h1⟩ := run_apart (be := be) (be' := be') hk hk' he hl ⟨hf, hs, hd⟩
  have hcall : ∀ (be : Backend) (kind : KF.Kind K n), kind.Runs → ∀ f : KF K n, PSD f.sigma →
      runAll be kind [r.call] f = .ok ⟨kgain f.sigma r.H r.R *ᵥ (r.z - (r.H *ᵥ f.mu + r.c)) + f.mu,
        kcov f.sigma r.H r.R, f.timestep⟩ := by
    intro be kind hk f hP
    have := (measUpdate_linear (be := be) (f := f) (z := r.z) hk hlin).trans (calc_valid hP hR)
    simp only [runAll, Reading.call, KF.update, KF.sysPart, KF.measPart, Outcome.ok_bind]
    rw [this]; rfl
  refine ⟨_, _, (split _ _ _ _ _ _ e1).trans (hcall be kind hk f1 h1.1),
    (split _ _ _ _ _ _ e1').trans (hcall be' kind' hk' g1 (by rw [h1.2.1]; exact h1.1)), ?_⟩
  have h2 := WithinSigmas_correct (H := r.H) he h1.1 hR h1.2.2 r.z r.c
  have h3 := sensor_le (H := r.H) h1.1 hR
  intro w
  have h4 := h2 (r.Hᵀ *ᵥ w)
  have h5 := h3.2 w
  have h6 := quad_congr (kcov f1.sigma r.H r.R) r.H w
  simp only at h4 ⊢
  rw [h1.2.1, add_sub_add_right_eq_sub, ← mulVec_sub, quad_transpose]
  refine h4.trans (mul_le_mul_of_nonneg_left ?_ he)
  rw [← h6]
  simp only [quad, sub_mulVec, dotProduct_sub] at h5 ⊢
  linarith

/-- Cauchy and Schwarz. -/
theorem dot_sq_le {P : Matrix (Fin n) (Fin n) K} (hP : PSD P) (w v : Fin n → K) :
    (w ⬝ᵥ (P *ᵥ v)) ^ 2 ≤ quad P v * quad P w := by
  have h : ∀ t : K, 0 ≤ quad P v * (t * t) + 2 * (w ⬝ᵥ (P *ᵥ v)) * t + quad P w := by
    intro t
    have h1 := hP.2 (w + t • v)
    have h2 := quad_add_symm hP.1 w (t • v)
    have h3 : quad P (t • v) = quad P v * (t * t) := by
      simp only [quad, mulVec_smul, dotProduct_smul, smul_dotProduct, smul_eq_mul]; ring
    rw [h3, mulVec_smul, dotProduct_smul, smul_eq_mul] at h2
    simp only [quad] at *
    linarith
  have := discrim_le_zero h
  rw [discrim] at this
  nlinarith

/-- `WithinSigmas` says that the squared Mahalanobis distance is at most `e`. -/
theorem withinSigmas_iff {P : Matrix (Fin n) (Fin n) K} (hP : PD P) {e : K} (he : 0 ≤ e)
    (d : Fin n → K) : WithinSigmas e P d ↔ quad P⁻¹ d ≤ e := by
  have hd : P *ᵥ (P⁻¹ *ᵥ d) = d := by
    rw [mulVec_mulVec, mul_nonsing_inv _ hP.det_ne.isUnit, one_mulVec]
  have hq : quad P (P⁻¹ *ᵥ d) = quad P⁻¹ d := by
    simp only [quad]; rw [hd, dotProduct_comm]
  constructor
  · intro h
    have h1 := h (P⁻¹ *ᵥ d)
    rw [hq, dotProduct_comm] at h1
    have h0 : 0 ≤ quad P⁻¹ d := hP.inv.psd.2 d
    rcases h0.eq_or_lt with h0 | h0
    · rw [← h0]; exact he
    · have h1 : quad P⁻¹ d * quad P⁻¹ d ≤ e * quad P⁻¹ d := by rw [← pow_two]; exact h1
      exact le_of_mul_le_mul_right h1 h0
  · intro h w
    have h1 := dot_sq_le hP.psd w (P⁻¹ *ᵥ d)
    rw [hd, hq] at h1
    exact h1.trans (mul_le_mul_of_nonneg_right h (hP.psd.2 w))

/-- C79. The squared Mahalanobis distance of the two means never increases. -/
theorem C79_distance (be be' : Backend) (kind kind' : KF.Kind K n) (hk : kind.Runs) (hk' : kind'.Runs)
    (as : List (KStep K n U)) (hl : ∀ a ∈ as, LinearCall a) (f g : KF K n) (hf : PD f.sigma)
    (hs : g.sigma = f.sigma) :
    ∃ f' g', runAll be kind as f = .ok f' ∧ runAll be' kind' as g = .ok g' ∧ g'.sigma = f'.sigma ∧
      (PD f'.sigma → quad f'.sigma⁻¹ (f'.mu - g'.mu) ≤ quad f.sigma⁻¹ (f.mu - g.mu)) := by
  have he : 0 ≤ quad f.sigma⁻¹ (f.mu - g.mu) := hf.inv.psd.2 _
  obtain ⟨f', g', h1, h2, h3, h4⟩ := C79_sigmas be be' kind kind' hk hk' as hl f g hf.psd hs _ he
    ((withinSigmas_iff hf he _).mpr le_rfl)
  exact ⟨f', g', h1, h2, h3, fun hp => (withinSigmas_iff hp he _).mp h4⟩

namespace PriorMean

open KFixture

/-- The filter of the examples with another prior mean. -/
def other : KF ℚ 2 := KF.make ![3, 3] P

theorem near : WithinSigmas 2 start.sigma (start.mu - other.mu) := by
  intro w
  have e1 : w ⬝ᵥ (start.mu - other.mu) = -(2 * w 0 + w 1) := by
    simp [start, other, KF.make, dotProduct, Fin.sum_univ_two]; ring
  have e2 : quad start.sigma w = 2 * w 0 * w 0 + (1 + 1) * w 0 * w 1 + 2 * w 1 * w 1 := quad2 ..
  rw [e1, e2]
  nlinarith [mul_self_nonneg (w 1)]

/-- One more reading of the sensor of the examples. -/
def reading : Reading ℚ 2 Unit := ⟨1, meas, none, H, 0, R, ![4]⟩

theorem reading_right : reading.Right := ⟨meas_linear, R_pd⟩

end PriorMean

example : ∃ f' g', runAll .boost .extended Order.rich KFixture.start = .ok f' ∧
    runAll .eigen (.iterated 2 none) Order.rich PriorMean.other = .ok g' ∧ g'.sigma = f'.sigma ∧
    WithinSigmas 2 f'.sigma (f'.mu - g'.mu) :=
  C79_sigmas .boost .eigen .extended (.iterated 2 none) trivial (by simp [KF.Kind.Runs]) _ Order.linear
    KFixture.start PriorMean.other KFixture.P_pd.psd rfl 2 (by norm_num) PriorMean.near

example : ∃ f' g', runAll .boost .extended (Order.rich ++ [PriorMean.reading.call]) KFixture.start = .ok f' ∧
    runAll .boost .extended (Order.rich ++ [PriorMean.reading.call]) PriorMean.other = .ok g' ∧
    (f'.mu 0 - g'.mu 0) ^ 2 ≤ 2 := by
  obtain ⟨f', g', h1, h2, h3⟩ := C79_sensor .boost .boost .extended .extended trivial trivial _
    Order.linear KFixture.start PriorMean.other KFixture.P_pd.psd rfl 2 (by norm_num) PriorMean.near _
    PriorMean.reading_right
  refine ⟨f', g', h1, h2, ?_⟩
  have h4 : WithinSigmas 2 KFixture.R ((KFixture.H *ᵥ f'.mu + 0) - (KFixture.H *ᵥ g'.mu + 0)) := h3
  have := h4 ![1]
  simpa [KFixture.H, KFixture.R, quad, dotProduct, mulVec, Fin.sum_univ_two] using this

example : ∃ f' g', runAll .boost .extended Order.rich KFixture.start = .ok f' ∧
    runAll .boost .extended Order.rich PriorMean.other = .ok g' ∧ g'.sigma = f'.sigma ∧
    (PD f'.sigma → quad f'.sigma⁻¹ (f'.mu - g'.mu)
      ≤ quad KFixture.start.sigma⁻¹ (KFixture.start.mu - PriorMean.other.mu)) :=
  C79_distance .boost .boost .extended .extended trivial trivial _ Order.linear
    KFixture.start PriorMean.other KFixture.P_pd rfl

/-- C79, the boundary: with the sensor `x²`, two extended filters with variance `1` and means `1` and `0`
report means more than forty apart after one reading, and variances of at most `1`. -/
theorem C79_nonlinear (be : Backend) :
    ∃ (meas : AnalyticModel ℚ 1 1 Unit) (f g : KF ℚ 1),
      (∀ x, ∃ Z H R, meas.Evaluates none x Z H R ∧ PD R) ∧ PD f.sigma ∧ g.sigma = f.sigma ∧
      WithinSigmas 1 f.sigma (f.mu - g.mu) ∧
      ∃ f' g', runAll be .extended [⟨1, none, some (meas, ![100], none)⟩] f = .ok f' ∧
        runAll be .extended [⟨1, none, some (meas, ![100], none)⟩] g = .ok g' ∧
        f'.sigma 0 0 ≤ 1 ∧ g'.sigma 0 0 ≤ 1 ∧ f'.mu 0 - g'.mu 0 = 203 / 5 := by
  have step : ∀ (a p z : ℚ), (2 * a) * p * (2 * a) + 1 ≠ 0 →
      (⟨![a], !![p], 0⟩ : KF ℚ 1).update be .extended none (some (UnitsFixture.square, ![z], none))
        = .ok (true, ⟨![p * (2 * a) * ((2 * a) * p * (2 * a) + 1)⁻¹ * (z - a * a) + a],
            !![p - p * (2 * a) * ((2 * a) * p * (2 * a) + 1)⁻¹ * (2 * a) * p], 0⟩) := by
    intro a p z h
    simp only [KF.update, KF.sysPart, KF.measPart, KF.measUpdate, Outcome.ok_bind]
    rw [ekf_eq (UnitsFixture.ev _)]
    simp only [Matrix.cons_val_zero]
    rw [one_calc be h]
    rfl
  have s1 := step 1 1 100 (by norm_num)
  have s2 := step 0 1 100 (by norm_num)
  refine ⟨UnitsFixture.square, ⟨![1], !![1], 0⟩, ⟨![0], !![1], 0⟩,
    fun x => ⟨_, _, _, UnitsFixture.ev x, UnitsFixture.pd 1 one_pos⟩, UnitsFixture.pd 1 one_pos, rfl, ?_,
    ?_⟩
  · intro w
    simp [quad, dotProduct, mulVec, pow_two]
  · refine ⟨_, _, by simp only [runAll]; rw [s1]; rfl, by simp only [runAll]; rw [s2]; rfl, ?_, ?_, ?_⟩
      <;> norm_num

end BFL.Props
