import Verif.Model.LinearProgram
import Verif.Spec.LinearProgram
import Verif.Props.ExamplePdfs
import Verif.Props.LinearConditional
import Verif.Props.KalmanSetup
import Verif.Lemmas.KalmanRun
import Mathlib.Analysis.Real.Pi.Bounds

set_option linter.unusedSectionVars false
set_option linter.unusedSimpArgs false

/-!
# C116: the example program for the Kalman filter

The wall of the example is horizontal, so the readings tell about `y` only. The claim is that the report tells
how far off the estimate may be; it holds for `y` and fails for `x`, because the filter is told another heading
than the robot has.
-/

namespace BFL.Props

open Matrix Spec ExamplePdfs LinearProgram

/-- The two models of the program are those that the library's linear classes make from the matrices. -/
theorem C116_models (c : Constants) :
    (∃ p m, LinCond.make [⟨2, 2, Constants.a⟩, ⟨2, 2, c.b⟩] c.sysMu c.q = .ok p ∧ LinModel.make p = .ok m ∧
      ∀ (u x : Fin 2 → ℝ), ∃ y F Q m1 m2 m3, c.sysModel.Evaluates (some u) x y F Q ∧
        m.predictionGet ⟨2, u⟩ ⟨2, x⟩ = .ok (y, m1) ∧ m.dfGet ⟨2, u⟩ ⟨2, x⟩ = .ok (⟨2, 2, F⟩, m2) ∧
        m.covGet ⟨2, u⟩ ⟨2, x⟩ = .ok (Q, m3)) ∧
    ∃ p m, LinCond.make [⟨1, 2, c.h⟩] c.measMu c.r = .ok p ∧ LinModel.make p = .ok m ∧
      ∀ (s : DVec ℝ) (x : Fin 2 → ℝ), ∃ y F Q m1 m2 m3, c.measModel.Evaluates none x y F Q ∧
        m.predictionGet s ⟨2, x⟩ = .ok (y, m1) ∧ m.dfGet s ⟨2, x⟩ = .ok (⟨1, 2, F⟩, m2) ∧
        m.covGet s ⟨2, x⟩ = .ok (Q, m3) := by
  constructor
  · obtain ⟨p, hp⟩ := C44_make [⟨2, 2, Constants.a⟩, ⟨2, 2, c.b⟩] c.sysMu c.q
    have hn : p.numArgs = 2 := (LinCond.make_wf hp).2.1
    have hm : LinModel.make p = .ok ⟨p, false⟩ := by simp [LinModel.make, hn]
    refine ⟨p, _, hp, hm, fun u x => ?_⟩
    obtain ⟨⟨m1, h1⟩, ⟨m2, h2⟩, ⟨m3, h3⟩, -⟩ := C44_prediction _ Constants.a c.b c.sysMu c.q
      ⟨⟨_, _, _, _, _, _, [], hp, hm, rfl, rfl, rfl, rfl, rfl⟩⟩ u x
    exact ⟨_, _, _, m1, m2, m3, ⟨rfl, rfl, rfl⟩, h1, h2, h3⟩
  · obtain ⟨p, hp⟩ := C44_make [⟨1, 2, c.h⟩] c.measMu c.r
    have hn : p.numArgs = 1 := (LinCond.make_wf hp).2.1
    have hm : LinModel.make p = .ok ⟨p, true⟩ := by simp [LinModel.make, hn]
    refine ⟨p, _, hp, hm, fun s x => ?_⟩
    obtain ⟨⟨m1, h1⟩, ⟨m2, h2⟩, ⟨m3, h3⟩, -⟩ := C44_prediction_no_input _ c.h c.measMu c.r
      ⟨⟨_, _, _, _, _, [], hp, hm, rfl, rfl, rfl, rfl⟩⟩ s x
    exact ⟨_, _, _, m1, m2, m3, ⟨rfl, rfl, rfl⟩, h1, h2, h3⟩

/-- One update, in numbers. -/
theorem linear_step (c : Constants) (be : Backend) (hr : 0 < c.measVar) (hw : c.rico = 0) (hy : 0 ≤ c.sysY)
    (v w x y p s z : ℝ) (t : Nat) (hs : 0 ≤ s) :
    (⟨![x, y], !![p, 0; 0, s], t⟩ : KF ℝ 2).update be .extended (some (c.sysModel, some ![v, w]))
        (some (c.measModel, ![z], none)) =
      .ok (true, ⟨![x + Real.cos c.heading * v + c.sysMu 0,
          y + Real.sin c.heading * v + c.sysMu 1 - 2 * (s + c.sysY) / (4 * (s + c.sysY) + c.measVar) *
            (z + 2 * (y + Real.sin c.heading * v + c.sysMu 1) - c.measMu 0)],
        !![p + c.sysX, 0; 0, (s + c.sysY) * c.measVar / (4 * (s + c.sysY) + c.measVar)], t⟩) := by
  have hh : c.h = !![0, -2] := by
    simp [Constants.h, hw]
  have h1 : (⟨![x, y], !![p, 0; 0, s], t⟩ : KF ℝ 2).sysUpdate be c.sysModel (some ![v, w]) =
      .ok ⟨![x + Real.cos c.heading * v + c.sysMu 0, y + Real.sin c.heading * v + c.sysMu 1],
        !![p + c.sysX, 0; 0, s + c.sysY], t⟩ := by
    rw [sysUpdate_eq (J := Constants.a *ᵥ ![x, y] + c.b *ᵥ ![v, w] + c.sysMu) (F := Constants.a) (Q := c.q)
      ⟨rfl, rfl, rfl⟩]
    have e1 : Constants.a *ᵥ ![x, y] + c.b *ᵥ ![v, w] + c.sysMu =
        ![x + Real.cos c.heading * v + c.sysMu 0, y + Real.sin c.heading * v + c.sysMu 1] := by
      ext i
      fin_cases i <;> simp [Constants.a, Constants.b, mul_comm]
    have e2 : Constants.a * !![p, 0; 0, s] * Constants.aᵀ + c.q = !![p + c.sysX, 0; 0, s + c.sysY] := by
      rw [show Constants.a = 1 from Matrix.one_fin_two.symm, Matrix.one_mul, Matrix.transpose_one, Matrix.mul_one]
      ext i j
      fin_cases i <;> fin_cases j <;> simp [Constants.q]
    simp only [e1, e2]
    rw [be.toSym_of_symm (by ext i j; fin_cases i <;> fin_cases j <;> rfl)]
  have hs' : 0 ≤ s + c.sysY := add_nonneg hs hy
  have hd : 0 < 4 * (s + c.sysY) + c.measVar := by positivity
  generalize hX : x + Real.cos c.heading * v + c.sysMu 0 = x' at *
  generalize hY : y + Real.sin c.heading * v + c.sysMu 1 = y' at *
  generalize s + c.sysY = s' at *
  generalize p + c.sysX = p' at *
  have hS : innovCov !![p', 0; 0, s'] c.h c.r = !![4 * s' + c.measVar] := by
    rw [hh]
    ext i j
    fin_cases i; fin_cases j
    simp [innovCov, Constants.r, Matrix.mul_apply, Matrix.vecMul, dotProduct, Fin.sum_univ_two]
    ring
  have hk : kgain !![p', 0; 0, s'] c.h c.r = !![0; -(2 * s' / (4 * s' + c.measVar))] := by
    rw [kgain, hS, one_inv hd.ne', hh]
    ext i j
    fin_cases j
    fin_cases i
    · simp [Matrix.mul_apply, Matrix.vecMul, dotProduct, Fin.sum_univ_two]
    · simp [Matrix.mul_apply, Matrix.vecMul, dotProduct, Fin.sum_univ_two]
      field_simp
  have hc : kcov !![p', 0; 0, s'] c.h c.r = !![p', 0; 0, s' * c.measVar / (4 * s' + c.measVar)] := by
    rw [kcov, hk, hh]
    ext i j
    fin_cases i <;> fin_cases j
    · simp [Matrix.mul_apply, Matrix.vecMul, dotProduct, Fin.sum_univ_two]
    · simp [Matrix.mul_apply, Matrix.vecMul, dotProduct, Fin.sum_univ_two]
    · simp [Matrix.mul_apply, Matrix.vecMul, dotProduct, Fin.sum_univ_two]
    · simp [Matrix.mul_apply, Matrix.vecMul, dotProduct, Fin.sum_univ_two]
      field_simp
      ring
  have h2 : (⟨![x', y'], !![p', 0; 0, s'], t⟩ : KF ℝ 2).ekfMeasUpdate be c.measModel ![z] none =
      .ok ⟨![x', y' - 2 * s' / (4 * s' + c.measVar) * (z + 2 * y' - c.measMu 0)],
        !![p', 0; 0, s' * c.measVar / (4 * s' + c.measVar)], t⟩ := by
    rw [ekf_eq (Z := c.h *ᵥ ![x', y'] + c.measMu) (H := c.h) (R := c.r) ⟨rfl, rfl, rfl⟩,
      calculateMeasUpdate_ok be _ _ _ _ _ (by rw [hS, one_det]; exact hd.ne')]
    simp only [hk, hc]
    rw [be.toSym_of_symm (by ext i j; fin_cases i <;> fin_cases j <;> rfl)]
    have hz : c.h *ᵥ ![x', y'] + c.measMu = ![-2 * y' + c.measMu 0] := by
      rw [hh]
      ext i
      fin_cases i
      simp [Matrix.mulVec, dotProduct, Fin.sum_univ_two]
      ring
    rw [hz]
    congr 2
    ext i
    fin_cases i
    · simp [Matrix.mulVec, dotProduct]
    · simp [Matrix.mulVec, dotProduct]
      ring
  simp only [KF.update, KF.sysPart]
  rw [h1]
  simp only [Outcome.ok_bind, KF.measPart, KF.measUpdate]
  rw [h2]
  rfl


theorem reading_one (z : Fin 1 → ℝ) : z = ![z 0] := by
  ext i
  fin_cases i
  rfl

theorem variance_bounds {s r : ℝ} (hs : 0 ≤ s) (hr : 0 < r) :
    0 ≤ s * r / (4 * s + r) ∧ s * r / (4 * s + r) ≤ r / 4 := by
  have hd : 0 < 4 * s + r := by positivity
  refine ⟨by positivity, ?_⟩
  rw [div_le_div_iff₀ hd (by norm_num)]
  nlinarith [mul_pos hr hr]

theorem estimate_shape (c : Constants) (be : Backend) (hr : 0 < c.measVar) (hw : c.rico = 0) (hy : 0 ≤ c.sysY)
    (v w : ℝ) (t : Nat) (ds : List ((Fin 3 → ℝ) × (Fin 1 → ℝ))) : ∀ (robot : Robot) (x y p s : ℝ), 0 ≤ s →
    ∃ y' s', c.estimate be ![v, w] ds robot ⟨![x, y], !![p, 0; 0, s], t⟩ =
        .ok ⟨![x + ds.length * (Real.cos c.heading * v + c.sysMu 0), y'],
          !![p + ds.length * c.sysX, 0; 0, s'], t⟩ ∧
      0 ≤ s' ∧ (ds ≠ [] → s' ≤ c.measVar / 4) := by
  induction ds with
  | nil =>
    intro robot x y p s hs
    refine ⟨y, s, ?_, hs, by simp⟩
    simp [Constants.estimate]
  | cons d ds ih =>
    intro robot x y p s hs
    have hb := variance_bounds (add_nonneg hs hy) hr
    simp only [Constants.estimate, measure_eq, Outcome.ok_bind]
    rw [reading_one (ConditionalGaussian.sampleOne _ _ _ _ _).2, linear_step c be hr hw hy v w x y p s _ t hs,
      Outcome.ok_bind]
    obtain ⟨y', s', h1, h2, h3⟩ := ih (robot.move ![v, w] d.1) _ _ (p + c.sysX) _ hb.1
    refine ⟨y', s', h1.trans ?_, h2, fun _ => ?_⟩
    · simp only [Outcome.ok.injEq, KF.mk.injEq, and_true]
      constructor
      · ext i
        fin_cases i
        · simp only [Fin.zero_eta, cons_val_zero, List.length_cons]
          push_cast
          ring
        · rfl
      · ext i j
        fin_cases i <;> fin_cases j
        · simp
          ring
        all_goals rfl
    · by_cases hds : ds = []
      · subst hds
        simp only [Constants.estimate, Outcome.ok.injEq, KF.mk.injEq] at h1
        have := congrFun (congrFun h1.2.1 1) 1
        simp only [of_apply, cons_val', cons_val_one, cons_val_fin_one] at this
        rw [← this]
        exact hb.2
      · exact h3 hds

theorem prior_shape (c : Constants) :
    c.prior = ⟨![c.priorMu 0, c.priorMu 1], !![c.priorX, 0; 0, c.priorY], c.prior.timestep⟩ := by
  have : c.priorMu = ![c.priorMu 0, c.priorMu 1] := by
    ext i
    fin_cases i <;> rfl
  rw [← this]
  rfl

/-- **C116.** The program completes whatever the robot does. Its estimate of `x` is dead reckoning: no reading
has any influence on it, and its variance grows by the same amount in every step. That of `y` never exceeds a
quarter of the variance of a reading. -/
theorem C116_dead_reckoning (c : Constants) (be : Backend) (hr : 0 < c.measVar) (hw : c.rico = 0)
    (hy : 0 ≤ c.sysY) (hp : 0 ≤ c.priorY) (robot : Robot) (v w : ℝ) (ds : List ((Fin 3 → ℝ) × (Fin 1 → ℝ))) :
    ∃ f k, c.program be robot ![v, w] ds = .ok (f, k) ∧
      f.mu 0 = c.priorMu 0 + ds.length * (Real.cos c.heading * v + c.sysMu 0) ∧
      f.sigma 0 0 = c.priorX + ds.length * c.sysX ∧ f.sigma 0 1 = 0 ∧ f.sigma 1 0 = 0 ∧
      0 ≤ f.sigma 1 1 ∧ (ds ≠ [] → f.sigma 1 1 ≤ c.measVar / 4) := by
  obtain ⟨y, s, h1, h2, h3⟩ := estimate_shape c be hr hw hy v w c.prior.timestep ds robot _ _ _ _ hp
  rw [← prior_shape] at h1
  refine ⟨_, _, by simp only [Constants.program, h1, Outcome.ok_bind]; rfl, ?_, ?_, ?_, ?_, ?_, ?_⟩
  · simp
  · simp
  · simp
  · simp
  · simpa using h2
  · simpa using h3

/-- **C116.** The number that the program prints is one more than the number of steps made. -/
theorem C116_printed {c : Constants} {be : Backend} {robot : Robot} {u : Fin 2 → ℝ}
    {ds : List ((Fin 3 → ℝ) × (Fin 1 → ℝ))} {f : KF ℝ 2} {k : Nat}
    (h : c.program be robot u ds = .ok (f, k)) : k = ds.length + 1 := by
  simp only [Constants.program, Outcome.bind_eq_ok, Outcome.pure_eq, Outcome.ok.injEq, Prod.mk.injEq] at h
  obtain ⟨_, _, _, rfl⟩ := h
  rfl

theorem quiet_move (r : Robot) (v θ x y : ℝ) (hm : r.sys.mu = 0) (hs : r.state = ![x, y, θ]) :
    (r.move ![v, 0] 0).state = ![x + Real.cos θ * v, y + Real.sin θ * v, θ] := by
  show (ConditionalGaussian.sampleOne _ _ .default 0 0).2 = _
  rw [conditional_sample _ _ (Or.inl rfl), mulVec_zero, zero_add, hs]
  ext i
  fin_cases i <;> simp [Mobile.expectedValue, Function.update, hm]

/-- Where a robot without noise is after `n` moves. -/
theorem quiet_after (v θ : ℝ) (n : Nat) : ∀ (r : Robot) (x y : ℝ), r.sys.mu = 0 → r.state = ![x, y, θ] →
    (robotAfter r ![v, 0] (List.replicate n (0, 0))).state =
      ![x + n * (Real.cos θ * v), y + n * (Real.sin θ * v), θ] := by
  induction n with
  | zero => intro r x y _ hs; simp [robotAfter, hs]
  | succ n ih =>
    intro r x y hm hs
    rw [List.replicate_succ]
    show (robotAfter (r.move ![v, 0] 0) ![v, 0] (List.replicate n (0, 0))).state = _
    rw [ih (r.move ![v, 0] 0) _ _ hm (quiet_move r v θ x y hm hs)]
    ext i
    fin_cases i
    · simp
      ring
    · simp
      ring
    · rfl

theorem drift_wins {e d p q : ℝ} (hd : d ≠ 0) (hp : 0 ≤ p) (hq : 0 ≤ q) (C : ℝ) :
    ∃ N : Nat, ∀ n : Nat, N ≤ n → C * (p + n * q) < (e + n * d) ^ 2 := by
  have hd' : 0 < |d| := abs_pos.2 hd
  obtain ⟨N, hN⟩ := exists_nat_gt (max 1 (max (2 * |e| / |d|) (4 * |C| * (p + q) / d ^ 2)))
  refine ⟨N, fun n hn => ?_⟩
  have hn' : (N : ℝ) ≤ n := by exact_mod_cast hn
  have h1 : (1 : ℝ) < n := lt_of_lt_of_le (lt_of_le_of_lt (le_max_left _ _) hN) hn'
  have h2 : 2 * |e| / |d| < n :=
    lt_of_lt_of_le (lt_of_le_of_lt ((le_max_left _ _).trans (le_max_right _ _)) hN) hn'
  have h3 : 4 * |C| * (p + q) / d ^ 2 < n :=
    lt_of_lt_of_le (lt_of_le_of_lt ((le_max_right _ _).trans (le_max_right _ _)) hN) hn'
  rw [div_lt_iff₀ hd'] at h2
  rw [div_lt_iff₀ (by positivity)] at h3
  have h4 : (n : ℝ) * |d| / 2 ≤ |e + n * d| := by
    have : |(n : ℝ) * d| ≤ |e + n * d| + |e| := by
      calc |(n : ℝ) * d| = |(e + n * d) - e| := by ring_nf
        _ ≤ _ := abs_sub _ _
    rw [abs_mul, abs_of_pos (by linarith : (0 : ℝ) < n)] at this
    linarith
  have h5 : ((n : ℝ) * |d| / 2) ^ 2 ≤ (e + n * d) ^ 2 := by
    rw [← sq_abs (e + n * d)]
    exact pow_le_pow_left₀ (by positivity) h4 2
  have h6 : C * (p + n * q) ≤ |C| * (n * (p + q)) := by
    have : p + n * q ≤ n * (p + q) := by nlinarith
    calc C * (p + n * q) ≤ |C| * (p + n * q) :=
          mul_le_mul_of_nonneg_right (le_abs_self C) (by positivity)
      _ ≤ _ := mul_le_mul_of_nonneg_left this (abs_nonneg C)
  have h7 : (n : ℝ) * |d| / 2 * ((n : ℝ) * |d| / 2) = n * (n * d ^ 2) / 4 := by
    rw [← sq_abs d]
    ring
  nlinarith [h5, h6, h3, h1, mul_lt_mul_of_pos_left h3 (by linarith : (0 : ℝ) < n)]

/-- **C116 fails for `x`:** when the filter is told another heading than the robot has, the square of the error
exceeds any multiple of the reported variance once the program runs for long enough. The robot drives and
measures without noise. -/
theorem C116_drift (c : Constants) (be : Backend) (hr : 0 < c.measVar) (hw : c.rico = 0) (hx : 0 ≤ c.sysX)
    (hy : 0 ≤ c.sysY) (hpx : 0 ≤ c.priorX) (hp : 0 ≤ c.priorY) (robot : Robot) (v θ x y : ℝ)
    (hm : robot.sys.mu = 0) (hs : robot.state = ![x, y, θ])
    (hne : Real.cos c.heading * v + c.sysMu 0 ≠ Real.cos θ * v) (C : ℝ) :
    ∃ N : Nat, ∀ n : Nat, N ≤ n → ∃ f k,
      c.program be robot ![v, 0] (List.replicate n (0, 0)) = .ok (f, k) ∧
      C * f.sigma 0 0 < (f.mu 0 - (robotAfter robot ![v, 0] (List.replicate n (0, 0))).state 0) ^ 2 := by
  obtain ⟨N, hN⟩ := drift_wins (e := c.priorMu 0 - x) (sub_ne_zero.2 hne) hpx hx C
  refine ⟨N, fun n hn => ?_⟩
  obtain ⟨f, k, h1, h2, h3, -⟩ := C116_dead_reckoning c be hr hw hy hp robot v 0 (List.replicate n (0, 0))
  refine ⟨f, k, h1, ?_⟩
  rw [h2, h3, quiet_after v θ n robot x y hm hs, List.length_replicate]
  have := hN n hn
  refine this.trans_eq ?_
  simp only [cons_val_zero]
  ring

theorem error_step {s r q e b n β ν E : ℝ} (hs : 0 ≤ s) (hr : 0 < r) (hq : 0 < q) (hb : |b| ≤ β) (hn : |n| ≤ ν)
    (hE : |e| ≤ E) (hE' : β * r / (4 * q) + ν / 2 ≤ E) :
    |e + b - 2 * (s + q) / (4 * (s + q) + r) * (n + 2 * (e + b))| ≤ E := by
  have hd : 0 < 4 * (s + q) + r := by positivity
  have hβ : 0 ≤ β := (abs_nonneg b).trans hb
  have e1 : e + b - 2 * (s + q) / (4 * (s + q) + r) * (n + 2 * (e + b)) =
      (r * (e + b) - 2 * (s + q) * n) / (4 * (s + q) + r) := by
    field_simp
    ring
  rw [e1, abs_div, abs_of_pos hd, div_le_iff₀ hd]
  have h1 : |r * (e + b) - 2 * (s + q) * n| ≤ r * (E + β) + 2 * (s + q) * ν := by
    calc _ ≤ |r * (e + b)| + |2 * (s + q) * n| := abs_sub _ _
      _ ≤ _ := by
        rw [abs_mul, abs_mul, abs_of_pos hr, abs_of_nonneg (by positivity : 0 ≤ 2 * (s + q))]
        exact add_le_add (mul_le_mul_of_nonneg_left ((abs_add_le _ _).trans (add_le_add hE hb)) hr.le)
          (mul_le_mul_of_nonneg_left hn (by positivity))
  have h2 : β * r / (4 * q) ≤ E - ν / 2 := by linarith
  rw [div_le_iff₀ (by positivity)] at h2
  have h3 : 0 ≤ E - ν / 2 := by
    have : 0 ≤ β * r / (4 * q) := by positivity
    linarith
  nlinarith [mul_nonneg hs h3]

theorem estimate_error (c : Constants) (be : Backend) (hr : 0 < c.measVar) (hw : c.rico = 0) (hy : 0 < c.sysY)
    (v w β ν E : ℝ) (t : Nat) (hE' : β * c.measVar / (4 * c.sysY) + ν / 2 ≤ E)
    (ds : List ((Fin 3 → ℝ) × (Fin 1 → ℝ))) : ∀ (robot : Robot) (x y p s : ℝ), 0 ≤ s → |y - robot.state 1| ≤ E →
    WithinBounds robot ![v, w] ds (Real.sin c.heading * v + c.sysMu 1) (c.measMu 0) β ν →
    ∃ f, c.estimate be ![v, w] ds robot ⟨![x, y], !![p, 0; 0, s], t⟩ = .ok f ∧
      |f.mu 1 - (robotAfter robot ![v, w] ds).state 1| ≤ E := by
  induction ds with
  | nil =>
    intro robot x y p s hs hE hb
    exact ⟨_, rfl, by simpa [robotAfter] using hE⟩
  | cons d ds ih =>
    intro robot x y p s hs hE hb
    have hv := variance_bounds (add_nonneg hs hy.le) hr
    obtain ⟨h1, z, h2, h3⟩ := hb 0 d rfl
    simp only [zero_add, List.take_succ_cons, List.take_zero, robotAfter, List.foldl_cons,
      List.foldl_nil] at h1 h2 h3
    simp only [Constants.estimate, h2, Outcome.ok_bind]
    rw [linear_step c be hr hw hy.le v w x y p s _ t hs, Outcome.ok_bind]
    refine ih (robot.move ![v, w] d.1) _ _ _ _ hv.1 ?_ ?_
    · have := error_step (b := Real.sin c.heading * v + c.sysMu 1 -
        ((robot.move ![v, w] d.1).state 1 - robot.state 1)) hs hr hy (by rw [abs_sub_comm]; exact h1) h3 hE hE'
      refine le_trans (le_of_eq ?_) this
      congr 1
      ring
    · intro k d' hk
      exact hb (k + 1) d' hk

/-- **C116, the part that holds.** The error of the estimate of `y` stays bounded however long the program runs:
whatever the noise, as long as each move and each reading is within a bound of what the models expect. (Missing:
the same for `x`, see `C116_drift`.) -/
theorem C116_y_bounded_partial (c : Constants) (be : Backend) (hr : 0 < c.measVar) (hw : c.rico = 0)
    (hy : 0 < c.sysY) (hp : 0 ≤ c.priorY) (robot : Robot) (v w β ν : ℝ) (hβ : 0 ≤ β) (hν : 0 ≤ ν)
    (ds : List ((Fin 3 → ℝ) × (Fin 1 → ℝ)))
    (hb : WithinBounds robot ![v, w] ds (Real.sin c.heading * v + c.sysMu 1) (c.measMu 0) β ν) :
    ∃ f k, c.program be robot ![v, w] ds = .ok (f, k) ∧
      |f.mu 1 - (robotAfter robot ![v, w] ds).state 1| ≤
        |c.priorMu 1 - robot.state 1| + β * c.measVar / (4 * c.sysY) + ν / 2 := by
  have hE : 0 ≤ β * c.measVar / (4 * c.sysY) := by positivity
  obtain ⟨f, h1, h2⟩ := estimate_error c be hr hw hy v w β ν
    (|c.priorMu 1 - robot.state 1| + β * c.measVar / (4 * c.sysY) + ν / 2) c.prior.timestep
    (by linarith [abs_nonneg (c.priorMu 1 - robot.state 1)]) ds robot (c.priorMu 0) (c.priorMu 1) c.priorX c.priorY
    hp (by linarith) hb
  rw [← prior_shape] at h1
  exact ⟨f, _, by simp only [Constants.program, h1, Outcome.ok_bind]; rfl, h2⟩

namespace LinearProgramFixture

/-- The constants of the program. -/
noncomputable def cts : Constants where
  heading := 8 / 10
  rico := 0
  sysMu := 0
  sysX := (1 / 100) ^ 2
  sysY := (1 / 100) ^ 2
  measMu := 0
  measVar := (1 / 20) ^ 2
  priorMu := ![-1 / 10, 1 / 10]
  priorX := (1 / 5) ^ 2
  priorY := (1 / 5) ^ 2

/-- The robot of the program. -/
noncomputable def robot : Robot :=
  ⟨0, ⟨0, Matrix.diagonal ![(1 / 1000) ^ 2, (1 / 1000) ^ 2, (Real.pi / 1800) ^ 2]⟩, 0, !![(1 / 20) ^ 2],
    ![0, 0, Real.pi / 4]⟩

theorem headings : Real.cos (8 / 10) ≠ Real.cos (Real.pi / 4) := by
  intro h
  have h1 := Real.injOn_cos (Set.mem_Icc.2 ⟨by norm_num, by linarith [Real.pi_gt_three]⟩)
    (Set.mem_Icc.2 ⟨by positivity, by linarith [Real.pi_pos]⟩) h
  linarith [Real.pi_lt_d2]

end LinearProgramFixture

open LinearProgramFixture in
/-- With the constants of the program, the error in `x` exceeds a hundred reported standard deviations. -/
example : ∃ N : Nat, ∀ n : Nat, N ≤ n → ∃ f k,
    cts.program .eigen robot ![1 / 10, 0] (List.replicate n (0, 0)) = .ok (f, k) ∧
    100 ^ 2 * f.sigma 0 0 < (f.mu 0 - (robotAfter robot ![1 / 10, 0] (List.replicate n (0, 0))).state 0) ^ 2 :=
  C116_drift cts .eigen (by norm_num [cts]) rfl (by norm_num [cts]) (by norm_num [cts]) (by norm_num [cts])
    (by norm_num [cts]) robot (1 / 10) (Real.pi / 4) 0 0 rfl rfl
    (by
      intro h
      have : Real.cos (8 / 10) * (1 / 10) + 0 = Real.cos (Real.pi / 4) * (1 / 10) := h
      exact headings (by linarith)) _

open LinearProgramFixture in
/-- After the 100 steps of the program the reported variance of `x` is 0.05, whatever was read. -/
example (ds : List ((Fin 3 → ℝ) × (Fin 1 → ℝ))) (h : ds.length = 100) : ∃ f k,
    cts.program .eigen robot ![1 / 10, 0] ds = .ok (f, k) ∧ f.sigma 0 0 = 5 / 100 ∧ k = 101 := by
  obtain ⟨f, k, h1, -, h3, -⟩ := C116_dead_reckoning cts .eigen (by norm_num [cts]) rfl (by norm_num [cts])
    (by norm_num [cts]) robot (1 / 10) 0 ds
  exact ⟨f, k, h1, by rw [h3, h]; norm_num [cts], by rw [C116_printed h1, h]⟩

open LinearProgramFixture in
/-- One step without noise. -/
example : ∃ f k, cts.program .eigen robot ![1 / 10, 0] [(0, 0)] = .ok (f, k) ∧
    |f.mu 1 - (robotAfter robot ![1 / 10, 0] [(0, 0)]).state 1| ≤
      |1 / 10 - 0| + |Real.sin (Real.pi / 4) * (1 / 10) - Real.sin (8 / 10) * (1 / 10)| * (1 / 20) ^ 2 /
        (4 * (1 / 100) ^ 2) + 0 / 2 := by
  have hm := quiet_move robot (1 / 10) (Real.pi / 4) 0 0 rfl rfl
  refine C116_y_bounded_partial cts .eigen (by norm_num [cts]) rfl (by norm_num [cts]) (by norm_num [cts]) robot
    (1 / 10) 0 _ 0 (abs_nonneg _) le_rfl _ ?_
  intro k d hk
  match k, hk with
  | 0, hk =>
    simp only [List.getElem?_cons_zero, Option.some.injEq] at hk
    subst hk
    simp only [zero_add, List.take_succ_cons, List.take_zero, robotAfter, List.foldl_cons, List.foldl_nil, hm]
    refine ⟨le_of_eq ?_, _, by rw [measure_eq, ← reading_one], ?_⟩
    · simp [robot, cts]
    · rw [conditional_sample _ _ (Or.inl rfl), mulVec_zero, zero_add, hm]
      simp [robot, Robot.move, wallMatrix, cts, Matrix.mulVec, dotProduct, Fin.sum_univ_three]
      ring
  | k + 1, hk => simp at hk

end BFL.Props
