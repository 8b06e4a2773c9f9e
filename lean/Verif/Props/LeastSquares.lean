import Verif.Props.PriorMean
import Verif.Props.Kalman
import Verif.Props.ParticleToss
import Mathlib.Probability.StrongLaw
import Mathlib.MeasureTheory.SpecificCodomains.Pi

set_option linter.unusedSectionVars false

/-!
# C80: the Kalman filters compute the least-squares estimate of a constant state, and find it
-/

namespace BFL.Props

open Matrix Spec

section batch

variable {K : Type} [Field K] [LinearOrder K] [IsStrictOrderedRing K] {n : Nat} {U : Type}

/-- One reading of a constant state. -/
theorem reading_step (be : Backend) {kind : KF.Kind K n} (hk : kind.Runs) {r : Reading K n U}
    (hr : r.Right) {f : KF K n} (hf : PD f.sigma) :
    ∃ f' k, f.update be kind r.call.sys r.call.meas = .ok (true, f') ∧ PD f'.sigma ∧
      f'.sigma⁻¹ = f.sigma⁻¹ + r.Hᵀ * r.R⁻¹ * r.H ∧
      f'.sigma⁻¹ *ᵥ f'.mu = f.sigma⁻¹ *ᵥ f.mu + (r.Hᵀ * r.R⁻¹) *ᵥ (r.z - r.c) ∧
      ∀ x, quad f.sigma⁻¹ (x - f.mu) + quad r.R⁻¹ (r.z - (r.H *ᵥ x + r.c))
        = quad f'.sigma⁻¹ (x - f'.mu) + k := by
  obtain ⟨hlin, hR⟩ := hr
  have hS := (innovCov_pd (H := r.H) hf.psd hR).det_ne
  obtain ⟨f', e, hp, hi, hm⟩ := C34_information be r.model r.s r.z _ r.H r.R f (hlin f.mu) hf hR
  have e' : f.measUpdate be kind r.model r.z r.s = .ok f' := by
    rw [measUpdate_linear hk hlin, ← ekf_eq (hlin f.mu)]; exact e
  refine ⟨f', quad (innovCov f.sigma r.H r.R)⁻¹ (r.z - (r.H *ᵥ f.mu + r.c)), ?_, hp, hi, ?_, ?_⟩
  · simp only [Reading.call, KF.update, KF.sysPart, KF.measPart, Outcome.ok_bind]
    rw [e']; rfl
  · rw [hm]; congr 2; abel
  · intro x
    have hc := cost_split hf.1 hR.1 hS hR.det_ne hf.det_ne f.mu x r.z (r.H *ᵥ f.mu + r.c)
    rw [ekf_eq (hlin f.mu), calc_valid hf.psd hR] at e
    cases e
    rw [← hc, cost]
    congr 3
    rw [mulVec_sub]; abel

theorem readings_run (be : Backend) {kind : KF.Kind K n} (hk : kind.Runs) {rs : List (Reading K n U)}
    (hr : ∀ r ∈ rs, r.Right) : ∀ {f : KF K n}, PD f.sigma →
    ∃ f' k, runAll be kind (rs.map Reading.call) f = .ok f' ∧ PD f'.sigma ∧
      f'.sigma⁻¹ = f.sigma⁻¹ + (rs.map fun r => r.Hᵀ * r.R⁻¹ * r.H).sum ∧
      f'.sigma⁻¹ *ᵥ f'.mu = f.sigma⁻¹ *ᵥ f.mu + (rs.map fun r => (r.Hᵀ * r.R⁻¹) *ᵥ (r.z - r.c)).sum ∧
      ∀ x, squares f.mu f.sigma rs x = quad f'.sigma⁻¹ (x - f'.mu) + k := by
  induction rs with
  | nil => intro f hf; exact ⟨f, 0, rfl, hf, by simp, by simp, fun x => by simp [squares]⟩
  | cons r rs ih =>
    intro f hf
    obtain ⟨f1, k1, e1, hf1, hi1, hm1, hq1⟩ := reading_step be hk (hr r (by simp)) hf
    obtain ⟨f2, k2, e2, hf2, hi2, hm2, hq2⟩ := ih (fun r h => hr r (by simp [h])) hf1
    refine ⟨f2, k1 + k2, ?_, hf2, ?_, ?_, fun x => ?_⟩
    · simp only [List.map_cons, runAll]
      rw [e1]; exact e2
    · rw [hi2, hi1, List.map_cons, List.sum_cons, add_assoc]
    · rw [hm2, hm1, List.map_cons, List.sum_cons, add_assoc]
    · have h1 := hq1 x
      have h2 := hq2 x
      simp only [squares, List.map_cons, List.sum_cons] at h2 ⊢
      rw [← add_assoc, h1]
      linear_combination h2

/-- C80. After any readings of a state that does not move, the mean is the unique point where the
weighted sum of squares of the prior deviation and of *all* residuals is least, and the inverse of the
reported covariance is the curvature of that sum. -/
theorem C80_leastSquares (be : Backend) (kind : KF.Kind K n) (hk : kind.Runs)
    (rs : List (Reading K n U)) (hr : ∀ r ∈ rs, r.Right) (f : KF K n) (hf : PD f.sigma) :
    ∃ f', runAll be kind (rs.map Reading.call) f = .ok f' ∧ PD f'.sigma ∧
      (∀ x, squares f.mu f.sigma rs x
        = squares f.mu f.sigma rs f'.mu + quad f'.sigma⁻¹ (x - f'.mu)) ∧
      ∀ x, x ≠ f'.mu → squares f.mu f.sigma rs f'.mu < squares f.mu f.sigma rs x := by
  obtain ⟨f', k, e, hp, _, _, hq⟩ := readings_run be hk hr hf
  have h : ∀ x, squares f.mu f.sigma rs x
      = squares f.mu f.sigma rs f'.mu + quad f'.sigma⁻¹ (x - f'.mu) := by
    intro x
    rw [hq x, hq f'.mu, sub_self]
    simp [quad, add_comm]
  refine ⟨f', e, hp, h, fun x hx => ?_⟩
  rw [h x]
  have := hp.inv.2 _ (sub_ne_zero.mpr hx)
  simp only [quad]
  linarith

/-- C80. The order of the readings does not matter. -/
theorem C80_order (be be' : Backend) (kind kind' : KF.Kind K n) (hk : kind.Runs) (hk' : kind'.Runs)
    (rs rs' : List (Reading K n U)) (hp : rs.Perm rs') (hr : ∀ r ∈ rs, r.Right) (f : KF K n)
    (hf : PD f.sigma) :
    ∃ f' g', runAll be kind (rs.map Reading.call) f = .ok f' ∧
      runAll be' kind' (rs'.map Reading.call) f = .ok g' ∧ g'.mu = f'.mu ∧ g'.sigma = f'.sigma := by
  obtain ⟨f', k, e, h1, hi, hm, _⟩ := readings_run be hk hr hf
  obtain ⟨g', k', e', h1', hi', hm', _⟩ :=
    readings_run be' hk' (fun r h => hr r (hp.mem_iff.mpr h)) hf
  have hi2 : g'.sigma⁻¹ = f'.sigma⁻¹ := by rw [hi, hi', (hp.map _).sum_eq]
  have hm2 : g'.sigma⁻¹ *ᵥ g'.mu = f'.sigma⁻¹ *ᵥ f'.mu := by rw [hm, hm', (hp.map _).sum_eq]
  refine ⟨f', g', e, e', ?_, ?_⟩
  · rw [hi2] at hm2
    have := congrArg (fun v => f'.sigma *ᵥ v) hm2
    simpa only [mulVec_mulVec, mul_nonsing_inv _ h1.det_ne.isUnit, one_mulVec] using this
  · have := congrArg (fun M => M⁻¹) hi2
    simpa only [nonsing_inv_nonsing_inv _ h1.det_ne.isUnit,
      nonsing_inv_nonsing_inv _ h1'.det_ne.isUnit] using this

/-- Two readings, of the first coordinate and of the sum. -/
def sumSensor : AnalyticModel ℚ 2 1 Unit :=
  .noInput (fun x => !![1, 1] *ᵥ x) (fun _ => !![1, 1]) (fun _ => KFixture.R)

theorem sumSensor_linear : sumSensor.IsLinear none !![1, 1] 0 KFixture.R := fun x => ⟨by
  simp [sumSensor, AnalyticModel.predictionGet], rfl, rfl⟩

def twoReadings : List (Reading ℚ 2 Unit) :=
  [⟨1, KFixture.meas, none, KFixture.H, 0, KFixture.R, ![4]⟩,
    ⟨1, sumSensor, none, !![1, 1], 0, KFixture.R, ![9]⟩]

theorem twoReadings_right : ∀ r ∈ twoReadings, r.Right := by
  intro r hr
  simp only [twoReadings, List.mem_cons, List.not_mem_nil, or_false] at hr
  rcases hr with rfl | rfl
  · exact ⟨KFixture.meas_linear, KFixture.R_pd⟩
  · exact ⟨sumSensor_linear, KFixture.R_pd⟩

example : ∃ f', runAll .boost (.iterated 2 none) (twoReadings.map Reading.call) KFixture.start = .ok f' ∧
    ∀ x, x ≠ f'.mu → squares KFixture.start.mu KFixture.start.sigma twoReadings f'.mu
      < squares KFixture.start.mu KFixture.start.sigma twoReadings x := by
  obtain ⟨f', h1, _, _, h2⟩ := C80_leastSquares .boost (.iterated 2 none) (by simp [KF.Kind.Runs]) _
    twoReadings_right KFixture.start KFixture.P_pd
  exact ⟨f', h1, h2⟩

example : ∃ f' g', runAll .boost .extended (twoReadings.map Reading.call) KFixture.start = .ok f' ∧
    runAll .eigen .extended (twoReadings.reverse.map Reading.call) KFixture.start = .ok g' ∧
    g'.mu = f'.mu ∧ g'.sigma = f'.sigma :=
  C80_order .boost .eigen .extended .extended trivial trivial _ _ (List.reverse_perm _).symm
    twoReadings_right KFixture.start KFixture.P_pd

end batch

section consistency

open MeasureTheory ProbabilityTheory Filter
open scoped Topology Function

variable {Ω : Type} [MeasurableSpace Ω] {n m : Nat} {U : Type}

/-- The calls with the first `N` readings `z 0, z 1, …` of one sensor. -/
def sameSensor (model : AnalyticModel ℝ n m U) (s : Option U) (z : ℕ → Fin m → ℝ) (N : ℕ) :
    List (KStep ℝ n U) := (List.range N).map fun i => ⟨m, none, some (model, z i, s)⟩

theorem sum_const_add (a : Fin n → ℝ) (G : Matrix (Fin n) (Fin m) ℝ) (v : ℕ → Fin m → ℝ) (N : ℕ) :
    ((List.range N).map fun i => a + G *ᵥ v i).sum = (N : ℝ) • a + G *ᵥ (∑ i ∈ Finset.range N, v i) := by
  induction N with
  | zero => simp
  | succ N ih =>
    rw [List.range_succ, List.map_append, List.sum_append, ih, Finset.sum_range_succ]
    simp only [List.map_cons, List.map_nil, List.sum_cons, List.sum_nil, add_zero, mulVec_add,
      Nat.cast_add, Nat.cast_one, add_smul, one_smul]
    abel

theorem sameSensor_run (be : Backend) {kind : KF.Kind ℝ n} (hk : kind.Runs)
    {model : AnalyticModel ℝ n m U} {s : Option U} {H : Matrix (Fin m) (Fin n) ℝ} {c : Fin m → ℝ}
    {R : Matrix (Fin m) (Fin m) ℝ} (hl : model.IsLinear s H c R) (hR : PD R) {f : KF ℝ n}
    (hf : PD f.sigma) (x : Fin n → ℝ) (v : ℕ → Fin m → ℝ) (N : ℕ) :
    ∃ f', runAll be kind (sameSensor model s (fun i => H *ᵥ x + c + v i) N) f = .ok f' ∧ PD f'.sigma ∧
      f'.sigma⁻¹ = f.sigma⁻¹ + (N : ℝ) • (Hᵀ * R⁻¹ * H) ∧
      f'.sigma⁻¹ *ᵥ (f'.mu - x)
        = f.sigma⁻¹ *ᵥ (f.mu - x) + (Hᵀ * R⁻¹) *ᵥ (∑ i ∈ Finset.range N, v i) := by
  let rs : List (Reading ℝ n U) := (List.range N).map fun i => ⟨m, model, s, H, c, R, H *ᵥ x + c + v i⟩
  have hr : ∀ r ∈ rs, r.Right := by
    intro r hr
    obtain ⟨i, _, rfl⟩ := List.mem_map.mp hr
    exact ⟨hl, hR⟩
  obtain ⟨f', k, e, hp, hi, hm, _⟩ := readings_run be hk hr hf
  have e0 : rs.map Reading.call = sameSensor model s (fun i => H *ᵥ x + c + v i) N := by
    simp only [rs, sameSensor, List.map_map]; rfl
  rw [e0] at e
  have s1 : (rs.map fun r => r.Hᵀ * r.R⁻¹ * r.H).sum = (N : ℝ) • (Hᵀ * R⁻¹ * H) := by
    have : (rs.map fun r => r.Hᵀ * r.R⁻¹ * r.H) = List.replicate N (Hᵀ * R⁻¹ * H) := by
      simp only [rs, List.map_map]
      rw [List.eq_replicate_iff]
      refine ⟨by simp, fun b hb => ?_⟩
      obtain ⟨i, _, rfl⟩ := List.mem_map.mp hb
      rfl
    rw [this, List.sum_replicate, ← Nat.cast_smul_eq_nsmul ℝ]
  have s2 : (rs.map fun r => (r.Hᵀ * r.R⁻¹) *ᵥ (r.z - r.c)).sum
      = (N : ℝ) • (Hᵀ * R⁻¹ * H) *ᵥ x + (Hᵀ * R⁻¹) *ᵥ (∑ i ∈ Finset.range N, v i) := by
    have : (rs.map fun r => (r.Hᵀ * r.R⁻¹) *ᵥ (r.z - r.c))
        = (List.range N).map fun i => (Hᵀ * R⁻¹ * H) *ᵥ x + (Hᵀ * R⁻¹) *ᵥ v i := by
      simp only [rs, List.map_map]
      refine List.map_congr_left fun i _ => ?_
      simp only [Function.comp]
      rw [show H *ᵥ x + c + v i - c = H *ᵥ x + v i by abel, mulVec_add, mulVec_mulVec]
    rw [this]; exact sum_const_add _ _ _ _
  rw [s1] at hi
  rw [s2] at hm
  refine ⟨f', e, hp, hi, ?_⟩
  rw [mulVec_sub, hm, hi, add_mulVec, mulVec_sub, smul_mulVec]
  abel

/-- C80. A state `X` that does not move is read again and again by one sensor whose readings determine it.
The errors of the readings are pairwise independent, have the same distribution and mean zero; the
covariance told to the filter need not be theirs, and the prior mean may be wrong. Then almost surely the
means of the filter converge to `X`, and the reported covariance shrinks like `1 / N`. -/
theorem C80_consistent (be : Backend) (kind : KF.Kind ℝ n) (hk : kind.Runs)
    (model : AnalyticModel ℝ n m U) (s : Option U) (H : Matrix (Fin m) (Fin n) ℝ) (c : Fin m → ℝ)
    (R : Matrix (Fin m) (Fin m) ℝ) (hl : model.IsLinear s H c R) (hR : PD R)
    (hH : ∀ x, H *ᵥ x = 0 → x = 0) (f : KF ℝ n) (hf : PD f.sigma) (μ : Measure Ω) (X : Ω → Fin n → ℝ)
    (V : ℕ → Ω → Fin m → ℝ) (hint : Integrable (V 0) μ) (hindep : Pairwise ((· ⟂ᵢ[μ] ·) on V))
    (hident : ∀ i, IdentDistrib (V i) (V 0) μ μ) (hzero : ∫ ω, V 0 ω ∂μ = 0) :
    ∀ᵐ ω ∂μ, ∃ g : ℕ → KF ℝ n,
      (∀ N, runAll be kind (sameSensor model s (fun i => H *ᵥ X ω + c + V i ω) N) f = .ok (g N)) ∧
      Tendsto (fun N => (g N).mu) atTop (𝓝 (X ω)) ∧
      Tendsto (fun N : ℕ => (N : ℝ) • (g N).sigma) atTop (𝓝 (Hᵀ * R⁻¹ * H)⁻¹) := by
  filter_upwards [strong_law_ae V hint hindep hident] with ω hω
  rw [hzero] at hω
  choose g hg hp hi hm using fun N => sameSensor_run be hk hl hR hf (X ω) (fun i => V i ω) N
  refine ⟨g, hg, ?_⟩
  set M := Hᵀ * R⁻¹ * H with hM
  have hMpd : PD M := by
    refine ⟨?_, fun x hx => ?_⟩
    · have := (hR.inv.psd.congr Hᵀ).1
      rwa [transpose_transpose] at this
    · have h1 := hR.inv.2 (H *ᵥ x) fun h => hx (hH x h)
      have h2 := quad_congr R⁻¹ Hᵀ x
      rw [transpose_transpose] at h2
      simp only [quad] at h2
      rw [hM, h2]; exact h1
  -- the scaled information
  have hinf : Tendsto (fun N : ℕ => (N : ℝ)⁻¹ • (g N).sigma⁻¹) atTop (𝓝 M) := by
    have h1 : Tendsto (fun N : ℕ => (N : ℝ)⁻¹ • f.sigma⁻¹ + M) atTop (𝓝 M) := by
      have : Tendsto (fun N : ℕ => (N : ℝ)⁻¹ • f.sigma⁻¹) atTop (𝓝 ((0 : ℝ) • f.sigma⁻¹)) :=
        (tendsto_inv_atTop_nhds_zero_nat (𝕜 := ℝ)).smul_const _
      rw [zero_smul] at this
      simpa using this.add_const M
    refine h1.congr' ?_
    filter_upwards [eventually_gt_atTop 0] with N hN
    have : (N : ℝ) ≠ 0 := by positivity
    rw [hi, smul_add, smul_smul, inv_mul_cancel₀ this, one_smul]
  have hcov : Tendsto (fun N : ℕ => (N : ℝ) • (g N).sigma) atTop (𝓝 M⁻¹) := by
    have hc : ContinuousAt Inv.inv M := by
      apply continuousAt_matrix_inv
      rw [Ring.inverse_eq_inv']
      exact continuousAt_inv₀ hMpd.det_ne
    refine (hc.tendsto.comp hinf).congr' ?_
    filter_upwards [eventually_gt_atTop 0] with N hN
    have hN : (N : ℝ) ≠ 0 := by positivity
    simp only [Function.comp]
    apply inv_eq_right_inv
    rw [Matrix.smul_mul, Matrix.mul_smul, smul_smul, inv_mul_cancel₀ hN, one_smul,
      nonsing_inv_mul _ (hp N).det_ne.isUnit]
  refine ⟨?_, hcov⟩
  -- the scaled error
  have herr : Tendsto (fun N : ℕ => (N : ℝ)⁻¹ • (f.sigma⁻¹ *ᵥ (f.mu - X ω))
      + (Hᵀ * R⁻¹) *ᵥ ((N : ℝ)⁻¹ • ∑ i ∈ Finset.range N, V i ω)) atTop (𝓝 0) := by
    have h1 : Tendsto (fun N : ℕ => (N : ℝ)⁻¹ • (f.sigma⁻¹ *ᵥ (f.mu - X ω))) atTop (𝓝 0) := by
      have := (tendsto_inv_atTop_nhds_zero_nat (𝕜 := ℝ)).smul_const (f.sigma⁻¹ *ᵥ (f.mu - X ω))
      rwa [zero_smul] at this
    have h2 : Tendsto (fun N : ℕ => (Hᵀ * R⁻¹) *ᵥ ((N : ℝ)⁻¹ • ∑ i ∈ Finset.range N, V i ω)) atTop
        (𝓝 0) := by
      have hc : Continuous fun v : Fin m → ℝ => (Hᵀ * R⁻¹) *ᵥ v := Continuous.matrix_mulVec
        continuous_const continuous_id
      have := (hc.tendsto 0).comp hω
      rwa [mulVec_zero] at this
    simpa using h1.add h2
  have hdiff : Tendsto (fun N => (g N).mu - X ω) atTop (𝓝 0) := by
    have hc : Continuous fun p : Matrix (Fin n) (Fin n) ℝ × (Fin n → ℝ) => p.1 *ᵥ p.2 :=
      Continuous.matrix_mulVec continuous_fst continuous_snd
    have := (hc.tendsto (M⁻¹, 0)).comp (hcov.prodMk_nhds herr)
    simp only [mulVec_zero] at this
    refine this.congr' ?_
    filter_upwards [eventually_gt_atTop 0] with N hN
    have hN : (N : ℝ) ≠ 0 := by positivity
    simp only [Function.comp]
    rw [mulVec_smul, ← smul_add, ← hm, smul_mulVec, mulVec_smul, smul_smul, mul_inv_cancel₀ hN,
      one_smul, mulVec_mulVec, mul_nonsing_inv _ (hp N).det_ne.isUnit, one_mulVec]
  have := hdiff.add_const (X ω)
  simpa using this

/-! The position of a parked car, read with an error of `+1` or `-1` by the throw of a coin, while the
filter is told a variance of `3`. -/

namespace Parked

/-- The sensor as told to the filter. -/
noncomputable def sensor : AnalyticModel ℝ 1 1 Unit :=
  .noInput (fun x => (1 : Matrix (Fin 1) (Fin 1) ℝ) *ᵥ x) (fun _ => 1) (fun _ => !![3])

theorem linear : sensor.IsLinear none 1 0 !![3] := fun x => ⟨by
  simp [sensor, AnalyticModel.predictionGet], rfl, rfl⟩

theorem pd {a : ℝ} (ha : 0 < a) : PD (!![a] : Matrix (Fin 1) (Fin 1) ℝ) := by
  refine ⟨by ext i j; fin_cases i; fin_cases j; rfl, fun x hx => ?_⟩
  have h0 : x 0 ≠ 0 := by
    intro h; apply hx; ext i; fin_cases i; exact h
  have := mul_self_pos.mpr h0
  simp only [dotProduct, mulVec, Fin.sum_univ_one, of_apply, cons_val',
    cons_val_fin_one]
  nlinarith

/-- Infinitely many throws of a fair coin. -/
noncomputable def throws : Measure (ℕ → Bool) := Measure.infinitePi fun _ => Toss.coin

instance : IsProbabilityMeasure throws := by unfold throws; infer_instance

/-- The error of a reading. -/
def err (b : Bool) : Fin 1 → ℝ := ![if b then 1 else -1]

theorem ident (i : ℕ) : IdentDistrib (fun ω : ℕ → Bool => err (ω i)) (fun ω => err (ω 0)) throws throws := by
  have h : IdentDistrib (fun ω : ℕ → Bool => ω i) (fun ω => ω 0) throws throws :=
    ⟨(measurable_pi_apply _).aemeasurable, (measurable_pi_apply _).aemeasurable, by
      unfold throws
      exact (Measure.infinitePi_map_eval (fun _ => Toss.coin) _).trans
        (Measure.infinitePi_map_eval (fun _ => Toss.coin) _).symm⟩
  exact h.comp (u := err) Measurable.of_discrete

theorem indep : Pairwise ((· ⟂ᵢ[throws] ·) on fun (i : ℕ) (ω : ℕ → Bool) => err (ω i)) := by
  have h := iIndepFun_infinitePi (P := fun _ : ℕ => Toss.coin) (X := fun _ => err)
    fun _ => Measurable.of_discrete
  exact fun i j hij => h.indepFun hij

theorem integrable : Integrable (fun ω : ℕ → Bool => err (ω 0)) throws := by
  have h : Integrable err Toss.coin := Integrable.of_finite
  have e : throws.map (fun ω => ω 0) = Toss.coin := Measure.infinitePi_map_eval (fun _ => Toss.coin) 0
  rw [← e] at h
  exact h.comp_measurable (measurable_pi_apply _)

theorem zero : ∫ ω : ℕ → Bool, err (ω 0) ∂throws = 0 := by
  have e : throws.map (fun ω => ω 0) = Toss.coin := Measure.infinitePi_map_eval (fun _ => Toss.coin) 0
  have h := integral_map (μ := throws) (φ := fun ω : ℕ → Bool => ω 0) (f := err)
    (measurable_pi_apply 0).aemeasurable (Measurable.of_discrete.aestronglyMeasurable)
  rw [e] at h
  rw [← h]
  ext i
  have hi : Integrable err Toss.coin := Integrable.of_finite
  rw [eval_integral fun i => Integrable.eval hi i]
  have := (Toss.integral_dist (w := fun _ => 1 / 2) (by intro b; norm_num) fun b => err b i).2
  unfold Toss.coin
  rw [this]
  fin_cases i
  simp [err]

end Parked

/-- The car stands at `5`, the filter first believes in `0` with variance `1`. -/
example : ∀ᵐ ω ∂Parked.throws, ∃ g : ℕ → KF ℝ 1,
    (∀ N, runAll .boost .extended (sameSensor Parked.sensor none
      (fun i => (1 : Matrix (Fin 1) (Fin 1) ℝ) *ᵥ ![5] + 0 + Parked.err (ω i)) N) (KF.make ![0] !![1])
        = .ok (g N)) ∧
    Tendsto (fun N => (g N).mu) atTop (𝓝 ![5]) ∧
    Tendsto (fun N : ℕ => (N : ℝ) • (g N).sigma) atTop (𝓝 (1ᵀ * !![3]⁻¹ * 1)⁻¹) :=
  C80_consistent .boost .extended trivial Parked.sensor none 1 0 !![3] Parked.linear
    (Parked.pd (by norm_num)) (fun x h => by simpa using h) (KF.make ![0] !![1])
    (Parked.pd one_pos) Parked.throws (fun _ => ![5]) (fun i ω => Parked.err (ω i)) Parked.integrable
    Parked.indep Parked.ident Parked.zero

end consistency

end BFL.Props
