import Verif.Lemmas.KalmanOrder
import Verif.Props.LinearWorld
import Verif.Props.Coordinates

set_option linter.unusedSectionVars false

/-!
# C71 and C72: more information never hurts, and pessimistic models are safe

`AtMost A B` compares covariances: no linear combination of the coordinates has a larger variance under
`A` than under `B` (`Verif.Spec.KalmanOrder`).
-/

namespace BFL.Props

open Matrix MeasureTheory Spec Moment

section order

variable {K : Type} [Field K] [LinearOrder K] [IsStrictOrderedRing K] {n m : Nat} {U : Type}

/-- C71. A filter that starts with at most the uncertainty of another, gets everything the other gets
with at most its noise, and perhaps further measurements in between, never reports more uncertainty.
The back ends, the kinds of filter and what the sensors read may differ. -/
theorem C71_more (be be' : Backend) (kind kind' : KF.Kind K n) (hk : kind.Runs) (hk' : kind'.Runs)
    (as bs : List (KStep K n U)) (h : ToldMore as bs) (f g : KF K n) (hf : PSD f.sigma)
    (hle : AtMost f.sigma g.sigma) :
    ∃ f' g', runAll be kind as f = .ok f' ∧ runAll be' kind' bs g = .ok g' ∧ PSD f'.sigma ∧
      AtMost f'.sigma g'.sigma :=
  run_order hk hk' h hf hle

/-- C71. With linear models the reported covariance does not depend on what the sensors read, on the
prior mean, on the back end or on the kind of filter: it can be computed before any measurement is
made. -/
theorem C71_readings (be be' : Backend) (kind kind' : KF.Kind K n) (hk : kind.Runs)
    (hk' : kind'.Runs) (as bs : List (KStep K n U)) (hl : ∀ a ∈ as, LinearCall a)
    (h : List.Forall₂ (fun a b => ∃ z, b = reread a z) as bs) (f g : KF K n) (hf : PSD f.sigma)
    (hs : g.sigma = f.sigma) :
    ∃ f' g', runAll be kind as f = .ok f' ∧ runAll be' kind' bs g = .ok g' ∧
      f'.sigma = g'.sigma := by
  obtain ⟨h1, h2⟩ := told_same hl h
  obtain ⟨f1, g1, e1, e1', _, l1⟩ := run_order (be := be) (be' := be') hk hk' h1 (f := f) (g := g) hf
    (by rw [hs]; exact AtMost.refl _)
  obtain ⟨g2, f2, e2, e2', _, l2⟩ := run_order (be := be') (be' := be) hk' hk h2 (f := g) (g := f)
    (by rw [hs]; exact hf) (by rw [hs]; exact AtMost.refl _)
  rw [e1] at e2'; rw [e1'] at e2
  cases e2'; cases e2
  exact ⟨f1, g1, e1, e1', l1.antisymm l2⟩

end order

namespace Order

open KFixture

/-- Predict and measure with noise `1`, and one more measurement at the end. -/
def rich : List (KStep ℚ 2 Unit) :=
  [⟨1, some (sys, none), some (meas, ![3], none)⟩, ⟨1, none, some (meas, ![5], none)⟩]

/-- A worse sensor of the same kind, with noise `2`. -/
def worse : AnalyticModel ℚ 2 1 Unit := .noInput (fun x => H *ᵥ x) (fun _ => H) (fun _ => !![2])

def poor : List (KStep ℚ 2 Unit) := [⟨1, some (sys, none), some (worse, ![0], none)⟩]

theorem worse_linear : worse.IsLinear none H 0 !![2] := fun x => ⟨by
  simp [worse, AnalyticModel.predictionGet], rfl, rfl⟩

theorem r_le : AtMost R (!![2] : Matrix (Fin 1) (Fin 1) ℚ) := by
  have : (!![2] : Matrix (Fin 1) (Fin 1) ℚ) - R = R := by
    ext i j; fin_cases i; fin_cases j; norm_num [R]
  rw [AtMost, this]
  exact R_pd.psd

theorem told : ToldMore rich poor :=
  .step (.both sys_linear sys_linear Q_psd (AtMost.refl _)) (.both meas_linear worse_linear R_pd r_le)
    (.extra rfl (.extra meas_linear R_pd) .nil)

theorem linear : ∀ a ∈ rich, LinearCall a := by
  intro a ha
  simp only [rich, List.mem_cons, List.not_mem_nil, or_false] at ha
  rcases ha with rfl | rfl
  · refine ⟨fun sy u h => ?_, fun me z s h => ?_⟩
    · cases h; exact ⟨_, _, _, sys_linear, Q_psd⟩
    · cases h; exact ⟨_, _, _, meas_linear, R_pd⟩
  · refine ⟨fun sy u h => ?_, fun me z s h => ?_⟩
    · cases h
    · cases h; exact ⟨_, _, _, meas_linear, R_pd⟩

end Order

example : ∃ f' g', runAll .boost .extended Order.rich KFixture.start = .ok f' ∧
    runAll .eigen (.iterated 2 none) Order.poor KFixture.start = .ok g' ∧ PSD f'.sigma ∧
    AtMost f'.sigma g'.sigma :=
  C71_more .boost .eigen .extended (.iterated 2 none) trivial (by simp [KF.Kind.Runs]) _ _ Order.told _ _ KFixture.P_pd.psd
    (AtMost.refl _)

example : ∃ f' g', runAll .boost .extended Order.rich KFixture.start = .ok f' ∧
    runAll .eigen (.iterated 2 none)
      [⟨1, some (KFixture.sys, none), some (KFixture.meas, ![-7], none)⟩,
        ⟨1, none, some (KFixture.meas, ![0], none)⟩] KFixture.start = .ok g' ∧
    f'.sigma = g'.sigma :=
  C71_readings .boost .eigen .extended (.iterated 2 none) trivial (by simp [KF.Kind.Runs]) _ _ Order.linear
    (.cons ⟨![-7], rfl⟩ (.cons ⟨![0], rfl⟩ .nil)) _ _ KFixture.P_pd.psd rfl

/-- C71, the boundary: with the sensor `x²` the reported covariance of the extended filter does depend
on what the sensor reads. -/
theorem C71_nonlinear (be : Backend) :
    ∃ (meas : AnalyticModel ℚ 1 1 Unit) (f : KF ℚ 1), PD f.sigma ∧
      (∀ x, ∃ Z H R, meas.Evaluates none x Z H R ∧ PD R) ∧
      ∃ f' g', runAll be .extended [⟨1, none, some (meas, ![1], none)⟩, ⟨1, none, some (meas, ![1], none)⟩]
          f = .ok f' ∧
        runAll be .extended [⟨1, none, some (meas, ![-(3 / 2)], none)⟩, ⟨1, none, some (meas, ![1], none)⟩]
          f = .ok g' ∧
        f'.sigma ≠ g'.sigma ∧ f'.sigma 0 0 = 1 / 9 ∧ g'.sigma 0 0 = 1 / 5 := by
  refine ⟨UnitsFixture.square, UnitsFixture.start, UnitsFixture.pd 1 one_pos,
    fun x => ⟨_, _, _, UnitsFixture.ev x, UnitsFixture.pd 1 one_pos⟩, ?_⟩
  have step : ∀ (a p z : ℚ), (2 * a) * p * (2 * a) + 1 ≠ 0 →
      (⟨![a], !![p], 0⟩ : KF ℚ 1).update be .extended none (some (UnitsFixture.square, ![z], none))
        = .ok (true, ⟨![p * (2 * a) * ((2 * a) * p * (2 * a) + 1)⁻¹ * (z - a * a) + a],
            !![p - p * (2 * a) * ((2 * a) * p * (2 * a) + 1)⁻¹ * (2 * a) * p], 0⟩) := by
    intro a p z h
    simp only [KF.update, KF.sysPart, KF.measPart, KF.measUpdate, Outcome.ok_bind]
    rw [ekf_eq (UnitsFixture.ev _)]
    simp only [Matrix.cons_val_zero]
    rw [one_calc be h]
    rfl
  have s1 := step 1 1 1 (by norm_num)
  have s1' := step 1 1 (-(3 / 2)) (by norm_num)
  norm_num at s1 s1'
  have s2 := step 1 (1/5) 1 (by norm_num)
  have s2' := step 0 (1/5) 1 (by norm_num)
  norm_num at s2 s2'
  refine ⟨⟨![1], !![1/9], 0⟩, ⟨![0], !![1/5], 0⟩, ?_, ?_, ?_, rfl, rfl⟩
  · simp only [runAll, UnitsFixture.start]
    rw [s1]; simp only [Outcome.ok_bind]; rw [s2]; rfl
  · simp only [runAll, UnitsFixture.start]
    rw [s1']; simp only [Outcome.ok_bind]; rw [s2']; rfl
  · intro h
    have := congrFun (congrFun h 0) 0
    norm_num at this

section pessimism

variable {Ω : Type} [MeasurableSpace Ω] {n m : Nat} {U : Type}

/-- C72. A filter that is told the right matrices, and noise covariances and a prior covariance that are
at least the true ones, never reports less than the true second moment of its error. -/
theorem C72_safe (μ : Measure Ω) [IsProbabilityMeasure μ] (be : Backend) (kind : KF.Kind ℝ n)
    (hk : kind.Runs) (es : List (Event Ω n U)) (X : Ω → Fin n → ℝ) (f : KF ℝ n)
    (hp : PriorAtLeast μ X f) (ht : ∀ e ∈ es, ToldAtLeast μ e) (hu : Uncorrelated μ X f es) :
    ∃ f' : Ω → KF ℝ n, (∀ ω, runAll be kind (calls es X ω) f = .ok (f' ω)) ∧
      Square μ (fun ω => lastState es X ω - (f' ω).mu) ∧
      ∀ ω, AtMost (moment μ (fun ω => lastState es X ω - (f' ω).mu)
        (fun ω => lastState es X ω - (f' ω).mu)) (f' ω).sigma := by
  obtain ⟨f', P', h1, h2⟩ := run_bounds (f := fun _ => f) be hk es ⟨fun _ => rfl, hp.1, hp.2⟩ ht
    (fun e he => ⟨ToldAtLeast.square (ht e he), hu.1 e he⟩) hu.2
  exact ⟨f', h1, h2.square, fun ω => by rw [h2.sigma ω]; exact h2.bound⟩

end pessimism

namespace Coins

/-- A sensor whose noise is said to be `r` although it is `1`. -/
def claimed (r : ℝ) : AnalyticModel ℝ 1 1 Unit := .noInput (fun x => x) (fun _ => !![1]) (fun _ => !![r])

def claim (r : ℝ) : Event (Bool × Bool) 1 Unit :=
  .read 1 (claimed r) none !![1] 0 !![r] fun ω => ![sign ω.2]

theorem claimed_linear (r : ℝ) : (claimed r).IsLinear none !![1] 0 !![r] := by
  refine fun x => ⟨?_, rfl, rfl⟩
  simp [claimed, AnalyticModel.predictionGet]
  ext i; fin_cases i; simp; rfl

theorem pos_pd {r : ℝ} (h : 0 < r) : PD (!![r] : Matrix (Fin 1) (Fin 1) ℝ) := by
  refine ⟨by ext i j; fin_cases i; fin_cases j; rfl, fun x hx => ?_⟩
  have h0 : x 0 ≠ 0 := by
    intro h; apply hx; ext i; fin_cases i; exact h
  have := mul_pos h (mul_self_pos.mpr h0)
  have e : x ⬝ᵥ ((!![r] : Matrix (Fin 1) (Fin 1) ℝ) *ᵥ x) = r * (x 0 * x 0) := by
    simp [dotProduct, mulVec]; ring
  rw [e]; exact this

theorem claim_uncorrelated (r : ℝ) : Uncorrelated law state start [claim r] := by
  refine ⟨fun e he => ?_, by simp⟩
  simp only [List.mem_singleton] at he
  subst he
  ext i j
  have hj : j = (0 : Fin 1) := Subsingleton.elim (α := Fin 1) _ _
  subst hj
  fin_cases i
  simp only [moment, integral_eq]
  simp [state, start, KF.make, sign, claim, Event.noise]
  rfl

theorem claim_safe {r : ℝ} (h : 1 ≤ r) : ToldAtLeast law (claim r) := by
  obtain ⟨_, _, _, hm, _⟩ := told
  refine ⟨claimed_linear r, square _, ?_, pos_pd (by linarith)⟩
  rw [hm, AtMost]
  have : (!![r] : Matrix (Fin 1) (Fin 1) ℝ) - !![1] = !![r - 1] := by
    ext i j; fin_cases i; fin_cases j; rfl
  rw [this]
  rcases h.eq_or_lt with h | h
  · subst h
    refine ⟨by ext i j; fin_cases i; fin_cases j; rfl, fun x => ?_⟩
    simp [dotProduct, mulVec]
  · exact (pos_pd (by linarith)).psd

/-- The run with one claimed reading. -/
theorem claim_run (be : Backend) {r : ℝ} (h : 0 < r) (ω : Bool × Bool) :
    runAll be .extended (calls [claim r] state ω) start
      = .ok ⟨![(1 + r)⁻¹ * (sign ω.1 + sign ω.2)], !![1 - (1 + r)⁻¹], 0⟩ := by
  have hne : (1 : ℝ) * 1 * 1 + r ≠ 0 := ne_of_gt (by linarith)
  simp only [calls, runAll, claim, Event.call, KF.update, KF.sysPart, KF.measPart, KF.measUpdate,
    Outcome.ok_bind, start, KF.make]
  rw [ekf_eq (claimed_linear r _)]
  have e1 : (!![1] : Matrix (Fin 1) (Fin 1) ℝ) *ᵥ state ω + 0 + ![sign ω.2]
      = ![sign ω.1 + sign ω.2] := by
    ext i; fin_cases i; simp [state, vecHead]
  have e2 : (!![1] : Matrix (Fin 1) (Fin 1) ℝ) *ᵥ ![0] + 0 = ![0] := by
    ext i; fin_cases i; simp
  rw [e1, e2, one_calc be hne]
  simp

end Coins

/-- The noise of the sensor is said to be four times the true one. -/
example : ∃ f' : Bool × Bool → KF ℝ 1,
    (∀ ω, runAll .boost .extended (calls [Coins.claim 4] Coins.state ω) Coins.start = .ok (f' ω)) ∧
    ∀ ω, AtMost (moment Coins.law (fun ω => Coins.state ω - (f' ω).mu)
      (fun ω => Coins.state ω - (f' ω).mu)) (f' ω).sigma := by
  obtain ⟨f', h1, _, h3⟩ := C72_safe Coins.law .boost .extended trivial [Coins.claim 4] Coins.state
    Coins.start ⟨Coins.prior.1, by rw [Coins.prior.2.2]; exact AtMost.refl _⟩
    (by simpa using Coins.claim_safe (by norm_num)) (Coins.claim_uncorrelated 4)
  exact ⟨f', h1, h3⟩

/-- C72, the boundary: every claimed sensor noise below the true one makes the filter report less than
its true error, although the prior and the matrices are right. -/
theorem C72_optimistic (be : Backend) (r : ℝ) (h0 : 0 < r) (h1 : r < 1) :
    ∃ f' : Bool × Bool → KF ℝ 1,
      (∀ ω, runAll be .extended (calls [Coins.claim r] Coins.state ω) Coins.start = .ok (f' ω)) ∧
      ∀ ω, (f' ω).sigma 0 0 < moment Coins.law (fun ω => Coins.state ω - (f' ω).mu)
        (fun ω => Coins.state ω - (f' ω).mu) 0 0 := by
  refine ⟨_, Coins.claim_run be h0, fun ω => ?_⟩
  simp only [moment, Matrix.of_apply, Coins.integral_eq]
  simp [Coins.state, Coins.sign]
  have hp : (0 : ℝ) < 1 + r := by linarith
  have hm : (1 + r) * (1 + r)⁻¹ = 1 := mul_inv_cancel₀ hp.ne'
  obtain ⟨t, ht⟩ : ∃ t, t = (1 + r)⁻¹ := ⟨_, rfl⟩
  rw [← ht] at hm ⊢
  have htp : 0 < t := by rw [ht]; exact inv_pos.mpr hp
  have : 1 < 2 * t := by nlinarith
  nlinarith

end BFL.Props
