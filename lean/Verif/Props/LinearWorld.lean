import Verif.Lemmas.LinearWorld
import Verif.Props.KalmanFamily
import Mathlib.Probability.ProbabilityMassFunction.Integrals
import Mathlib.Probability.Distributions.Uniform

set_option linter.unusedSectionVars false

/-!
# C64 and C65: what the reported covariance and the normalised innovation mean

A state moves linearly with noise and is read by linear sensors with noise (`Verif.Spec.LinearWorld`).
For every outcome `ω` of the world the filter is run on what the sensors read in `ω`.
-/

namespace BFL.Props

open Matrix MeasureTheory Spec Moment

variable {Ω : Type} [MeasurableSpace Ω] {n m : Nat} {U : Type}

/-- C64. The estimate is unbiased, and the covariance the filter reports (which is the same for
every `ω`) is the true second moment of its error, after any history. Only second moments matter:
no noise has to be Gaussian. -/
theorem C64_error (μ : Measure Ω) [IsProbabilityMeasure μ] (be : Backend) (kind : KF.Kind ℝ n)
    (hk : kind.Runs) (es : List (Event Ω n U)) (X : Ω → Fin n → ℝ) (f : KF ℝ n)
    (hp : PriorRight μ X f) (ht : ∀ e ∈ es, e.Told μ) (hu : Uncorrelated μ X f es) :
    ∃ f' : Ω → KF ℝ n, (∀ ω, runAll be kind (calls es X ω) f = .ok (f' ω)) ∧
      Centred μ (fun ω => lastState es X ω - (f' ω).mu) ∧
      ∀ ω, (f' ω).sigma = moment μ (fun ω => lastState es X ω - (f' ω).mu)
        (fun ω => lastState es X ω - (f' ω).mu) := by
  obtain ⟨f', P', h1, h2, _⟩ := run_tracks be hk es (tracks_start hp.1 hp.2.1 hp.2.2) ht
    (fun e he => fresh_start (Told.square (ht e he)) (Told.centred (ht e he)) (hu.1 e he)) hu.2
  exact ⟨f', h1, centred_iff.2 (h2.orth _ h2.one), fun ω => (h2.sigma ω).trans h2.moment.symm⟩

/-- C64. No linear formula does better. The filter's estimate is itself linear in the readings (plus
a constant), and every other such estimate `Y` has a second moment of the error that is larger by the
second moment of its difference from the filter's estimate. -/
theorem C64_best (μ : Measure Ω) [IsProbabilityMeasure μ] (be : Backend) (kind : KF.Kind ℝ n)
    (hk : kind.Runs) (es : List (Event Ω n U)) (X : Ω → Fin n → ℝ) (f : KF ℝ n)
    (hp : PriorRight μ X f) (ht : ∀ e ∈ es, e.Told μ) (hu : Uncorrelated μ X f es) :
    ∃ f' : Ω → KF ℝ n, (∀ ω, runAll be kind (calls es X ω) f = .ok (f' ω)) ∧
      AffineIn (readings es X) (fun ω => (f' ω).mu) ∧
      ∀ Y : Ω → Fin n → ℝ, AffineIn (readings es X) Y →
        ∀ ω, PSD (moment μ (fun ω => lastState es X ω - Y ω) (fun ω => lastState es X ω - Y ω)
            - (f' ω).sigma) ∧
          moment μ (fun ω => lastState es X ω - Y ω) (fun ω => lastState es X ω - Y ω)
            - (f' ω).sigma
            = moment μ (fun ω => (f' ω).mu - Y ω) (fun ω => (f' ω).mu - Y ω) := by
  obtain ⟨f', P', h1, h2, _⟩ := run_tracks be hk es (tracks_start hp.1 hp.2.1 hp.2.2) ht
    (fun e he => fresh_start (Told.square (ht e he)) (Told.centred (ht e he)) (hu.1 e he)) hu.2
  rw [Set.singleton_union] at h2
  refine ⟨f', h1, h2.inside, fun Y hY ω => ?_⟩
  obtain ⟨hs, e⟩ := pythagoras h2 hY
  rw [e, h2.sigma ω, add_sub_cancel_left]
  exact ⟨Moment.psd hs, rfl⟩

/-- C65. The normalised innovation squared of the next reading, computed with `NisGet` after any
history, is on average the number of measured values: a running mean of `NisGet` can be compared
with the dimension of the measurement. -/
theorem C65_mean (μ : Measure Ω) [IsProbabilityMeasure μ] (be : Backend) (kind : KF.Kind ℝ n)
    (hk : kind.Runs) (es : List (Event Ω n U)) (X : Ω → Fin n → ℝ) (f : KF ℝ n)
    (hp : PriorRight μ X f) (model : AnalyticModel ℝ n m U) (H : Matrix (Fin m) (Fin n) ℝ)
    (c : Fin m → ℝ) (R : Matrix (Fin m) (Fin m) ℝ) (v : Ω → Fin m → ℝ)
    (ht : ∀ e ∈ es ++ [.read m model none H c R v], e.Told μ)
    (hu : Uncorrelated μ X f (es ++ [.read m model none H c R v])) :
    ∃ (f' : Ω → KF ℝ n) (nis : Ω → ℝ), (∀ ω, runAll be kind (calls es X ω) f = .ok (f' ω)) ∧
      (∀ ω, (f' ω).nisGet be model (H *ᵥ lastState es X ω + c + v ω) = .ok (nis ω, f' ω)) ∧
      ∫ ω, nis ω ∂μ = m := by
  have hpw := List.pairwise_append.1 hu.2
  have htr := ht (.read m model none H c R v) (by simp)
  obtain ⟨f', P', h1, h2, h3⟩ := run_tracks be hk es (tracks_start hp.1 hp.2.1 hp.2.2)
    (fun e he => ht e (by simp [he]))
    (fun e he => fresh_start (Told.square (ht e (by simp [he]))) (Told.centred (ht e (by simp [he])))
      (hu.1 e (by simp [he]))) hpw.1
  have hv : Fresh μ ({fun _ => 1} ∪ readings es X) (lastState es X) f' v :=
    h3 (fresh_start (Told.square htr) (Told.centred htr) (hu.1 (.read m model none H c R v) (by simp)))
      fun e he => hpw.2.2 e he (.read m model none H c R v) (by simp)
  obtain ⟨hl, _, _, hR, hpd⟩ := htr
  have hP : PSD P' := by rw [← h2.moment]; exact Moment.psd h2.square
  have hS := innovCov_pd (H := H) hP hpd
  have einn : ∀ ω, H *ᵥ lastState es X ω + c + v ω - (H *ᵥ (f' ω).mu + c)
      = H *ᵥ (lastState es X ω - (f' ω).mu) + v ω := by
    intro ω; rw [Matrix.mulVec_sub]; abel
  refine ⟨f', fun ω => quad (innovCov P' H R)⁻¹ (H *ᵥ (lastState es X ω - (f' ω).mu) + v ω), h1,
    fun ω => ?_, ?_⟩
  · simp only [KF.nisGet]
    rw [(hl (f' ω).mu).1, (hl (f' ω).mu).2.1, (hl (f' ω).mu).2.2]
    refine (calculateNis_ok be (f' ω) _ _ H R (by rw [h2.sigma ω]; exact hS.det_ne)).trans ?_
    rw [einn, h2.sigma ω]
  · have hHE := square_mulVec H h2.square
    have hinn := square_add hHE hv.square
    rw [expected_quad _ hinn]
    have e : moment μ (fun ω => H *ᵥ (lastState es X ω - (f' ω).mu) + v ω)
        (fun ω => H *ᵥ (lastState es X ω - (f' ω).mu) + v ω) = innovCov P' H R := by
      rw [add_left hHE hv.square hinn, add_right hHE hv.square hHE, add_right hHE hv.square hv.square,
        mulVec_left H h2.square hHE, mulVec_left H h2.square hv.square,
        mulVec_right H h2.square h2.square, mulVec_right H h2.square hv.square, h2.moment, hv.error,
        hR, swap _ v, hv.error, innovCov]
      simp [Matrix.mul_assoc]
    rw [e, Matrix.nonsing_inv_mul _ (isUnit_iff_ne_zero.2 hS.det_ne), Matrix.trace_one,
      Fintype.card_fin]

/-! Two coins: the state is `1` or `-1`, and so is the noise of the sensor. The filter then reports a
variance of one half. -/

namespace Coins

noncomputable def law : Measure (Bool × Bool) := (PMF.uniformOfFintype (Bool × Bool)).toMeasure

noncomputable instance : IsProbabilityMeasure law := by unfold law; infer_instance

def sign (b : Bool) : ℝ := if b then 1 else -1

def state (ω : Bool × Bool) : Fin 1 → ℝ := ![sign ω.1]

def model : AnalyticModel ℝ 1 1 Unit := .noInput (fun x => x) (fun _ => !![1]) (fun _ => !![1])

def reading : Event (Bool × Bool) 1 Unit := .read 1 model none !![1] 0 !![1] fun ω => ![sign ω.2]

noncomputable def start : KF ℝ 1 := KF.make ![0] !![1]

theorem integral_eq (g : Bool × Bool → ℝ) :
    ∫ ω, g ω ∂law = (g (true, true) + g (true, false) + g (false, true) + g (false, false)) / 4 := by
  rw [law, PMF.integral_eq_sum]
  simp [Fintype.sum_prod_type]
  ring

theorem square (X : Bool × Bool → Fin 1 → ℝ) : Square law X := fun _ => MemLp.of_discrete

theorem prior : PriorRight law state start := by
  refine ⟨square _, fun i => ?_, ?_⟩
  · rw [integral_eq]
    fin_cases i
    simp [state, start, KF.make, sign]
  · ext i j
    fin_cases i; fin_cases j
    simp only [moment, Matrix.of_apply, integral_eq]
    simp [state, start, KF.make, sign]
    norm_num

theorem told : reading.Told law := by
  refine ⟨fun x => ⟨?_, rfl, rfl⟩, square _, fun i => ?_, ?_, ?_⟩
  · simp [model, AnalyticModel.predictionGet]
    ext i; fin_cases i; simp; rfl
  · rw [integral_eq]
    fin_cases i
    simp [sign]
  · ext i j
    fin_cases i; fin_cases j
    simp only [moment, Matrix.of_apply, integral_eq]
    simp [sign]
    norm_num
  · refine ⟨by ext i j; fin_cases i; fin_cases j; rfl, fun x hx => ?_⟩
    have h0 : x 0 ≠ 0 := by
      intro h; apply hx; ext i; fin_cases i; exact h
    have := mul_self_pos.mpr h0
    simpa [dotProduct, mulVec] using h0

theorem uncorrelated : Uncorrelated law state start [reading] := by
  refine ⟨fun e he => ?_, by simp⟩
  simp only [List.mem_singleton] at he
  subst he
  ext i j
  have hj : j = (0 : Fin 1) := Subsingleton.elim (α := Fin 1) _ _
  subst hj
  fin_cases i
  simp only [moment, integral_eq]
  simp [state, start, KF.make, sign, reading, Event.noise]
  rfl

end Coins

example : ∃ f' : Bool × Bool → KF ℝ 1,
    (∀ ω, runAll .boost .extended (calls [Coins.reading] Coins.state ω) Coins.start = .ok (f' ω)) ∧
    ∀ ω, (f' ω).sigma 0 0 = ∫ ω, (Coins.state ω 0 - (f' ω).mu 0) * (Coins.state ω 0 - (f' ω).mu 0)
      ∂Coins.law := by
  obtain ⟨f', h1, _, h3⟩ := C64_error Coins.law .boost .extended trivial [Coins.reading] Coins.state
    Coins.start Coins.prior (by simpa using Coins.told) Coins.uncorrelated
  exact ⟨f', h1, fun ω => congrFun (congrFun (h3 ω) 0) 0⟩

/-- The reading itself is a linear estimate, and it is not better. -/
example : ∃ f' : Bool × Bool → KF ℝ 1,
    (∀ ω, runAll .eigen (.iterated 2 none) (calls [Coins.reading] Coins.state ω) Coins.start
      = .ok (f' ω)) ∧
    ∀ ω, 0 ≤ moment Coins.law (fun ω => Coins.state ω - (!![1] *ᵥ Coins.state ω + 0 + ![Coins.sign ω.2]))
        (fun ω => Coins.state ω - (!![1] *ᵥ Coins.state ω + 0 + ![Coins.sign ω.2])) 0 0
      - (f' ω).sigma 0 0 := by
  obtain ⟨f', h1, _, h3⟩ := C64_best Coins.law .eigen (.iterated 2 none) (by simp [KF.Kind.Runs])
    [Coins.reading] Coins.state Coins.start Coins.prior (by simpa using Coins.told) Coins.uncorrelated
  refine ⟨f', h1, fun ω => ?_⟩
  have := (h3 (fun ω => !![1] *ᵥ Coins.state ω + 0 + ![Coins.sign ω.2])
    (fun i => Submodule.subset_span (Or.inr (Or.inl ⟨i, rfl⟩))) ω).1.2 ![1]
  simpa [dotProduct, mulVec, lastState, Coins.reading, Event.next] using this

example : ∃ (f' : Bool × Bool → KF ℝ 1) (nis : Bool × Bool → ℝ),
    (∀ ω, (f' ω).nisGet .boost Coins.model (!![1] *ᵥ Coins.state ω + 0 + ![Coins.sign ω.2])
      = .ok (nis ω, f' ω)) ∧ ∫ ω, nis ω ∂Coins.law = 1 := by
  obtain ⟨f', nis, _, h2, h3⟩ := C65_mean Coins.law .boost .extended trivial [] Coins.state
    Coins.start Coins.prior Coins.model !![1] 0 !![1] (fun ω => ![Coins.sign ω.2])
    (fun e he => by (rw [List.nil_append, List.mem_singleton] at he; subst he; exact Coins.told)) Coins.uncorrelated
  exact ⟨f', nis, h2, by simpa using h3⟩

end BFL.Props
