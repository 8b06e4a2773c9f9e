import Verif.Lemmas.Certain
import Verif.Props.KalmanFamily

/-!
# C97: exact readings and conserved quantities
-/

set_option linter.unusedSectionVars false

namespace BFL.Props

open Matrix Spec

variable {K : Type} [Field K] [LinearOrder K] [IsStrictOrderedRing K] {n m : Nat} {U : Type}

/-- **C97, what is certain stays certain.** Let the value `v` of `a · x` be known for certain. After any history
of `Update` calls that succeeds, with any sensors (linear or not) and with motions that conserve `a · x`, the
estimate still has this value, without uncertainty. -/
theorem C97_kept (be : Backend) (kind : KF.Kind K n) (l : List (KStep K n U)) (f f' : KF K n) (a : Fin n → K)
    (v : K) (hP : f.sigmaᵀ = f.sigma) (hc : Certain a v f)
    (hs : ∀ st ∈ l, ∀ sys u, st.sys = some (sys, u) → Conserves a sys u)
    (hm : ∀ st ∈ l, ∀ meas z s, st.meas = some (meas, z, s) → SymmetricNoise meas s)
    (h : runAll be kind l f = .ok f') : a ⬝ᵥ f'.mu = v ∧ f'.sigma *ᵥ a = 0 := by
  induction l generalizing f with
  | nil =>
    simp only [runAll, Outcome.ok.injEq] at h
    exact h ▸ hc
  | cons st l ih =>
    simp only [runAll, KF.update, Outcome.bind_eq_ok, Outcome.pure_eq, Outcome.ok.injEq] at h
    obtain ⟨r, ⟨f1, h1, f2, h2, rfl⟩, h3⟩ := h
    have c1 : f1.sigmaᵀ = f1.sigma ∧ Certain a v f1 := by
      rcases hst : st.sys with _ | ⟨sys, u⟩
      · rw [hst] at h1
        simp only [KF.sysPart, Outcome.ok.injEq] at h1
        exact h1 ▸ ⟨hP, hc⟩
      · rw [hst] at h1
        exact sysUpdate_certain (hs st (by simp) sys u hst) hP hc h1
    have c2 : f2.sigmaᵀ = f2.sigma ∧ Certain a v f2 := by
      rcases hst : st.meas with _ | ⟨meas, z, s⟩
      · rw [hst] at h2
        simp only [KF.measPart, Outcome.ok.injEq] at h2
        exact h2 ▸ c1
      · rw [hst] at h2
        exact measUpdate_certain (hm st (by simp) meas z s hst) c1.1 c1.2 h2
    exact ih f2 c2.1 c2.2 (fun st' h' => hs st' (by simp [h'])) (fun st' h' => hm st' (by simp [h'])) h3

/-- **C97, exact readings.** A reading of a linear sensor without noise is accepted if the predicted reading is
uncertain in every direction. Afterwards the estimate reproduces the reading, and what the sensor reads is certain. -/
theorem C97_exact (be : Backend) (kind : KF.Kind K n) (hk : kind.Runs) (meas : AnalyticModel K n m U) (s : Option U)
    (z c : Fin m → K) (H : Matrix (Fin m) (Fin n) K) (hl : meas.IsLinear s H c 0) (f : KF K n)
    (hP : f.sigmaᵀ = f.sigma) (hS : (H * f.sigma * Hᵀ).det ≠ 0) :
    ∃ f', f.measUpdate be kind meas z s = .ok f' ∧ H *ᵥ f'.mu + c = z ∧
      ∀ i, Certain (H i) (z i - c i) f' := by
  have hS' : (innovCov f.sigma H 0).det ≠ 0 := by rw [innovCov, add_zero]; exact hS
  have hu : IsUnit (innovCov f.sigma H 0).det := isUnit_iff_ne_zero.2 hS'
  have hHK : H * kgain f.sigma H 0 = 1 := by
    have e : H * f.sigma * Hᵀ = innovCov f.sigma H 0 := by rw [innovCov, add_zero]
    rw [kgain, ← Matrix.mul_assoc, ← Matrix.mul_assoc, e, Matrix.mul_nonsing_inv _ hu]
  have hm : H *ᵥ (kgain f.sigma H 0 *ᵥ (z - (H *ᵥ f.mu + c)) + f.mu) + c = z := by
    rw [mulVec_add, mulVec_mulVec, hHK, one_mulVec]
    abel
  have hH0 : H * kcov f.sigma H 0 = 0 := by
    rw [kcov, Matrix.mul_sub, Matrix.mul_assoc, ← Matrix.mul_assoc H, hHK, Matrix.one_mul, sub_self]
  refine ⟨_, (measUpdate_linear hk hl).trans (calculateMeasUpdate_ok be f z _ H 0 hS'), hm, fun i => ⟨?_, ?_⟩⟩
  · have := congrFun hm i
    rw [Pi.add_apply] at this
    exact eq_sub_of_add_eq this
  · show be.toSym (kcov f.sigma H 0) *ᵥ H i = 0
    have hsy := kcov_symm (H := H) hP (R := 0) transpose_zero
    rw [be.toSym_of_symm hsy, ← hsy, mulVec_transpose]
    have := congrFun hH0 i
    rw [Matrix.mul_apply_eq_vecMul] at this
    exact this

/-- **C97, the same exact sensor again.** This is false in the code: a second reading of the same sensor, although
equal to the first one, is never processed. The innovation covariance is zero and is inverted: division by zero for
one or two measured values and with Eigen, a failed assertion for more values with Boost. -/
theorem C97_again_false (be : Backend) (kind : KF.Kind K n) (hk : kind.Runs) (meas : AnalyticModel K n m U)
    (s : Option U) (z c : Fin m → K) (H : Matrix (Fin m) (Fin n) K) (hl : meas.IsLinear s H c 0) (f : KF K n)
    (hP : f.sigmaᵀ = f.sigma) (hS : (H * f.sigma * Hᵀ).det ≠ 0) (h0 : 0 < m) :
    ∃ f', f.measUpdate be kind meas z s = .ok f' ∧
      (f'.measUpdate be kind meas z s = .ub ∨ f'.measUpdate be kind meas z s = .abort) := by
  obtain ⟨f', h1, _, h3⟩ := C97_exact be kind hk meas s z c H hl f hP hS
  refine ⟨f', h1, ?_⟩
  have e : f'.sigma * Hᵀ = 0 := by
    ext i j
    have := congrFun (h3 j).2 i
    exact this
  have hz : H * (f'.sigma * Hᵀ) + 0 = (0 : Matrix (Fin m) (Fin m) K) := by
    rw [e]; simp
  rw [measUpdate_linear hk hl]
  simp only [KF.calculateMeasUpdate]
  rw [hz]
  have : Nonempty (Fin m) := ⟨⟨0, h0⟩⟩
  rcases be.inverse_singular (0 : Matrix (Fin m) (Fin m) K) Matrix.det_zero with h | h <;>
    rw [h] <;> simp

/-! ### Examples -/

namespace CertainExample

/-- Two tanks, of which the sum of the contents is measured exactly. -/
def start : KF ℚ 2 := ⟨![3, 4], !![2, 0; 0, 1], 0⟩

def total : AnalyticModel ℚ 2 1 Unit := .noInput (fun x => ![x 0 + x 1]) (fun _ => !![1, 1]) (fun _ => 0)

theorem linear : total.IsLinear none !![1, 1] 0 0 := by
  refine fun x => ⟨?_, rfl, rfl⟩
  simp [total, AnalyticModel.predictionGet, dotProduct, Fin.sum_univ_two]

/-- An unknown amount is pumped from one tank into the other. -/
def pump : AnalyticModel ℚ 2 2 Unit :=
  .noInput (fun x => ![x 0 / 2, x 1 + x 0 / 2]) (fun _ => !![1/2, 0; 1/2, 1]) (fun _ => !![1, -1; -1, 1])

theorem conserves : Conserves ![1, 1] pump none := by
  rintro x J F Q ⟨h1, h2, h3⟩
  simp only [pump, AnalyticModel.predictionGet, AnalyticModel.dfGet, AnalyticModel.covGet, Outcome.ok.injEq] at h1 h2 h3
  subst h1 h2 h3
  refine ⟨?_, ?_, ?_, ?_⟩
  · simp [dotProduct, Fin.sum_univ_two]; ring
  · ext i; fin_cases i <;> (simp [Matrix.mulVec, dotProduct, Fin.sum_univ_two]; try norm_num)
  · ext i; fin_cases i <;> simp [Matrix.mulVec, dotProduct, Fin.sum_univ_two]
  · ext i j; fin_cases i <;> fin_cases j <;> rfl

/-- A noisy sensor in the first tank, which is not linear. -/
def level : AnalyticModel ℚ 2 1 Unit := .noInput (fun x => ![x 0 * x 0]) (fun x => !![2 * x 0, 0]) (fun _ => !![1])

end CertainExample

open CertainExample in
/-- The estimate of the total is 10 for ever. -/
example : ∃ f', start.measUpdate .boost .extended total ![10] none = .ok f' ∧
    ∀ f'', runAll .boost .extended [⟨1, some (pump, none), some (level, ![20], none)⟩] f' = .ok f'' →
      ![1, 1] ⬝ᵥ f''.mu = 10 := by
  obtain ⟨f', h1, _, h3⟩ := C97_exact .boost .extended trivial total none ![10] 0 !![1, 1] linear start
    (by ext i j; fin_cases i <;> fin_cases j <;> rfl) (by decide +kernel)
  refine ⟨f', h1, fun f'' h => (C97_kept .boost .extended _ f' f'' ![1, 1] 10 ?_ ?_ ?_ ?_ h).1⟩
  · rw [(calculateMeasUpdate_eq_ok.1 ((measUpdate_linear (kind := .extended) trivial linear).symm.trans h1)).2]
    exact Backend.toSym_symm (K := ℚ) .boost _
  · have := h3 0
    rw [show (!![1, 1] : Matrix (Fin 1) (Fin 2) ℚ) 0 = ![1, 1] from rfl] at this
    simpa using this
  · intro st hst sys u e
    simp only [List.mem_singleton] at hst
    subst hst
    cases e
    exact conserves
  · intro st hst meas z s e x R hR
    simp only [List.mem_singleton] at hst
    subst hst
    cases e
    simp only [level, AnalyticModel.covGet, Outcome.ok.injEq] at hR
    subst hR
    ext i j; fin_cases i; fin_cases j; rfl

open CertainExample in
/-- The run of the previous example succeeds, and the second exact reading does not. -/
example : (∃ f' f'', start.measUpdate .boost .extended total ![10] none = .ok f' ∧
    runAll .boost .extended [⟨1, some (pump, none), some (level, ![20], none)⟩] f' = .ok f'') ∧
    ∃ f', start.measUpdate .boost .extended total ![10] none = .ok f' ∧
      (f'.measUpdate .boost .extended total ![10] none = .ub ∨
        f'.measUpdate .boost .extended total ![10] none = .abort) := by
  refine ⟨?_, C97_again_false .boost .extended trivial total none ![10] 0 !![1, 1] linear start
    (by ext i j; fin_cases i <;> fin_cases j <;> rfl) (by decide +kernel) one_pos⟩
  have h : (match start.measUpdate .boost .extended total ![10] none with
      | .ok f' => match runAll .boost .extended [⟨1, some (pump, none), some (level, ![20], none)⟩] f' with
        | .ok f'' => decide (f''.mu 0 + f''.mu 1 = 10)
        | _ => false
      | _ => false) = true := by decide +kernel
  split at h
  · rename_i f' h1
    split at h
    · rename_i f'' h2
      exact ⟨f', f'', h1, h2⟩
    · simp at h
  · simp at h

end BFL.Props
