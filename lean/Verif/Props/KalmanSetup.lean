import Verif.Lemmas.KalmanRun

set_option linter.unusedSectionVars false

/-! Runs of the Kalman filters, and a two-dimensional fixture for the examples. -/

namespace BFL.Props

open Matrix Spec

variable {K : Type} [Field K] [LinearOrder K] {n : Nat} {U : Type}

/-- One call of `Update`: optionally a system model with its input, optionally a measurement model
with the measurement and the sensor parameter. -/
structure KStep (K : Type) (n : Nat) (U : Type) where
  m : Nat
  sys : Option (AnalyticModel K n n U × Option U)
  meas : Option (AnalyticModel K n m U × (Fin m → K) × Option U)

/-- Any sequence of `Update` calls. -/
def runAll (be : Backend) (kind : KF.Kind K n) : List (KStep K n U) → KF K n → Outcome (KF K n)
  | [], f => .ok f
  | st :: rest, f => do
    let r ← f.update be kind st.sys st.meas
    runAll be kind rest r.2

/-- The models of this step can be evaluated everywhere, with positive semidefinite process noise
and positive definite measurement noise. -/
def KStep.Valid (st : KStep K n U) : Prop :=
  (∀ sys u, st.sys = some (sys, u) → ∀ x, ∃ J F Q, sys.Evaluates u x J F Q ∧ PSD Q) ∧
  (∀ meas z s, st.meas = some (meas, z, s) → ∀ x, ∃ Z H R, meas.Evaluates s x Z H R ∧ PD R)

variable [IsStrictOrderedRing K]

theorem measUpdate_timestep {be : Backend} {kind : KF.Kind K n} {m : Nat}
    {meas : AnalyticModel K n m U} {z : Fin m → K} {s : Option U} {f f' : KF K n}
    (h : f.measUpdate be kind meas z s = .ok f') : f'.timestep = f.timestep := by
  cases kind with
  | extended =>
    obtain ⟨Z, H, R, _, h⟩ := ekf_inv h
    rw [calculateMeasUpdate_eq_ok] at h
    rw [h.2]
  | iterated nr chk =>
    simp only [KF.measUpdate, KF.iekfMeasUpdate, Outcome.bind_eq_ok] at h
    obtain ⟨buf, _, h⟩ := h
    cases buf with
    | none => cases h
    | some b =>
      obtain ⟨Z, H, R⟩ := b
      simp only [KF.iekfFinish] at h
      rw [calculateMeasUpdate_eq_ok] at h
      rw [h.2]

theorem update_timestep {be : Backend} {kind : KF.Kind K n} {m : Nat}
    {sys : Option (AnalyticModel K n n U × Option U)}
    {meas : Option (AnalyticModel K n m U × (Fin m → K) × Option U)} {f : KF K n}
    {r : Bool × KF K n} (h : f.update be kind sys meas = .ok r) : r.2.timestep = f.timestep := by
  simp only [KF.update, Outcome.bind_eq_ok, Outcome.pure_eq, Outcome.ok.injEq] at h
  obtain ⟨f1, h1, f2, h2, rfl⟩ := h
  have e2 : f2.timestep = f1.timestep := by
    rcases meas with _ | ⟨me, z, s⟩
    · simp only [KF.measPart, Outcome.ok.injEq] at h2; rw [h2]
    · exact measUpdate_timestep h2
  have e1 : f1.timestep = f.timestep := by
    rcases sys with _ | ⟨sy, u⟩
    · simp only [KF.sysPart, Outcome.ok.injEq] at h1; rw [h1]
    · simp only [KF.sysPart, KF.sysUpdate, Outcome.bind_eq_ok, Outcome.pure_eq,
        Outcome.ok.injEq] at h1
      obtain ⟨_, _, _, _, _, _, rfl⟩ := h1
      rfl
  exact e2.trans e1

theorem update_valid {be : Backend} {kind : KF.Kind K n} (hk : kind.Runs) {st : KStep K n U}
    (hv : st.Valid) {f : KF K n} (hP : PSD f.sigma) :
    ∃ f', f.update be kind st.sys st.meas = .ok (true, f') ∧ PSD f'.sigma := by
  obtain ⟨m, sys, meas⟩ := st
  have h1 : ∃ f1, f.sysPart be sys = .ok f1 ∧ PSD f1.sigma := by
    rcases sys with _ | ⟨sy, u⟩
    · exact ⟨f, rfl, hP⟩
    · obtain ⟨J, F, Q, he, hQ⟩ := hv.1 sy u rfl f.mu
      have hp := (hP.congr F).add hQ
      refine ⟨_, sysUpdate_eq he, ?_⟩
      simp only
      rw [be.toSym_of_symm hp.1]
      exact hp
  obtain ⟨f1, e1, hP1⟩ := h1
  have h2 : ∃ f2, f1.measPart be kind meas = .ok f2 ∧ PSD f2.sigma := by
    rcases meas with _ | ⟨me, z, s⟩
    · exact ⟨f1, rfl, hP1⟩
    · obtain ⟨xj, h, H, R, he, hR, e⟩ := measUpdate_total (be := be) (z := z) hk hP1
        (hv.2 me z s rfl)
      exact ⟨_, e, kcov_psd hP1 hR⟩
  obtain ⟨f2, e2, hP2⟩ := h2
  refine ⟨f2, ?_, hP2⟩
  simp only [KF.update]
  rw [e1]; simp only [Outcome.ok_bind]; rw [e2]; rfl

/-! Scalar filters, for concrete cases. -/

theorem one_mul_one (a b : K) : (!![a] * !![b] : Matrix (Fin 1) (Fin 1) K) = !![a * b] := by
  ext i j; fin_cases i; fin_cases j; simp [Matrix.mul_apply]

theorem one_mulVec_one (a b : K) : (!![a] : Matrix (Fin 1) (Fin 1) K) *ᵥ ![b] = ![a * b] := by
  ext i; fin_cases i; simp [mulVec, dotProduct]

theorem one_transpose (a : K) : (!![a] : Matrix (Fin 1) (Fin 1) K)ᵀ = !![a] := by
  ext i j; fin_cases i; fin_cases j; rfl

theorem one_innovCov (p h r : K) :
    innovCov (!![p] : Matrix (Fin 1) (Fin 1) K) !![h] !![r] = !![h * p * h + r] := by
  rw [innovCov, one_transpose, one_mul_one, one_mul_one]
  ext i j; fin_cases i; fin_cases j; simp

theorem one_inv {a : K} (h : a ≠ 0) : (!![a] : Matrix (Fin 1) (Fin 1) K)⁻¹ = !![a⁻¹] := by
  apply inv_eq_right_inv
  rw [one_mul_one, mul_inv_cancel₀ h]
  ext i j; fin_cases i; fin_cases j; rfl

theorem one_kgain {p h r : K} (hs : h * p * h + r ≠ 0) :
    kgain (!![p] : Matrix (Fin 1) (Fin 1) K) !![h] !![r] = !![p * h * (h * p * h + r)⁻¹] := by
  rw [kgain, one_innovCov, one_inv hs, one_transpose, one_mul_one, one_mul_one]

theorem one_kcov {p h r : K} (hs : h * p * h + r ≠ 0) :
    kcov (!![p] : Matrix (Fin 1) (Fin 1) K) !![h] !![r]
      = !![p - p * h * (h * p * h + r)⁻¹ * h * p] := by
  rw [kcov, one_kgain hs, one_mul_one, one_mul_one]
  ext i j; fin_cases i; fin_cases j; simp

theorem one_det (a : K) : (!![a] : Matrix (Fin 1) (Fin 1) K).det = a := by simp

theorem one_calc (be : Backend) {p h r : K} (hs : h * p * h + r ≠ 0) (a z y : K) (t : Nat) :
    (⟨![a], !![p], t⟩ : KF K 1).calculateMeasUpdate be ![z] ![y] !![h] !![r]
      = .ok ⟨![p * h * (h * p * h + r)⁻¹ * (z - y) + a],
          !![p - p * h * (h * p * h + r)⁻¹ * h * p], t⟩ := by
  rw [calculateMeasUpdate_ok _ _ _ _ _ _ (by rw [one_innovCov, one_det]; exact hs),
    one_kgain hs, one_kcov hs, be.toSym_of_symm (one_transpose _)]
  have : (![z] - ![y] : Fin 1 → K) = ![z - y] := by ext i; fin_cases i; rfl
  simp only [this, one_mulVec_one]
  congr 2
  ext i; fin_cases i; rfl

namespace KFixture

/-- A correlated two-dimensional covariance. -/
def P : Matrix (Fin 2) (Fin 2) ℚ := !![2, 1; 1, 2]

/-- Measures the first coordinate. -/
def H : Matrix (Fin 1) (Fin 2) ℚ := !![1, 0]

def R : Matrix (Fin 1) (Fin 1) ℚ := !![1]

/-- Constant velocity motion. -/
def F : Matrix (Fin 2) (Fin 2) ℚ := !![1, 1; 0, 1]

def Q : Matrix (Fin 2) (Fin 2) ℚ := !![0, 0; 0, 1]

def start : KF ℚ 2 := KF.make ![1, 2] P

def sys : AnalyticModel ℚ 2 2 Unit := .noInput (fun x => F *ᵥ x) (fun _ => F) (fun _ => Q)

def meas : AnalyticModel ℚ 2 1 Unit := .noInput (fun x => H *ᵥ x) (fun _ => H) (fun _ => R)

/-- A nonlinear sensor: the square of the first coordinate. -/
def square : AnalyticModel ℚ 2 1 Unit :=
  .noInput (fun x => ![x 0 * x 0]) (fun x => !![2 * x 0, 0]) (fun _ => R)

theorem quad2 (a b c d : ℚ) (x : Fin 2 → ℚ) :
    x ⬝ᵥ ((!![a, b; c, d] : Matrix (Fin 2) (Fin 2) ℚ) *ᵥ x)
      = a * x 0 * x 0 + (b + c) * x 0 * x 1 + d * x 1 * x 1 := by
  simp [dotProduct, mulVec, Fin.sum_univ_two]
  ring

theorem P_pd : PD P := by
  refine ⟨by ext i j; fin_cases i <;> fin_cases j <;> rfl, fun x hx => ?_⟩
  rw [P, quad2]
  by_cases h0 : x 0 = 0
  · have h1 : x 1 ≠ 0 := by
      intro h1; apply hx; ext i; fin_cases i
      · exact h0
      · exact h1
    have := mul_self_pos.mpr h1
    rw [h0]; linarith
  · have := mul_self_pos.mpr h0
    have := mul_self_nonneg (x 0 + x 1)
    have := mul_self_nonneg (x 1)
    nlinarith

theorem Q_psd : PSD Q := by
  refine ⟨by ext i j; fin_cases i <;> fin_cases j <;> rfl, fun x => ?_⟩
  rw [Q, quad2]
  have := mul_self_nonneg (x 1)
  linarith

theorem R_pd : PD R := by
  refine ⟨by ext i j; fin_cases i; fin_cases j; rfl, fun x hx => ?_⟩
  have h0 : x 0 ≠ 0 := by
    intro h; apply hx; ext i; fin_cases i; exact h
  have := mul_self_pos.mpr h0
  simp [R, dotProduct, mulVec]
  exact h0

theorem sys_linear : sys.IsLinear none F 0 Q := by
  intro x; refine ⟨?_, rfl, rfl⟩; rw [add_zero]; rfl

theorem meas_linear : meas.IsLinear none H 0 R := by
  intro x; refine ⟨?_, rfl, rfl⟩; rw [add_zero]; rfl

theorem square_evaluates (x : Fin 2 → ℚ) :
    square.Evaluates none x ![x 0 * x 0] !![2 * x 0, 0] R := ⟨rfl, rfl, rfl⟩

end KFixture

end BFL.Props
