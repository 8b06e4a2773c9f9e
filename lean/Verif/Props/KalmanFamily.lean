import Verif.Props.Kalman

set_option linter.unusedSectionVars false

/-!
# Properties of the Kalman filter family, continued: C35, C36, C37
-/

namespace BFL.Props

open Matrix Spec

variable {K : Type} [Field K] [LinearOrder K] [IsStrictOrderedRing K] {n m m₁ m₂ m₃ : Nat} {U : Type}

/-! ## C35: several measurements -/

theorem linear_ok {be : Backend} {kind : KF.Kind K n} (hk : kind.Runs)
    {meas : AnalyticModel K n m U} {s : Option U} {z c : Fin m → K}
    {H : Matrix (Fin m) (Fin n) K} {R : Matrix (Fin m) (Fin m) K} (hl : meas.IsLinear s H c R)
    {f : KF K n} (hP : PSD f.sigma) (hR : PD R) :
    f.measUpdate be kind meas z s = .ok
      ⟨kgain f.sigma H R *ᵥ (z - (H *ᵥ f.mu + c)) + f.mu, kcov f.sigma H R, f.timestep⟩ := by
  rw [measUpdate_linear hk hl]; exact calc_valid hP hR

/-- C35. Two independent linear measurements processed one after the other give exactly the
posterior of the stacked measurement with block diagonal noise. Prior covariance may be singular. -/
theorem C35_stacked (be : Backend) (kind : KF.Kind K n) (hk : kind.Runs)
    (meas₁ : AnalyticModel K n m₁ U) (s₁ : Option U) (z₁ c₁ : Fin m₁ → K)
    (H₁ : Matrix (Fin m₁) (Fin n) K) (R₁ : Matrix (Fin m₁) (Fin m₁) K)
    (meas₂ : AnalyticModel K n m₂ U) (s₂ : Option U) (z₂ c₂ : Fin m₂ → K)
    (H₂ : Matrix (Fin m₂) (Fin n) K) (R₂ : Matrix (Fin m₂) (Fin m₂) K)
    (both : AnalyticModel K n (m₁ + m₂) U) (s : Option U)
    (h₁ : meas₁.IsLinear s₁ H₁ c₁ R₁) (h₂ : meas₂.IsLinear s₂ H₂ c₂ R₂)
    (h : both.IsLinear s (stackM H₁ H₂) (stackV c₁ c₂) (independent R₁ R₂))
    (hR₁ : PD R₁) (hR₂ : PD R₂) (f : KF K n) (hP : PSD f.sigma) :
    ∃ f₁ f', f.measUpdate be kind meas₁ z₁ s₁ = .ok f₁ ∧
      f₁.measUpdate be kind meas₂ z₂ s₂ = .ok f' ∧
      f.measUpdate be kind both (stackV z₁ z₂) s = .ok f' := by
  have hS₁ := (innovCov_pd (H := H₁) hP hR₁).det_ne
  have hP₁ := kcov_psd (H := H₁) hP hR₁
  have hS₂ := (innovCov_pd (H := H₂) hP₁ hR₂).det_ne
  refine ⟨_, _, linear_ok hk h₁ hP hR₁, linear_ok hk h₂ hP₁ hR₂, ?_⟩
  rw [linear_ok hk h hP (hR₁.independent hR₂)]
  simp only
  rw [stack_cov hS₁ hR₁.det_ne hS₂ hR₂.det_ne,
    stack_mean hS₁ hR₁.det_ne hS₂ hR₂.det_ne f.mu _ z₁ c₁ z₂ c₂ rfl]

/-- Measures the second coordinate, with an offset. -/
def KFixture.meas₂ : AnalyticModel ℚ 2 1 Unit :=
  .noInput (fun x => !![0, 1] *ᵥ x + ![5]) (fun _ => !![0, 1]) (fun _ => KFixture.R)

theorem KFixture.meas₂_linear : KFixture.meas₂.IsLinear none !![0, 1] ![5] KFixture.R :=
  fun _ => ⟨rfl, rfl, rfl⟩

example : ∃ f₁ f', KFixture.start.measUpdate .boost .extended KFixture.meas ![3] none = .ok f₁ ∧
    f₁.measUpdate .boost .extended KFixture.meas₂ ![4] none = .ok f' ∧
    KFixture.start.measUpdate .boost .extended
      (.noInput (U := Unit) (fun x => stackM KFixture.H !![0, 1] *ᵥ x + stackV 0 ![5])
        (fun _ => stackM KFixture.H !![0, 1]) (fun _ => independent KFixture.R KFixture.R))
      (stackV ![3] ![4]) none = .ok f' :=
  C35_stacked .boost .extended trivial KFixture.meas none ![3] 0 KFixture.H KFixture.R
    KFixture.meas₂ none ![4] ![5] !![0, 1] KFixture.R _ none KFixture.meas_linear
    KFixture.meas₂_linear (fun _ => ⟨rfl, rfl, rfl⟩) KFixture.R_pd KFixture.R_pd KFixture.start
    KFixture.P_pd.psd

/-- A linear measurement together with the facts that make it one. -/
structure LinMeas (K : Type) [Field K] [LinearOrder K] (n : Nat) (U : Type) where
  m : Nat
  meas : AnalyticModel K n m U
  z : Fin m → K
  s : Option U
  H : Matrix (Fin m) (Fin n) K
  c : Fin m → K
  R : Matrix (Fin m) (Fin m) K
  linear : meas.IsLinear s H c R
  noise : PD R

/-- Process measurements from left to right. -/
def correctAll (be : Backend) (kind : KF.Kind K n) : List (LinMeas K n U) → KF K n → Outcome (KF K n)
  | [], f => .ok f
  | l :: rest, f => do
    let f' ← f.measUpdate be kind l.meas l.z l.s
    correctAll be kind rest f'

/-- C35. The order of two measurements does not matter. -/
theorem C35_order (be : Backend) (kind : KF.Kind K n) (hk : kind.Runs) (a b : LinMeas K n U)
    (f : KF K n) (hP : PSD f.sigma) :
    ∃ f', correctAll be kind [a, b] f = .ok f' ∧ correctAll be kind [b, a] f = .ok f' := by
  have hSa := (innovCov_pd (H := a.H) hP a.noise).det_ne
  have hPa := kcov_psd (H := a.H) hP a.noise
  have hSab := (innovCov_pd (H := b.H) hPa b.noise).det_ne
  have hSb := (innovCov_pd (H := b.H) hP b.noise).det_ne
  have hPb := kcov_psd (H := b.H) hP b.noise
  have hSba := (innovCov_pd (H := a.H) hPb a.noise).det_ne
  have e1 : correctAll be kind [a, b] f = .ok
      ⟨kgain (kcov f.sigma a.H a.R) b.H b.R *ᵥ
        (b.z - (b.H *ᵥ (kgain f.sigma a.H a.R *ᵥ (a.z - (a.H *ᵥ f.mu + a.c)) + f.mu) + b.c))
        + (kgain f.sigma a.H a.R *ᵥ (a.z - (a.H *ᵥ f.mu + a.c)) + f.mu),
        kcov (kcov f.sigma a.H a.R) b.H b.R, f.timestep⟩ := by
    simp only [correctAll]
    rw [linear_ok hk a.linear hP a.noise]
    simp only [Outcome.ok_bind]
    rw [linear_ok hk b.linear hPa b.noise]
    rfl
  have e2 : correctAll be kind [b, a] f = .ok
      ⟨kgain (kcov f.sigma b.H b.R) a.H a.R *ᵥ
        (a.z - (a.H *ᵥ (kgain f.sigma b.H b.R *ᵥ (b.z - (b.H *ᵥ f.mu + b.c)) + f.mu) + a.c))
        + (kgain f.sigma b.H b.R *ᵥ (b.z - (b.H *ᵥ f.mu + b.c)) + f.mu),
        kcov (kcov f.sigma b.H b.R) a.H a.R, f.timestep⟩ := by
    simp only [correctAll]
    rw [linear_ok hk b.linear hP b.noise]
    simp only [Outcome.ok_bind]
    rw [linear_ok hk a.linear hPb a.noise]
    rfl
  refine ⟨_, e1, e2.trans ?_⟩
  simp only [Outcome.ok.injEq]
  have hc : kcov (kcov f.sigma b.H b.R) a.H a.R = kcov (kcov f.sigma a.H a.R) b.H b.R := by
    rw [seq_cov hSa a.noise.det_ne hSab b.noise.det_ne,
      seq_cov hSb b.noise.det_ne hSba a.noise.det_ne, add_comm (b.Hᵀ * b.R⁻¹ * b.H)]
  have hm : kgain (kcov f.sigma b.H b.R) a.H a.R *ᵥ
        (a.z - (a.H *ᵥ (kgain f.sigma b.H b.R *ᵥ (b.z - (b.H *ᵥ f.mu + b.c)) + f.mu) + a.c))
        + (kgain f.sigma b.H b.R *ᵥ (b.z - (b.H *ᵥ f.mu + b.c)) + f.mu)
      = kgain (kcov f.sigma a.H a.R) b.H b.R *ᵥ
        (b.z - (b.H *ᵥ (kgain f.sigma a.H a.R *ᵥ (a.z - (a.H *ᵥ f.mu + a.c)) + f.mu) + b.c))
        + (kgain f.sigma a.H a.R *ᵥ (a.z - (a.H *ᵥ f.mu + a.c)) + f.mu) := by
    rw [seq_mean hSa a.noise.det_ne hSab b.noise.det_ne f.mu _ a.z a.c b.z b.c rfl,
      seq_mean hSb b.noise.det_ne hSba a.noise.det_ne f.mu _ b.z b.c a.z a.c rfl, hc,
      add_comm ((b.Hᵀ * b.R⁻¹) *ᵥ (b.z - (b.H *ᵥ f.mu + b.c)))]
  simp only [hc, hm]

/-- C35. Any number of measurements, of any dimensions, in any order: the same posterior. -/
theorem C35_permutation (be : Backend) (kind : KF.Kind K n) (hk : kind.Runs)
    (l l' : List (LinMeas K n U)) (h : l.Perm l') (f : KF K n) (hP : PSD f.sigma) :
    ∃ f', correctAll be kind l f = .ok f' ∧ correctAll be kind l' f = .ok f' ∧ PSD f'.sigma := by
  have tot : ∀ (l : List (LinMeas K n U)) (f : KF K n), PSD f.sigma →
      ∃ f', correctAll be kind l f = .ok f' ∧ PSD f'.sigma := by
    intro l
    induction l with
    | nil => intro f hP; exact ⟨f, rfl, hP⟩
    | cons a l ih =>
      intro f hP
      obtain ⟨f', e, hP'⟩ := ih ⟨kgain f.sigma a.H a.R *ᵥ (a.z - (a.H *ᵥ f.mu + a.c)) + f.mu,
        kcov f.sigma a.H a.R, f.timestep⟩ (kcov_psd (H := a.H) hP a.noise)
      refine ⟨f', ?_, hP'⟩
      simp only [correctAll]
      rw [linear_ok hk a.linear hP a.noise]
      exact e
  have main : ∀ f : KF K n, PSD f.sigma → correctAll be kind l f = correctAll be kind l' f := by
    induction h with
    | nil => intro f _; rfl
    | cons a _ ih =>
      intro f hP
      simp only [correctAll]
      rw [linear_ok hk a.linear hP a.noise]
      simp only [Outcome.ok_bind]
      exact ih _ (kcov_psd (H := a.H) hP a.noise)
    | swap a b l =>
      intro f hP
      obtain ⟨f', e1, e2⟩ := C35_order be kind hk a b f hP
      have cat : ∀ x y : LinMeas K n U, correctAll be kind (x :: y :: l) f
          = (correctAll be kind [x, y] f >>= correctAll be kind l) := by
        intro x y
        simp only [correctAll]
        cases f.measUpdate be kind x.meas x.z x.s with
        | ok f₁ =>
          simp only [Outcome.ok_bind]
          cases f₁.measUpdate be kind y.meas y.z y.s <;> rfl
        | abort => rfl
        | ub => rfl
      rw [cat b a, cat a b, e1, e2]
    | trans _ _ ih1 ih2 => intro f hP; exact (ih1 f hP).trans (ih2 f hP)
  obtain ⟨f', e, hP'⟩ := tot l f hP
  exact ⟨f', e, (main f hP) ▸ e, hP'⟩

/-- C35. After any number of measurements the precision is the prior precision plus the sum of the
measurements' contributions. -/
theorem C35_total (be : Backend) (kind : KF.Kind K n) (hk : kind.Runs) (l : List (LinMeas K n U))
    (f : KF K n) (hP : PD f.sigma) :
    ∃ f', correctAll be kind l f = .ok f' ∧ PD f'.sigma ∧
      f'.sigma⁻¹ = f.sigma⁻¹ + (l.map fun a => a.Hᵀ * a.R⁻¹ * a.H).sum := by
  induction l generalizing f with
  | nil => exact ⟨f, rfl, hP, by simp⟩
  | cons a l ih =>
    obtain ⟨f1, h1, hpd, hi, _⟩ := C34_information be a.meas a.s a.z _ _ _ f (a.linear f.mu) hP
      a.noise
    obtain ⟨f2, h2, hpd2, hi2⟩ := ih f1 hpd
    refine ⟨f2, ?_, hpd2, ?_⟩
    · simp only [correctAll]
      rw [measUpdate_linear hk a.linear, ← ekf_eq (a.linear f.mu), h1]
      exact h2
    · rw [hi2, hi, List.map_cons, List.sum_cons, add_assoc]

def KFixture.three : List (LinMeas ℚ 2 Unit) :=
  [⟨1, KFixture.meas, ![3], none, _, _, _, KFixture.meas_linear, KFixture.R_pd⟩,
   ⟨1, KFixture.meas₂, ![4], none, _, _, _, KFixture.meas₂_linear, KFixture.R_pd⟩,
   ⟨1, KFixture.meas, ![7], none, _, _, _, KFixture.meas_linear, KFixture.R_pd⟩]

example : ∃ f', correctAll .boost .extended KFixture.three KFixture.start = .ok f' ∧
    correctAll .boost .extended KFixture.three.reverse KFixture.start = .ok f' ∧ PSD f'.sigma :=
  C35_permutation .boost .extended trivial _ _ (List.reverse_perm _).symm _ KFixture.P_pd.psd

example : ∃ f', correctAll .eigen (.iterated 2 none) KFixture.three KFixture.start = .ok f' ∧
    PD f'.sigma := by
  obtain ⟨f', h, h1, _⟩ := C35_total .eigen (.iterated 2 none) (by simp [KF.Kind.Runs])
    KFixture.three KFixture.start KFixture.P_pd
  exact ⟨f', h, h1⟩

/-! ## C36: the normalised innovation squared -/

/-- C36. `NisGet` is the squared length of `z - Z` in the metric of the inverse innovation
covariance. It is never negative, is zero exactly when the measurement equals its prediction, and
leaves the filter as it was. -/
theorem C36_nis (be : Backend) (meas : AnalyticModel K n m U) (z Z : Fin m → K)
    (H : Matrix (Fin m) (Fin n) K) (R : Matrix (Fin m) (Fin m) K) (f : KF K n)
    (he : meas.Evaluates none f.mu Z H R) (hP : PSD f.sigma) (hR : PD R) :
    ∃ v, f.nisGet be meas z = .ok (v, f) ∧ v = quad (H * f.sigma * Hᵀ + R)⁻¹ (z - Z) ∧
      0 ≤ v ∧ (v = 0 ↔ z = Z) := by
  have hS := innovCov_pd (H := H) hP hR
  refine ⟨quad (H * f.sigma * Hᵀ + R)⁻¹ (z - Z), ?_, rfl, hS.inv.psd.2 _, fun h => ?_, fun h => ?_⟩
  · simp only [KF.nisGet]
    rw [he.1, he.2.1, he.2.2]
    exact calculateNis_ok be f z Z H R hS.det_ne
  · by_contra hne
    have := hS.inv.2 _ (sub_ne_zero.mpr hne)
    exact this.ne' h
  · rw [h, sub_self]; simp [quad]

example : ∃ v, KFixture.start.nisGet .boost KFixture.square ![4] = .ok (v, KFixture.start) ∧
    v ≠ 0 := by
  obtain ⟨v, h, _, _, h0⟩ := C36_nis .boost KFixture.square ![4] _ _ _ KFixture.start
    (KFixture.square_evaluates _) KFixture.P_pd.psd KFixture.R_pd
  refine ⟨v, h, fun hv => ?_⟩
  have := congrFun (h0.mp hv) 0
  simp [KFixture.start, KF.make] at this

/-- C36, negation for measurement models with a sensor parameter: `NisGet` has no such argument and
always evaluates the model with an empty one. -/
theorem C36_input_false (be : Backend) (p : U → (Fin n → K) → (Fin m → K))
    (d : U → (Fin n → K) → Matrix (Fin m) (Fin n) K)
    (c : U → (Fin n → K) → Matrix (Fin m) (Fin m) K) (z : Fin m → K) (f : KF K n) :
    f.nisGet be (.withInput p d c) z = .ub := rfl

/-! ## C37: extended, iterated and linear filters -/

/-- C37. On a linear system and a linear measurement one `Update` of the extended filter is the
textbook Kalman filter. -/
theorem C37_kalman (be : Backend) (sys : AnalyticModel K n n U) (u : Option U)
    (A Q : Matrix (Fin n) (Fin n) K) (b : Fin n → K) (meas : AnalyticModel K n m U) (s : Option U)
    (H : Matrix (Fin m) (Fin n) K) (c z : Fin m → K) (R : Matrix (Fin m) (Fin m) K)
    (hsys : sys.IsLinear u A b Q) (hmeas : meas.IsLinear s H c R) (f : KF K n)
    (hP : PSD f.sigma) (hQ : PSD Q) (hR : PD R) :
    ∃ f' xp Pp G, f.update be .extended (some (sys, u)) (some (meas, z, s)) = .ok (true, f') ∧
      xp = A *ᵥ f.mu + b ∧ Pp = A * f.sigma * Aᵀ + Q ∧
      G * (H * Pp * Hᵀ + R) = Pp * Hᵀ ∧
      f'.mu = xp + G *ᵥ (z - (H *ᵥ xp + c)) ∧ f'.sigma = Pp - G * H * Pp := by
  have hp := (hP.congr A).add hQ
  have hS := (innovCov_pd (H := H) hp hR).det_ne
  have e1 : f.sysUpdate be sys u = .ok ⟨A *ᵥ f.mu + b, A * f.sigma * Aᵀ + Q, f.timestep⟩ := by
    rw [sysUpdate_eq (hsys f.mu), be.toSym_of_symm hp.1]
  refine ⟨⟨kgain (A * f.sigma * Aᵀ + Q) H R *ᵥ (z - (H *ᵥ (A *ᵥ f.mu + b) + c)) + (A *ᵥ f.mu + b),
      kcov (A * f.sigma * Aᵀ + Q) H R, f.timestep⟩, A *ᵥ f.mu + b, A * f.sigma * Aᵀ + Q,
    kgain (A * f.sigma * Aᵀ + Q) H R, ?_, rfl, rfl,
    kgain_mul hS, add_comm _ _, rfl⟩
  simp only [KF.update, KF.sysPart]
  rw [e1]
  simp only [Outcome.ok_bind, KF.measPart]
  rw [measUpdate_linear (kind := .extended) trivial hmeas, calc_valid (by exact hp) hR]
  rfl

example : ∃ f' : KF ℚ 2, KFixture.start.update .boost .extended (some (KFixture.sys, none))
    (some (KFixture.meas, ![3], none)) = .ok (true, f') := by
  obtain ⟨f', _, _, _, h, _⟩ := C37_kalman .boost KFixture.sys none _ _ _ KFixture.meas none _ _
    ![3] _ KFixture.sys_linear KFixture.meas_linear KFixture.start KFixture.P_pd.psd
    KFixture.Q_psd KFixture.R_pd
  exact ⟨f', h⟩

/-- C37. On a linear measurement model the iterated filter does exactly what the extended filter
does, for every iteration count from one and every innovation check, in failure as in success. -/
theorem C37_linear (be : Backend) (nr : Nat) (hnr : 1 ≤ nr) (chk : Option ((Fin n → K) → Bool))
    (meas : AnalyticModel K n m U) (s : Option U) (H : Matrix (Fin m) (Fin n) K) (c z : Fin m → K)
    (R : Matrix (Fin m) (Fin m) K) (hmeas : meas.IsLinear s H c R) (f : KF K n) :
    f.iekfMeasUpdate be nr chk meas z s = f.ekfMeasUpdate be meas z s := by
  rw [ekf_eq (hmeas f.mu)]
  exact measUpdate_linear (kind := .iterated nr chk) hnr hmeas

example : KFixture.start.iekfMeasUpdate .boost 4 (some (KF.innovationCheck (1/10))) KFixture.meas
    ![3] none = KFixture.start.ekfMeasUpdate .boost KFixture.meas ![3] none :=
  C37_linear .boost 4 (by norm_num) _ _ _ _ _ _ _ KFixture.meas_linear _

/-- C37. With one iteration the iterated filter is the extended filter, for every model. -/
theorem C37_one_iteration (be : Backend) (chk : Option ((Fin n → K) → Bool))
    (meas : AnalyticModel K n m U) (s : Option U) (z : Fin m → K) (f : KF K n) :
    f.iekfMeasUpdate be 1 chk meas z s = f.ekfMeasUpdate be meas z s := by
  have ev : ∀ Z H R, meas.Evaluates s f.mu Z H R →
      f.iekfMeasUpdate be 1 chk meas z s = f.ekfMeasUpdate be meas z s := by
    intro Z H R he
    rw [ekf_eq he]
    simp only [KF.iekfMeasUpdate]
    by_cases hS : (innovCov f.sigma H R).det = 0
    · have e : H * (f.sigma * Hᵀ) + R = innovCov f.sigma H R := by
        rw [innovCov, Matrix.mul_assoc]
      simp only [KF.iekfLoop]
      rw [he.1, he.2.1, he.2.2]
      simp only [Outcome.ok_bind, KF.calculateMeasUpdate]
      rw [e]
      rcases be.inverse_singular _ hS with h1 | h1 <;> rw [h1] <;> rfl
    · rw [iekfLoop_step he hS, iekfLoop_stop, ite_self, sub_self, mulVec_zero, add_zero]
      rfl
  cases meas with
  | noInput p d c => exact ev (p f.mu) (d f.mu) (c f.mu) ⟨rfl, rfl, rfl⟩
  | withInput p d c =>
    cases s with
    | some s => exact ev (p s f.mu) (d s f.mu) (c s f.mu) ⟨rfl, rfl, rfl⟩
    | none => rfl

/-- C37. Iterating matters for a nonlinear sensor: with two iterations the estimate differs from the
extended filter's (so the equality of `C37_linear` is not one of definitions). -/
theorem C37_nonlinear_differs :
    ¬ ∀ (meas : AnalyticModel ℚ 1 1 Unit) (f : KF ℚ 1) (z : Fin 1 → ℚ),
      f.iekfMeasUpdate .boost 2 none meas z none = f.ekfMeasUpdate .boost meas z none := by
  intro h
  have h1 := h (.noInput (fun x => ![x 0 * x 0]) (fun x => !![2 * x 0]) (fun _ => !![1]))
    ⟨![1], !![1], 0⟩ ![2]
  have ev : ∀ a : ℚ, (AnalyticModel.noInput (U := Unit) (fun x : Fin 1 → ℚ => ![x 0 * x 0])
      (fun x => !![2 * x 0]) (fun _ => !![1])).Evaluates none ![a] ![a * a] !![2 * a] !![1] :=
    fun a => ⟨rfl, rfl, rfl⟩
  have sub1 : ∀ a b : ℚ, (![a] - ![b] : Fin 1 → ℚ) = ![a - b] := by
    intro a b; ext i; fin_cases i; rfl
  have add1 : ∀ a b : ℚ, (![a] + ![b] : Fin 1 → ℚ) = ![a + b] := by
    intro a b; ext i; fin_cases i; rfl
  rw [ekf_eq (ev 1), one_calc _ (by norm_num)] at h1
  simp only [KF.iekfMeasUpdate] at h1
  rw [iekfLoop_step (ev 1) (by rw [one_innovCov, one_det]; norm_num)] at h1
  simp only [KF.passes, if_true] at h1
  rw [one_kgain (by norm_num), sub1, one_mulVec_one, add1, sub1, one_mulVec_one, add1,
    iekfLoop_step (ev _) (by rw [one_innovCov, one_det]; norm_num)] at h1
  simp only [KF.passes, if_true] at h1
  rw [iekfLoop_stop, sub1, one_mulVec_one, add1] at h1
  simp only [Outcome.ok_bind, KF.iekfFinish] at h1
  rw [one_calc _ (by norm_num)] at h1
  simp only [Outcome.ok.injEq, KF.mk.injEq] at h1
  have h2 := congrFun h1.1 0
  norm_num at h2

/-- C37, boundary: with zero iterations (the constructor accepts it) the update reads buffers that
were never written. -/
theorem C37_zero_false (be : Backend) (chk : Option ((Fin n → K) → Bool))
    (meas : AnalyticModel K n m U) (s : Option U) (z : Fin m → K) (f : KF K n) :
    f.iekfMeasUpdate be 0 chk meas z s = .ub := rfl

/-- C37. When the iterated filter has converged, that is, its estimate is the point it was
linearised at, the estimate is a stationary point of the posterior: the pull of the prior balances
the pull of the measurement. -/
theorem C37_converged (be : Backend) (nr : Nat) (hnr : 1 ≤ nr) (chk : Option ((Fin n → K) → Bool))
    (meas : AnalyticModel K n m U) (s : Option U) (z : Fin m → K) (f : KF K n) (hP : PD f.sigma)
    (hm : ∀ x, ∃ Z H R, meas.Evaluates s x Z H R ∧ PD R) :
    ∃ f' x Z H R, f.iekfMeasUpdate be nr chk meas z s = .ok f' ∧ meas.Evaluates s x Z H R ∧
      (f'.mu = x → (Hᵀ * R⁻¹) *ᵥ (z - Z) = f.sigma⁻¹ *ᵥ (f'.mu - f.mu)) := by
  obtain ⟨x, Z, H, R, he, hR, e⟩ := measUpdate_total (be := be) (kind := .iterated nr chk) (z := z)
    hnr hP.psd hm
  refine ⟨_, x, Z, H, R, e, he, fun hx => ?_⟩
  simp only at hx ⊢
  have hS := (innovCov_pd (H := H) hP.psd hR).det_ne
  have hi := kcov_information hS hR.det_ne hP.det_ne
  have hk : (kcov f.sigma H R).det ≠ 0 := by
    intro h0
    have := det_kcov (P := f.sigma) hS hR.det_ne
    rw [h0, zero_mul] at this
    exact mul_ne_zero hP.det_ne hR.det_ne this.symm
  have hd : kgain f.sigma H R *ᵥ (z - (Z + H *ᵥ (f.mu - x))) = x - f.mu := by
    rw [eq_sub_iff_add_eq]; exact hx
  have h1 := congrArg (fun v => (kcov f.sigma H R)⁻¹ *ᵥ v) hd
  rw [kgain_eq hS hR.det_ne, mulVec_mulVec, ← Matrix.mul_assoc, ← Matrix.mul_assoc,
    nonsing_inv_mul _ hk.isUnit, Matrix.one_mul, hi, add_mulVec, ← sub_sub, mulVec_sub,
    mulVec_mulVec _ (Hᵀ * R⁻¹)] at h1
  have h2 : (Hᵀ * R⁻¹ * H) *ᵥ (f.mu - x) = -((Hᵀ * R⁻¹ * H) *ᵥ (x - f.mu)) := by
    rw [← mulVec_neg, neg_sub]
  rw [h2, sub_neg_eq_add] at h1
  rw [hd, sub_add_cancel]
  exact add_right_cancel h1

example : ∃ f' x Z H R, KFixture.start.iekfMeasUpdate .boost 3 none KFixture.square ![4] none
      = .ok f' ∧ KFixture.square.Evaluates none x Z H R ∧
    (f'.mu = x → (Hᵀ * R⁻¹) *ᵥ (![4] - Z) = KFixture.P⁻¹ *ᵥ (f'.mu - ![1, 2])) :=
  C37_converged .boost 3 (by norm_num) none KFixture.square none ![4] KFixture.start
    KFixture.P_pd (fun x => ⟨_, _, _, KFixture.square_evaluates x, KFixture.R_pd⟩)

end BFL.Props
