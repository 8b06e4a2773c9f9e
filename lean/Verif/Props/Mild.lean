import Verif.Lemmas.Mild
import Verif.Props.Innovations

/-!
# C98: how wrong the linearisation of the extended Kalman filter can be
-/

set_option linter.unusedSectionVars false

namespace BFL.Props

open Matrix MeasureTheory ProbabilityTheory Spec

variable {Ω : Type} [MeasurableSpace Ω] {n m : Nat} {U : Type} {μ : Measure Ω} {u : Option U} {L : ℝ}

/-- **C98, predictions.** The state has the mean and the covariance that the filter reports, whatever its
distribution. It moves to `g x + w`. After `Update` with the system model the reported estimate is wrong by at most
`L/2` times the total variance, where `L` is the rate at which the Jacobian changes. -/
theorem C98_prediction [IsProbabilityMeasure μ] (be : Backend) {X : Ω → Fin n → ℝ} {f : KF ℝ n} (hX : PriorRight μ X f)
    {model : AnalyticModel ℝ n n U} {g : (Fin n → ℝ) → Fin n → ℝ} {F : (Fin n → ℝ) → Matrix (Fin n) (Fin n) ℝ}
    {Q : (Fin n → ℝ) → Matrix (Fin n) (Fin n) ℝ} (hg : Mild model u g F Q L) {W : Ω → Fin n → ℝ} (hW : Square μ W)
    (hWc : Centred μ W) : ∃ f', f.sysUpdate be model u = .ok f' ∧
      ∀ i, |mean μ (fun ω => g (X ω) + W ω) i - f'.mu i| ≤ L / 2 * f.sigma.trace := by
  have hR := PriorRight.reported hX
  refine ⟨_, sysUpdate_eq (hg.evaluates f.mu), fun i => ?_⟩
  have e : mean μ (fun ω => g (X ω) + W ω) i = ∫ ω, g (X ω) i ∂μ := by
    show ∫ ω, (g (X ω) i + W ω i) ∂μ = _
    rw [integral_add (value_integrable hg hR.square i) ((hW i).integrable one_le_two), hWc i, add_zero]
  rw [e]
  exact bias hg hR i

/-- **C98, covariances of predictions.** The reported covariance is wrong by terms of the third and the fourth order
in the size of the uncertainty. `M²` is the mean fourth power of the distance of the state from the estimate. -/
theorem C98_covariance [IsProbabilityMeasure μ] (be : Backend) {X : Ω → Fin n → ℝ} {f : KF ℝ n} (hX : PriorRight μ X f)
    (hX4 : ∀ i, MemLp (fun ω => X ω i) 4 μ)
    {model : AnalyticModel ℝ n n U} {g : (Fin n → ℝ) → Fin n → ℝ} {F : (Fin n → ℝ) → Matrix (Fin n) (Fin n) ℝ}
    {Q : (Fin n → ℝ) → Matrix (Fin n) (Fin n) ℝ} (hg : Mild model u g F Q L) {W : Ω → Fin n → ℝ} (hW : Square μ W)
    (hWc : Centred μ W) (hWQ : moment μ W W = Q f.mu) (hWX : IndepFun X W μ) {M : ℝ} (hM0 : 0 ≤ M)
    (hM : M ^ 2 = ∫ ω, ((X ω - f.mu) ⬝ᵥ (X ω - f.mu)) ^ 2 ∂μ) :
    ∃ f', f.sysUpdate be model u = .ok f' ∧ ∀ i j,
      |Spec.covariance μ (fun ω => g (X ω) + W ω) i j - f'.sigma i j|
        ≤ |L| / 2 * M * (√((F f.mu * f.sigma * (F f.mu)ᵀ) i i) + √((F f.mu * f.sigma * (F f.mu)ᵀ) j j))
          + (|L| / 2 * M) ^ 2 := by
  refine ⟨_, sysUpdate_eq (hg.evaluates f.mu), fun i j => ?_⟩
  have hR := PriorRight.reported hX
  have hP : f.sigmaᵀ = f.sigma := by rw [← hX.2.2]; exact (Moment.psd hX.1).1
  have hQ : (Q f.mu)ᵀ = Q f.mu := by rw [← hWQ]; exact (Moment.psd hW).1
  have hs : (F f.mu * f.sigma * (F f.mu)ᵀ + Q f.mu)ᵀ = F f.mu * f.sigma * (F f.mu)ᵀ + Q f.mu := by
    rw [transpose_add, transpose_mul, transpose_mul, transpose_transpose, hP, hQ, Matrix.mul_assoc]
  show |_ - be.toSym (F f.mu * f.sigma * (F f.mu)ᵀ + Q f.mu) i j| ≤ _
  rw [be.toSym_of_symm hs, ← hWQ]
  exact covariance_error hg hR hX4 hW hWc hWX (by rw [← hM, Real.sqrt_sq hM0]) i j

/-- **C98, corrections.** A sensor reads `g x + v`. On average over states and readings, the corrected estimate is
wrong by at most the gain times `L/2` times the total variance. -/
theorem C98_correction [IsProbabilityMeasure μ] (be : Backend) {X : Ω → Fin n → ℝ} {f : KF ℝ n} (hX : PriorRight μ X f)
    {model : AnalyticModel ℝ n m U} {g : (Fin n → ℝ) → Fin m → ℝ} {H : (Fin n → ℝ) → Matrix (Fin m) (Fin n) ℝ}
    {R : (Fin n → ℝ) → Matrix (Fin m) (Fin m) ℝ} (hg : Mild model u g H R L) (hR : PD (R f.mu)) {V : Ω → Fin m → ℝ}
    (hV : Square μ V) (hVc : Centred μ V) : ∃ f' : Ω → KF ℝ n,
      (∀ ω, f.measUpdate be .extended model (g (X ω) + V ω) u = .ok (f' ω)) ∧
      ∀ i, |mean μ (fun ω => (f' ω).mu - X ω) i| ≤ (∑ j, |(f.sigma * (H f.mu)ᵀ *
        (H f.mu * f.sigma * (H f.mu)ᵀ + R f.mu)⁻¹) i j|) * (L / 2 * f.sigma.trace) := by
  have hP : PSD f.sigma := by rw [← hX.2.2]; exact Moment.psd hX.1
  have hRp := PriorRight.reported hX
  refine ⟨_, fun ω => (ekf_eq (hg.evaluates f.mu)).trans (calc_valid hP hR), fun i => ?_⟩
  have hgi := fun j => value_integrable hg hRp.square j
  have hVi := fun j => (hV j).integrable one_le_two
  have hXi := (hRp.square i).integrable one_le_two
  have hti : ∀ j, Integrable (fun ω => kgain f.sigma (H f.mu) (R f.mu) i j * (g (X ω) j + V ω j - g f.mu j)) μ :=
    fun j => (((hgi j).add (hVi j)).sub (integrable_const _)).const_mul _
  have hsum : Integrable (fun ω => ∑ j, kgain f.sigma (H f.mu) (R f.mu) i j * (g (X ω) j + V ω j - g f.mu j)) μ :=
    integrable_finsetSum _ fun j _ => hti j
  have hd : Integrable (fun ω => f.mu i - X ω i) μ := (integrable_const _).sub hXi
  have e : mean μ (fun ω => (kgain f.sigma (H f.mu) (R f.mu) *ᵥ (g (X ω) + V ω - g f.mu) + f.mu) - X ω) i
      = ∑ j, kgain f.sigma (H f.mu) (R f.mu) i j * (∫ ω, g (X ω) j ∂μ - g f.mu j) := by
    have e1 : ∀ ω, ((kgain f.sigma (H f.mu) (R f.mu) *ᵥ (g (X ω) + V ω - g f.mu) + f.mu) - X ω) i
        = (∑ j, kgain f.sigma (H f.mu) (R f.mu) i j * (g (X ω) j + V ω j - g f.mu j)) + (f.mu i - X ω i) := by
      intro ω
      simp only [Pi.sub_apply, Pi.add_apply, Matrix.mulVec, dotProduct]
      ring
    simp only [mean, e1]
    rw [integral_add hsum hd, integral_sub (integrable_const _) hXi, hRp.mean i, integral_finsetSum _ fun j _ => hti j]
    simp only [integral_const, probReal_univ, one_smul, sub_self, add_zero]
    refine Finset.sum_congr rfl fun j _ => ?_
    have h1 : Integrable (fun ω => g (X ω) j + V ω j) μ := (hgi j).add (hVi j)
    rw [integral_const_mul, integral_sub h1 (integrable_const _), integral_add (hgi j) (hVi j), hVc j]
    simp
  refine (le_of_eq (congrArg _ e)).trans ((Finset.abs_sum_le_sum_abs _ _).trans ?_)
  rw [Finset.sum_mul]
  refine Finset.sum_le_sum fun j _ => ?_
  rw [abs_mul]
  exact mul_le_mul_of_nonneg_left (bias hg hRp j) (abs_nonneg _)

/-- A motion with one state, whose Jacobian changes at rate `L`. -/
noncomputable def parabola (L : ℝ) : AnalyticModel ℝ 1 1 Unit :=
  .noInput (fun x => ![L / 2 * x 0 ^ 2 + x 0]) (fun x => !![L * x 0 + 1]) (fun _ => !![1])

theorem parabola_mild {L : ℝ} (hL : 0 ≤ L) : Mild (parabola L) none (fun x => ![L / 2 * x 0 ^ 2 + x 0])
    (fun x => !![L * x 0 + 1]) (fun _ => !![1]) L := by
  refine ⟨fun x => ⟨rfl, rfl, rfl⟩, fun x => ?_, fun x y i => ?_⟩
  · rw [hasFDerivAt_pi']
    intro i
    have h0 : HasFDerivAt (fun x : Fin 1 → ℝ => x 0) (ContinuousLinearMap.proj (R := ℝ) (φ := fun _ : Fin 1 => ℝ) 0) x :=
      hasFDerivAt_apply 0 x
    have h1 := ((h0.pow 2).const_mul (L / 2)).add h0
    fin_cases i
    refine h1.congr_fderiv ?_
    ext v
    simp [dotProduct]
    ring
  · fin_cases i
    simp only [Matrix.mulVec, dotProduct, Fin.sum_univ_one]
    simp
    rw [show (L * x 0 + 1) * (x 0 - y 0) - (L * y 0 + 1) * (x 0 - y 0) = L * ((x 0 - y 0) * (x 0 - y 0)) by ring,
      abs_of_nonneg (mul_nonneg hL (mul_self_nonneg _))]

/-- **C98, the bound is sharp.** For every rate there is a motion such that the estimate is wrong by exactly the bound,
for every distribution of the state. So the predictions of the extended filter are biased in general. -/
theorem C98_sharp [IsProbabilityMeasure μ] (be : Backend) {X : Ω → Fin 1 → ℝ} {f : KF ℝ 1} (hX : PriorRight μ X f)
    (hL : 0 ≤ L) : ∃ (model : AnalyticModel ℝ 1 1 Unit) (g : (Fin 1 → ℝ) → Fin 1 → ℝ)
      (F : (Fin 1 → ℝ) → Matrix (Fin 1) (Fin 1) ℝ) (Q : (Fin 1 → ℝ) → Matrix (Fin 1) (Fin 1) ℝ) (f' : KF ℝ 1),
      Mild model none g F Q L ∧ f.sysUpdate be model none = .ok f' ∧
      mean μ (fun ω => g (X ω)) 0 - f'.mu 0 = L / 2 * f.sigma.trace := by
  have hR := PriorRight.reported hX
  have hi := (hR.square 0).integrable one_le_two
  refine ⟨_, _, _, _, _, parabola_mild hL, sysUpdate_eq ((parabola_mild hL).evaluates f.mu), ?_⟩
  have hd : Integrable (fun ω => (X ω 0 - f.mu 0) * (X ω 0 - f.mu 0)) μ := (hX.1 0).integrable_mul (hX.1 0)
  have e1 : ∀ ω, L / 2 * X ω 0 ^ 2 + X ω 0 = L / 2 * ((X ω 0 - f.mu 0) * (X ω 0 - f.mu 0))
      + ((L * f.mu 0 + 1) * X ω 0 - L / 2 * f.mu 0 ^ 2) := fun ω => by ring
  have h2 : Integrable (fun ω => (L * f.mu 0 + 1) * X ω 0) μ := hi.const_mul _
  have h3 : Integrable (fun ω => (L * f.mu 0 + 1) * X ω 0 - L / 2 * f.mu 0 ^ 2) μ := h2.sub (integrable_const _)
  show ∫ ω, (L / 2 * X ω 0 ^ 2 + X ω 0) ∂μ - (L / 2 * f.mu 0 ^ 2 + f.mu 0) = _
  simp only [e1]
  rw [integral_add (hd.const_mul _) h3, integral_const_mul, integral_sub h2 (integrable_const _), integral_const_mul,
    hR.mean 0, ← hX.2.2]
  simp [Matrix.trace, Spec.moment]
  ring

/-! ### Examples: a standard normal state -/

namespace Normals

theorem fst_fourth : MemLp (fun ω : ℝ × ℝ => ω.1) 4 law :=
  MemLp.comp_fst (memLp_id_gaussianReal (μ := 0) (v := 1) 4) _

theorem noise_square : Square law (fun ω : ℝ × ℝ => ![ω.2]) := told.2.1

theorem noise_centred : Centred law (fun ω : ℝ × ℝ => ![ω.2]) := told.2.2.1

theorem independent : IndepFun state (fun ω : ℝ × ℝ => ![ω.2]) law := by
  have h : IndepFun (fun ω : ℝ × ℝ => ω.1) (fun ω : ℝ × ℝ => ω.2) law :=
    indepFun_prod measurable_id measurable_id
  have m : Measurable (fun x : ℝ => ![x]) := by fun_prop
  exact h.comp m m

end Normals

/-- A standard normal state moves to `x² / 2 + x + w`: the estimate is wrong by at most (and in fact by) `1 / 2`. -/
example : ∃ f', Coins.start.sysUpdate .boost (parabola 1) none = .ok f' ∧
    |mean Normals.law (fun ω => ![1 / 2 * Normals.state ω 0 ^ 2 + Normals.state ω 0] + ![ω.2]) 0 - f'.mu 0| ≤ 1 / 2 := by
  obtain ⟨f', h1, h2⟩ := C98_prediction (μ := Normals.law) .boost Normals.prior (parabola_mild zero_le_one)
    Normals.noise_square Normals.noise_centred
  refine ⟨f', h1, (h2 0).trans_eq ?_⟩
  simp [Coins.start, KF.make]

example : ∃ f', Coins.start.sysUpdate .eigen (parabola 1) none = .ok f' ∧ ∀ i j,
    |Spec.covariance Normals.law (fun ω => ![1 / 2 * Normals.state ω 0 ^ 2 + Normals.state ω 0] + ![ω.2]) i j - f'.sigma i j|
      ≤ |1| / 2 * √(∫ ω, ((Normals.state ω - Coins.start.mu) ⬝ᵥ (Normals.state ω - Coins.start.mu)) ^ 2 ∂Normals.law)
        * (√((!![1 * Coins.start.mu 0 + 1] * Coins.start.sigma * (!![1 * Coins.start.mu 0 + 1])ᵀ) i i)
          + √((!![1 * Coins.start.mu 0 + 1] * Coins.start.sigma * (!![1 * Coins.start.mu 0 + 1])ᵀ) j j))
        + (|1| / 2 * √(∫ ω, ((Normals.state ω - Coins.start.mu) ⬝ᵥ (Normals.state ω - Coins.start.mu)) ^ 2 ∂Normals.law)) ^ 2 :=
  C98_covariance (μ := Normals.law) .eigen Normals.prior (fun i => by fin_cases i; exact Normals.fst_fourth)
    (parabola_mild zero_le_one) Normals.noise_square Normals.noise_centred Normals.told.2.2.2.1
    Normals.independent (Real.sqrt_nonneg _) (Real.sq_sqrt (integral_nonneg fun _ => sq_nonneg _))

example : ∃ f' : ℝ × ℝ → KF ℝ 1, (∀ ω, Coins.start.measUpdate .boost .extended (parabola 1)
      (![1 / 2 * Normals.state ω 0 ^ 2 + Normals.state ω 0] + ![ω.2]) none = .ok (f' ω)) ∧
    |mean Normals.law (fun ω => (f' ω).mu - Normals.state ω) 0| ≤ 1 / 4 := by
  obtain ⟨f', h1, h2⟩ := C98_correction (μ := Normals.law) .boost Normals.prior (parabola_mild zero_le_one)
    Coins.told.2.2.2.2 Normals.noise_square Normals.noise_centred
  refine ⟨f', h1, (h2 0).trans_eq ?_⟩
  have e : (!![(1 : ℝ) * Coins.start.mu 0 + 1] * Coins.start.sigma * (!![(1 : ℝ) * Coins.start.mu 0 + 1])ᵀ + !![1])
      = !![(2 : ℝ)] := by
    ext i j; fin_cases i; fin_cases j
    simp [Coins.start, KF.make, Matrix.vecMul, dotProduct]
    norm_num
  have e2 : (!![(2 : ℝ)])⁻¹ = !![1 / 2] := by
    refine Matrix.inv_eq_right_inv ?_
    ext i j; fin_cases i; fin_cases j; simp
  simp only [e, e2]
  simp [Coins.start, KF.make, Matrix.mul_apply, Matrix.vecMul, dotProduct]
  norm_num

end BFL.Props
