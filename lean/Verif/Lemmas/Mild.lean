import Verif.Spec.Mild
import Verif.Lemmas.LinearWorld
import Mathlib.Analysis.Calculus.Deriv.MeanValue
import Mathlib.Analysis.Calculus.FDeriv.Comp
import Mathlib.Analysis.Calculus.Deriv.Prod
import Mathlib.Analysis.Calculus.Deriv.Pow
import Mathlib.Probability.Moments.Covariance
import Mathlib.Algebra.QuadraticDiscriminant

/-! # How far a mildly nonlinear function is from its linearisation -/

set_option linter.unusedSectionVars false

namespace BFL

open Matrix MeasureTheory Spec

variable {Ω : Type} [MeasurableSpace Ω] {μ : Measure Ω} {n m : Nat} {U : Type}

/-- The random state `X` has the mean and the covariance that the filter reports. -/
structure Reported (μ : Measure Ω) (X : Ω → Fin n → ℝ) (f : KF ℝ n) : Prop where
  square : Square μ X
  mean : ∀ i, ∫ ω, X ω i ∂μ = f.mu i
  covariance : moment μ (fun ω => X ω - f.mu) (fun ω => X ω - f.mu) = f.sigma

theorem PriorRight.reported [IsProbabilityMeasure μ] {X : Ω → Fin n → ℝ} {f : KF ℝ n} (h : PriorRight μ X f) :
    Reported μ X f := by
  have hs : Square μ X := fun i => by
    have h1 := (h.1 i).add (memLp_const (μ := μ) (p := 2) (f.mu i))
    refine (memLp_congr_ae (Filter.Eventually.of_forall fun ω => ?_)).1 h1
    simp
  refine ⟨hs, fun i => ?_, h.2.2⟩
  have h1 := h.2.1 i
  simp only [Pi.sub_apply] at h1
  rw [integral_sub ((hs i).integrable one_le_two) (integrable_const _)] at h1
  simp at h1
  linarith

theorem taylor_upper {φ φ' : ℝ → ℝ} {c : ℝ} (h : ∀ t, HasDerivAt φ (φ' t) t)
    (hb : ∀ t, 0 < t → φ' t - φ' 0 ≤ c * t) : φ 1 - φ 0 - φ' 0 ≤ c / 2 := by
  have hd : ∀ t, HasDerivAt (fun t => φ t - φ' 0 * t - c / 2 * t ^ 2) (φ' t - φ' 0 - c * t) t := by
    intro t
    have h1 := ((h t).sub ((hasDerivAt_id t).const_mul (φ' 0))).sub (((hasDerivAt_id t).pow 2).const_mul (c / 2))
    refine h1.congr_deriv ?_
    simp only [id_eq]
    ring
  have han : AntitoneOn (fun t => φ t - φ' 0 * t - c / 2 * t ^ 2) (Set.Icc 0 1) := by
    apply antitoneOn_of_deriv_nonpos (convex_Icc 0 1)
    · exact fun t _ => (hd t).continuousAt.continuousWithinAt
    · exact fun t _ => (hd t).differentiableAt.differentiableWithinAt
    · intro t ht
      rw [interior_Icc] at ht
      rw [(hd t).deriv]
      linarith [hb t ht.1]
  have := han (Set.left_mem_Icc.2 zero_le_one) (Set.right_mem_Icc.2 zero_le_one) zero_le_one
  simp at this
  linarith

theorem taylor_abs {φ φ' : ℝ → ℝ} {c : ℝ} (h : ∀ t, HasDerivAt φ (φ' t) t)
    (hb : ∀ t, 0 < t → |φ' t - φ' 0| ≤ c * t) : |φ 1 - φ 0 - φ' 0| ≤ c / 2 := by
  rw [abs_le]
  have h1 := taylor_upper h fun t ht => (abs_le.1 (hb t ht)).2
  have h2 := taylor_upper (φ := fun t => - φ t) (φ' := fun t => - φ' t) (c := c) (fun t => (h t).neg)
    fun t ht => by linarith [(abs_le.1 (hb t ht)).1]
  constructor <;> linarith

variable {model : AnalyticModel ℝ n m U} {u : Option U} {g : (Fin n → ℝ) → Fin m → ℝ}
  {F : (Fin n → ℝ) → Matrix (Fin m) (Fin n) ℝ} {Q : (Fin n → ℝ) → Matrix (Fin m) (Fin m) ℝ} {L : ℝ}

namespace Mild

theorem line (h : Mild model u g F Q L) (a d : Fin n → ℝ) (i : Fin m) (t : ℝ) :
    HasDerivAt (fun t : ℝ => g (a + t • d) i) ((F (a + t • d) *ᵥ d) i) t := by
  have hl : HasDerivAt (fun t : ℝ => a + t • d) d t := by
    have := ((hasDerivAt_id t).smul_const d).const_add a
    simpa using this
  have h1 := (h.derivative (a + t • d)).comp_hasDerivAt t hl
  exact (hasDerivAt_pi.1 h1) i

/-- Taylor's formula with the linear term. -/
theorem remainder (h : Mild model u g F Q L) (a x : Fin n → ℝ) (i : Fin m) :
    |g x i - g a i - (F a *ᵥ (x - a)) i| ≤ L / 2 * ((x - a) ⬝ᵥ (x - a)) := by
  have hb : ∀ t : ℝ, 0 < t → |(F (a + t • (x - a)) *ᵥ (x - a)) i - (F (a + (0 : ℝ) • (x - a)) *ᵥ (x - a)) i|
      ≤ L * ((x - a) ⬝ᵥ (x - a)) * t := by
    intro t ht
    have h1 := h.bend (a + t • (x - a)) a i
    rw [add_sub_cancel_left] at h1
    simp only [mulVec_smul, Pi.smul_apply, smul_eq_mul, dotProduct_smul, smul_dotProduct, zero_smul, add_zero] at h1 ⊢
    rw [← mul_sub, abs_mul, abs_of_pos ht] at h1
    have : t * |(F (a + t • (x - a)) *ᵥ (x - a)) i - (F a *ᵥ (x - a)) i| ≤ t * (L * ((x - a) ⬝ᵥ (x - a)) * t) := by
      calc _ ≤ _ := h1
        _ = _ := by ring
    exact le_of_mul_le_mul_left this ht
  have := taylor_abs (fun t => line h a (x - a) i t) hb
  simp only [one_smul, zero_smul, add_zero, add_sub_cancel] at this
  calc _ ≤ _ := this
    _ = _ := by ring

theorem continuous (h : Mild model u g F Q L) : Continuous g :=
  continuous_iff_continuousAt.2 fun x => (h.derivative x).continuousAt

theorem measurable (h : Mild model u g F Q L) {X : Ω → Fin n → ℝ} (hX : Square μ X) (i : Fin m) :
    AEStronglyMeasurable (fun ω => g (X ω) i) μ := by
  have hm : AEStronglyMeasurable X μ := by
    refine AEMeasurable.aestronglyMeasurable ?_
    exact aemeasurable_pi_iff.2 fun j => (hX j).1.aemeasurable
  exact ((continuous_apply i).comp (continuous h)).comp_aestronglyMeasurable hm

end Mild

theorem dist_integrable [IsProbabilityMeasure μ] {X : Ω → Fin n → ℝ} (hX : Square μ X) :
    Integrable (fun ω => X ω ⬝ᵥ X ω) μ := by
  simp only [dotProduct]
  exact integrable_finsetSum _ fun i _ => (hX i).integrable_mul (hX i)

theorem dist_mean [IsProbabilityMeasure μ] {X : Ω → Fin n → ℝ} (hX : Square μ X) :
    ∫ ω, X ω ⬝ᵥ X ω ∂μ = (Spec.moment μ X X).trace := by
  simp only [dotProduct, Matrix.trace, Matrix.diag_apply, Spec.moment, Matrix.of_apply]
  rw [integral_finsetSum]
  exact fun i _ => (hX i).integrable_mul (hX i)

/-- The part of the function that the linearisation at `a` does not explain. -/
def rest (g : (Fin n → ℝ) → Fin m → ℝ) (F : (Fin n → ℝ) → Matrix (Fin m) (Fin n) ℝ) (a x : Fin n → ℝ) (i : Fin m) : ℝ :=
  g x i - g a i - (F a *ᵥ (x - a)) i

theorem square_sub [IsProbabilityMeasure μ] {X : Ω → Fin n → ℝ} (hX : Square μ X) (a : Fin n → ℝ) :
    Square μ (fun ω => X ω - a) := fun i => (hX i).sub (memLp_const _)

theorem rest_measurable (h : Mild model u g F Q L) [IsProbabilityMeasure μ] {X : Ω → Fin n → ℝ} (hX : Square μ X)
    (a : Fin n → ℝ) (i : Fin m) : AEStronglyMeasurable (fun ω => rest g F a (X ω) i) μ :=
  ((Mild.measurable h hX i).sub aestronglyMeasurable_const).sub
    (Moment.square_mulVec (F a) (square_sub hX a) i).1

theorem rest_integrable (h : Mild model u g F Q L) [IsProbabilityMeasure μ] {X : Ω → Fin n → ℝ} (hX : Square μ X)
    (a : Fin n → ℝ) (i : Fin m) : Integrable (fun ω => rest g F a (X ω) i) μ :=
  ((dist_integrable (square_sub hX a)).const_mul (L / 2)).mono' (rest_measurable h hX a i)
    (Filter.Eventually.of_forall fun ω => Mild.remainder h a (X ω) i)

theorem split_rest (a x : Fin n → ℝ) (i : Fin m) : g x i = (g a i + (F a *ᵥ (x - a)) i) + rest g F a x i := by
  simp only [rest]; ring

theorem value_integrable (h : Mild model u g F Q L) [IsProbabilityMeasure μ] {X : Ω → Fin n → ℝ} (hX : Square μ X)
    (i : Fin m) : Integrable (fun ω => g (X ω) i) μ := by
  have h1 := ((integrable_const (g 0 i)).add ((Moment.square_mulVec (F 0) (square_sub hX 0) i).integrable one_le_two)).add
    (rest_integrable h hX 0 i)
  exact h1.congr (Filter.Eventually.of_forall fun ω => (split_rest 0 (X ω) i).symm)

theorem linear_mean [IsProbabilityMeasure μ] {X : Ω → Fin n → ℝ} {f : KF ℝ n} (hX : Reported μ X f)
    (A : Matrix (Fin m) (Fin n) ℝ) (i : Fin m) : ∫ ω, (A *ᵥ (X ω - f.mu)) i ∂μ = 0 := by
  have hi : ∀ j, Integrable (fun ω => X ω j) μ := fun j => (hX.square j).integrable one_le_two
  have hi' : ∀ j, Integrable (fun ω => A i j * (X ω j - f.mu j)) μ :=
    fun j => ((hi j).sub (integrable_const _)).const_mul _
  show ∫ ω, ∑ j, A i j * (X ω j - f.mu j) ∂μ = 0
  rw [integral_finsetSum _ fun j _ => hi' j]
  refine Finset.sum_eq_zero fun j _ => ?_
  rw [integral_const_mul, integral_sub (hi j) (integrable_const _), hX.mean j]
  simp

/-- The bias of the linearisation. -/
theorem bias (h : Mild model u g F Q L) [IsProbabilityMeasure μ] {X : Ω → Fin n → ℝ} {f : KF ℝ n}
    (hX : Reported μ X f) (i : Fin m) : |∫ ω, g (X ω) i ∂μ - g f.mu i| ≤ L / 2 * f.sigma.trace := by
  have hl : Integrable (fun ω => (F f.mu *ᵥ (X ω - f.mu)) i) μ :=
    (Moment.square_mulVec (F f.mu) (square_sub hX.square f.mu) i).integrable one_le_two
  have hl' : Integrable (fun ω => g f.mu i + (F f.mu *ᵥ (X ω - f.mu)) i) μ := (integrable_const _).add hl
  have hr := rest_integrable h hX.square f.mu i
  have e : ∫ ω, g (X ω) i ∂μ - g f.mu i = ∫ ω, rest g F f.mu (X ω) i ∂μ := by
    have : ∫ ω, g (X ω) i ∂μ = ∫ ω, ((g f.mu i + (F f.mu *ᵥ (X ω - f.mu)) i) + rest g F f.mu (X ω) i) ∂μ :=
      integral_congr_ae (Filter.Eventually.of_forall fun ω => split_rest f.mu (X ω) i)
    rw [this, integral_add hl' hr, integral_add (integrable_const _) hl, linear_mean hX]
    simp
  rw [e, ← hX.covariance, ← dist_mean (square_sub hX.square f.mu), ← integral_const_mul]
  exact (abs_integral_le_integral_abs).trans (integral_mono hr.abs
    ((dist_integrable (square_sub hX.square f.mu)).const_mul _) fun ω => Mild.remainder h f.mu (X ω) i)

theorem cauchy {a b : Ω → ℝ} (ha : MemLp a 2 μ) (hb : MemLp b 2 μ) :
    |∫ ω, a ω * b ω ∂μ| ≤ √(∫ ω, a ω ^ 2 ∂μ) * √(∫ ω, b ω ^ 2 ∂μ) := by
  have h2 : ∀ t : ℝ, 0 ≤ (∫ ω, a ω ^ 2 ∂μ) * (t * t) + (2 * ∫ ω, a ω * b ω ∂μ) * t + ∫ ω, b ω ^ 2 ∂μ := by
    intro t
    have e : (∫ ω, a ω ^ 2 ∂μ) * (t * t) + (2 * ∫ ω, a ω * b ω ∂μ) * t + ∫ ω, b ω ^ 2 ∂μ
        = ∫ ω, (t * a ω + b ω) ^ 2 ∂μ := by
      have : ∀ ω, (t * a ω + b ω) ^ 2 = (t * t) * a ω ^ 2 + 2 * t * (a ω * b ω) + b ω ^ 2 := fun ω => by ring
      simp only [this]
      rw [integral_add, integral_add, integral_const_mul, integral_const_mul]
      · ring
      · exact ha.integrable_sq.const_mul _
      · exact (ha.integrable_mul hb).const_mul _
      · exact (ha.integrable_sq.const_mul _).add ((ha.integrable_mul hb).const_mul _)
      · exact hb.integrable_sq
    rw [e]
    exact integral_nonneg fun ω => sq_nonneg _
  have hd := discrim_le_zero h2
  rw [discrim] at hd
  rw [← Real.sqrt_mul (integral_nonneg fun ω => sq_nonneg _)]
  exact Real.abs_le_sqrt (by linarith)

open ProbabilityTheory in
theorem cov_bound [IsProbabilityMeasure μ] {a b : Ω → ℝ} (ha : MemLp a 2 μ) (hb : MemLp b 2 μ) :
    |cov[a, b; μ]| ≤ √(∫ ω, a ω ^ 2 ∂μ) * √(∫ ω, b ω ^ 2 ∂μ) := by
  have key : ∀ {c : Ω → ℝ}, MemLp c 2 μ → ∫ ω, (c ω - ∫ ω, c ω ∂μ) ^ 2 ∂μ ≤ ∫ ω, c ω ^ 2 ∂μ := by
    intro c hc
    have hi := hc.integrable one_le_two
    have : ∀ ω, (c ω - ∫ ω, c ω ∂μ) ^ 2 = c ω ^ 2 - 2 * (∫ ω, c ω ∂μ) * c ω + (∫ ω, c ω ∂μ) ^ 2 := fun ω => by ring
    simp only [this]
    have h1 : Integrable (fun ω => c ω ^ 2 - 2 * (∫ ω, c ω ∂μ) * c ω) μ := hc.integrable_sq.sub (hi.const_mul _)
    rw [integral_add h1 (integrable_const _), integral_sub hc.integrable_sq (hi.const_mul _), integral_const_mul]
    simp only [integral_const, probReal_univ, one_smul]
    nlinarith [sq_nonneg (∫ ω, c ω ∂μ)]
  refine (cauchy (ha.sub (memLp_const (∫ ω, a ω ∂μ))) (hb.sub (memLp_const (∫ ω, b ω ∂μ)))).trans ?_
  exact mul_le_mul (Real.sqrt_le_sqrt (key ha)) (Real.sqrt_le_sqrt (key hb)) (Real.sqrt_nonneg _) (Real.sqrt_nonneg _)

theorem dist_square [IsProbabilityMeasure μ] {X : Ω → Fin n → ℝ} (hX : ∀ i, MemLp (fun ω => X ω i) 4 μ) :
    MemLp (fun ω => X ω ⬝ᵥ X ω) 2 μ := by
  simp only [dotProduct]
  refine memLp_finsetSum _ fun i _ => ?_
  have : ENNReal.HolderTriple 4 4 2 := ⟨by
    rw [← two_mul, show (4 : ENNReal) = 2 * 2 by norm_num, ENNReal.mul_inv (by simp) (by simp), ← mul_assoc,
      ENNReal.mul_inv_cancel (by simp) (by simp), one_mul]⟩
  exact (hX i).mul (hX i)

theorem rest_square (h : Mild model u g F Q L) [IsProbabilityMeasure μ] {X : Ω → Fin n → ℝ} (hX : Square μ X)
    (hX4 : ∀ i, MemLp (fun ω => X ω i) 4 μ) (a : Fin n → ℝ) (i : Fin m) :
    MemLp (fun ω => rest g F a (X ω) i) 2 μ ∧
      √(∫ ω, rest g F a (X ω) i ^ 2 ∂μ) ≤ |L| / 2 * √(∫ ω, ((X ω - a) ⬝ᵥ (X ω - a)) ^ 2 ∂μ) := by
  have hd : MemLp (fun ω => (X ω - a) ⬝ᵥ (X ω - a)) 2 μ := dist_square fun i => (hX4 i).sub (memLp_const _)
  have hm : MemLp (fun ω => rest g F a (X ω) i) 2 μ :=
    (hd.const_mul (L / 2)).mono' (rest_measurable h hX a i)
      (Filter.Eventually.of_forall fun ω => Mild.remainder h a (X ω) i)
  refine ⟨hm, ?_⟩
  have e : |L| / 2 = √((L / 2) ^ 2) := by rw [Real.sqrt_sq_eq_abs, abs_div, abs_two]
  rw [e, ← Real.sqrt_mul (sq_nonneg _), ← integral_const_mul]
  refine Real.sqrt_le_sqrt (integral_mono hm.integrable_sq (hd.integrable_sq.const_mul _) fun ω => ?_)
  rw [← mul_pow]
  exact sq_le_sq' (abs_le.1 (Mild.remainder h a (X ω) i)).1 (abs_le.1 (Mild.remainder h a (X ω) i)).2

open ProbabilityTheory in
theorem cov_sums [IsProbabilityMeasure μ] {a b r s v w : Ω → ℝ} (ha : MemLp a 2 μ) (hb : MemLp b 2 μ)
    (hr : MemLp r 2 μ) (hs : MemLp s 2 μ) (hv : MemLp v 2 μ) (hw : MemLp w 2 μ)
    (h1 : cov[a + r, w; μ] = 0) (h2 : cov[b + s, v; μ] = 0) :
    cov[(a + r) + v, (b + s) + w; μ] = cov[a, b; μ] + cov[a, s; μ] + cov[r, b; μ] + cov[r, s; μ] + cov[v, w; μ] := by
  have har : MemLp (a + r) 2 μ := ha.add hr
  have hbs : MemLp (b + s) 2 μ := hb.add hs
  have e1 : cov[(a + r) + v, (b + s) + w; μ] = cov[a + r, (b + s) + w; μ] + cov[v, (b + s) + w; μ] :=
    covariance_add_left har hv (hbs.add hw)
  have e2 : cov[a + r, (b + s) + w; μ] = cov[a + r, b + s; μ] + cov[a + r, w; μ] := covariance_add_right har hbs hw
  have e3 : cov[v, (b + s) + w; μ] = cov[v, b + s; μ] + cov[v, w; μ] := covariance_add_right hv hbs hw
  have e4 : cov[a + r, b + s; μ] = cov[a, b + s; μ] + cov[r, b + s; μ] := covariance_add_left ha hr hbs
  have e5 : cov[a, b + s; μ] = cov[a, b; μ] + cov[a, s; μ] := covariance_add_right ha hb hs
  have e6 : cov[r, b + s; μ] = cov[r, b; μ] + cov[r, s; μ] := covariance_add_right hr hb hs
  rw [e1, e2, e3, e4, e5, e6, h1, covariance_comm v, h2]
  ring

open ProbabilityTheory in
/-- Covariance of two sums of a constant, a main part, a small part and an independent part. -/
theorem cov_split [IsProbabilityMeasure μ] {c d : ℝ} {a b r s v w : Ω → ℝ} (ha : MemLp a 2 μ) (hb : MemLp b 2 μ)
    (hr : MemLp r 2 μ) (hs : MemLp s 2 μ) (hv : MemLp v 2 μ) (hw : MemLp w 2 μ)
    (h1 : cov[(fun ω => c + a ω) + r, w; μ] = 0) (h2 : cov[(fun ω => d + b ω) + s, v; μ] = 0)
    {M : ℝ} (hM : 0 ≤ M) (hrM : √(∫ ω, r ω ^ 2 ∂μ) ≤ M) (hsM : √(∫ ω, s ω ^ 2 ∂μ) ≤ M) :
    |cov[((fun ω => c + a ω) + r) + v, ((fun ω => d + b ω) + s) + w; μ] - (cov[a, b; μ] + cov[v, w; μ])|
      ≤ M * (√(∫ ω, a ω ^ 2 ∂μ) + √(∫ ω, b ω ^ 2 ∂μ)) + M ^ 2 := by
  have hca : MemLp (fun ω => c + a ω) 2 μ := (memLp_const (μ := μ) (p := 2) c).add ha
  have hdb : MemLp (fun ω => d + b ω) 2 μ := (memLp_const (μ := μ) (p := 2) d).add hb
  have b1 := (cov_bound ha hs).trans (mul_le_mul_of_nonneg_left hsM (Real.sqrt_nonneg _))
  have b2 := (cov_bound hr hb).trans (mul_le_mul_of_nonneg_right hrM (Real.sqrt_nonneg _))
  have b3 := (cov_bound hr hs).trans (mul_le_mul hrM hsM (Real.sqrt_nonneg _) hM)
  have e : cov[((fun ω => c + a ω) + r) + v, ((fun ω => d + b ω) + s) + w; μ] - (cov[a, b; μ] + cov[v, w; μ])
      = cov[a, s; μ] + cov[r, b; μ] + cov[r, s; μ] := by
    rw [cov_sums hca hdb hr hs hv hw h1 h2,
      covariance_const_add_left (ha.integrable one_le_two), covariance_const_add_left (ha.integrable one_le_two),
      covariance_const_add_right (hb.integrable one_le_two), covariance_const_add_right (hb.integrable one_le_two)]
    ring
  rw [e]
  have t1 := abs_add_le (cov[a, s; μ] + cov[r, b; μ]) (cov[r, s; μ])
  have t2 := abs_add_le (cov[a, s; μ]) (cov[r, b; μ])
  calc _ ≤ _ := t1
    _ ≤ √(∫ ω, a ω ^ 2 ∂μ) * M + M * √(∫ ω, b ω ^ 2 ∂μ) + M * M := by linarith
    _ = M * (√(∫ ω, a ω ^ 2 ∂μ) + √(∫ ω, b ω ^ 2 ∂μ)) + M ^ 2 := by ring

open ProbabilityTheory in
/-- The error of the linearised covariance. -/
theorem covariance_error (h : Mild model u g F Q L) [IsProbabilityMeasure μ] {X : Ω → Fin n → ℝ} {f : KF ℝ n}
    (hX : Reported μ X f) (hX4 : ∀ i, MemLp (fun ω => X ω i) 4 μ) {W : Ω → Fin m → ℝ} (hW : Square μ W)
    (hWc : Centred μ W) (hWX : IndepFun X W μ) {M : ℝ}
    (hM : M = √(∫ ω, ((X ω - f.mu) ⬝ᵥ (X ω - f.mu)) ^ 2 ∂μ)) (i j : Fin m) :
    |covariance μ (fun ω => g (X ω) + W ω) i j
        - (F f.mu * f.sigma * (F f.mu)ᵀ + Spec.moment μ W W) i j|
      ≤ |L| / 2 * M * (√((F f.mu * f.sigma * (F f.mu)ᵀ) i i) + √((F f.mu * f.sigma * (F f.mu)ᵀ) j j))
        + (|L| / 2 * M) ^ 2 := by
  have hA : Spec.moment μ (fun ω => F f.mu *ᵥ (X ω - f.mu)) (fun ω => F f.mu *ᵥ (X ω - f.mu))
      = F f.mu * f.sigma * (F f.mu)ᵀ := by
    have hs := square_sub hX.square f.mu
    rw [Moment.mulVec_left _ hs (Moment.square_mulVec _ hs), Moment.mulVec_right _ hs hs, hX.covariance,
      Matrix.mul_assoc]
  have hl : ∀ i, MemLp (fun ω => (F f.mu *ᵥ (X ω - f.mu)) i) 2 μ :=
    fun i => Moment.square_mulVec (F f.mu) (square_sub hX.square f.mu) i
  have hr : ∀ i, MemLp (fun ω => rest g F f.mu (X ω) i) 2 μ := fun i => (rest_square h hX.square hX4 f.mu i).1
  have hM0 : 0 ≤ |L| / 2 * M := by rw [hM]; positivity
  have hlA : ∀ i j, ∫ ω, (F f.mu *ᵥ (X ω - f.mu)) i * (F f.mu *ᵥ (X ω - f.mu)) j ∂μ
      = (F f.mu * f.sigma * (F f.mu)ᵀ) i j := fun i j => by rw [← hA]; rfl
  have eg : ∀ i, (fun ω => g (X ω) i)
      = (fun ω => g f.mu i + (F f.mu *ᵥ (X ω - f.mu)) i) + (fun ω => rest g F f.mu (X ω) i) := fun i => by
    funext ω; exact split_rest f.mu (X ω) i
  have hgi : ∀ i, MemLp (fun ω => g (X ω) i) 2 μ := fun i => by
    rw [eg i]; exact ((memLp_const (g f.mu i)).add (hl i)).add (hr i)
  have hind : ∀ i j, cov[fun ω => g (X ω) i, fun ω => W ω j; μ] = 0 := by
    intro i j
    have m1 : Measurable (fun x : Fin n → ℝ => g x i) := (measurable_pi_apply i).comp (Mild.continuous h).measurable
    have m2 : Measurable (fun w : Fin m → ℝ => w j) := measurable_pi_apply j
    exact (hWX.comp m1 m2).covariance_eq_zero (hgi i) (hW j)
  have e0 : covariance μ (fun ω => g (X ω) + W ω) i j
      = cov[(fun ω => g (X ω) i) + (fun ω => W ω i), (fun ω => g (X ω) j) + (fun ω => W ω j); μ] := rfl
  have e2 : cov[fun ω => (F f.mu *ᵥ (X ω - f.mu)) i, fun ω => (F f.mu *ᵥ (X ω - f.mu)) j; μ]
      = (F f.mu * f.sigma * (F f.mu)ᵀ) i j := by
    rw [← hlA]
    simp only [ProbabilityTheory.covariance, linear_mean hX, sub_zero]
  have e3 : cov[fun ω => W ω i, fun ω => W ω j; μ] = Spec.moment μ W W i j := by
    simp only [ProbabilityTheory.covariance, Spec.moment, Matrix.of_apply]
    rw [hWc i, hWc j]
    simp
  have h1 := hind i j
  have h2 := hind j i
  rw [e0, Matrix.add_apply, ← e2, ← e3, ← hlA i i, ← hlA j j]
  rw [eg i] at h1 ⊢
  rw [eg j] at h2 ⊢
  simp only [← sq]
  exact cov_split (hl i) (hl j) (hr i) (hr j) (hW i) (hW j) h1 h2 hM0 (hM ▸ (rest_square h hX.square hX4 f.mu i).2)
    (hM ▸ (rest_square h hX.square hX4 f.mu j).2)

end BFL
