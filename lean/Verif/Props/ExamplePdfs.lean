import Verif.Model.ExamplePdfs
import Verif.Spec.ExamplePdfs
import Verif.Props.LinearModelLaw
import Verif.Props.Gaussian

/-!
# C84: the densities and the robot of the examples
-/

set_option linter.unusedSectionVars false

namespace BFL.Props

open Matrix Spec MeasureTheory ProbabilityTheory ExamplePdfs

/-- The density of one normal number at the reflected place. -/
theorem normalDensity_reflect {n : Nat} (m : Fin n → ℝ) (s : Matrix (Fin n) (Fin n) ℝ) (e x : Fin n → ℝ) :
    normalDensity m s (e - x) = normalDensity (e - m) s x := by
  unfold normalDensity
  have : e - x - m = -(x - (e - m)) := by abel
  rw [this]
  unfold quad
  rw [mulVec_neg, neg_dotProduct, dotProduct_neg, neg_neg]

/-- **C84.** Whatever was done with the noise before it was handed over, the likelihood of a measurement is
the density of `2 y - noise`. -/
theorem C84_likelihood (be : Backend) (m : Fin 1 → ℝ) (s : Matrix (Fin 1) (Fin 1) ℝ) (hs : PD s)
    (ops : List (Gaussian.Op 1)) (hops : ∀ s', Gaussian.Op.setCov s' ∈ ops → PD s') :
    ∃ noise, Gaussian.run be ops (Gaussian.make m s) = .ok noise ∧
      (∀ (x : Fin 3 → ℝ) (z : Fin 1 → ℝ), ∃ noise',
        measurementProb be noise ⟨3, x⟩ ⟨1, z⟩ =
          .ok (normalDensity (![2 * x 1] - lastMean m ops) (lastCov s ops) z, noise')) ∧
      ∀ (k : Int) (z : Fin 1 → ℝ), ∃ noise',
        discreteMeasurementProb be noise k ⟨1, z⟩ =
          .ok (normalDensity (![2 * (k : ℝ)] - lastMean m ops) (lastCov s ops) z, noise') := by
  obtain ⟨noise, h1, h2⟩ := C41_density be m s hs ops hops
  refine ⟨noise, h1, fun x z => ?_, fun k z => ?_⟩
  · obtain ⟨g', hg⟩ := h2 (![2 * x 1] - z)
    refine ⟨g', ?_⟩
    rw [← normalDensity_reflect, ← hg]
    rfl
  · obtain ⟨g', hg⟩ := h2 (![2 * (k : ℝ)] - z)
    refine ⟨g', ?_⟩
    rw [← normalDensity_reflect, ← hg]
    rfl

/-- **C84.** The likelihood is that of a measurement `2 y + noise` exactly if the noise has mean zero. -/
theorem C84_likelihood_bias (be : Backend) (m : Fin 1 → ℝ) (s : Matrix (Fin 1) (Fin 1) ℝ) (hs : PD s)
    (x : Fin 3 → ℝ) :
    (∀ z, Prod.fst <$> measurementProb be (Gaussian.make m s) ⟨3, x⟩ ⟨1, z⟩ =
      .ok (normalDensity (![2 * x 1] + m) s z)) ↔ m = 0 := by
  have key : ∀ z, Prod.fst <$> measurementProb be (Gaussian.make m s) ⟨3, x⟩ ⟨1, z⟩ =
      .ok (normalDensity (![2 * x 1] - m) s z) := by
    intro z
    obtain ⟨noise, h1, h2, -⟩ := C84_likelihood be m s hs [] (by simp)
    cases h1
    obtain ⟨g', hg⟩ := h2 x z
    rw [hg]
    rfl
  constructor
  · intro h
    by_contra hm
    have h1 := Outcome.ok.inj ((key (![2 * x 1] + m)).symm.trans (h (![2 * x 1] + m)))
    have hd : 0 < Real.sqrt ((2 * Real.pi) ^ 1 * s.det) :=
      Real.sqrt_pos.2 (mul_pos (by positivity) (pd_det_pos hs))
    unfold normalDensity at h1
    rw [div_left_inj' hd.ne', Real.exp_eq_exp, sub_self] at h1
    have e : ![2 * x 1] + m - (![2 * x 1] - m) = (2 : ℝ) • m := by
      rw [two_smul]
      abel
    rw [e] at h1
    have hq : 0 < quad s⁻¹ ((2 : ℝ) • m) := hs.inv.2 _ (by simpa using hm)
    have h0 : quad s⁻¹ (0 : Fin 1 → ℝ) = 0 := by simp [quad]
    rw [h0] at h1
    linarith
  · rintro rfl z
    rw [key, sub_zero, add_zero]

/-- **C84.** A state without second coordinate and a measurement that is not one number are undefined. -/
theorem C84_likelihood_sizes (be : Backend) (noise : Gaussian 1) (x z : DVec ℝ) (k : Int) :
    (x.1 < 2 → measurementProb be noise x z = .ub) ∧
    (z.1 ≠ 1 → measurementProb be noise x z = .ub ∧ discreteMeasurementProb be noise k z = .ub) := by
  constructor
  · intro h
    unfold measurementProb DVec.elem
    rw [dif_neg (by omega)]
    rfl
  · intro h
    constructor
    · unfold measurementProb DVec.elem DVec.subFrom
      split <;> simp
    · unfold discreteMeasurementProb DVec.subFrom
      rw [dif_neg h]; rfl

theorem driven_updates (u : Fin 2 → ℝ) (x : Fin 3 → ℝ) :
    (let s1 := Function.update x 0 (x 0 + Real.cos (x 2) * u 0)
     let s2 := Function.update s1 1 (s1 1 + Real.sin (s1 2) * u 0)
     Function.update s2 2 (s2 2 + u 1)) = driven u x := by
  funext i
  fin_cases i <;> simp [driven, Function.update, mul_comm]

/-- The system model of the examples is driving with noise. -/
theorem mobile_driven (r : Mobile) (u : Fin 2 → ℝ) (x : Fin 3 → ℝ) :
    r.expectedValue u x = driven u x + r.mu := by
  rw [← driven_updates]
  rfl

theorem systemSample_eq (m : Fin 3 → ℝ) (s : Matrix (Fin 3) (Fin 3) ℝ) {me : SampleMthd}
    (hme : me = .default ∨ me = .cholesky) (x : Fin 3 → ℝ) (u : Fin 2 → ℝ) (z : Fin 3 → ℝ) :
    systemSample (Gaussian.make m s) me x u z =
      .ok (true, (ConditionalGaussian.sampleOne (driven u x + m) s me 0 z).2) := by
  rw [conditional_sample _ _ hme, ← driven_updates]
  rcases hme with rfl | rfl
  all_goals
    show Outcome.ok (true, _ + ((cholesky Real.sqrt machEps s).2 *ᵥ z + m)) = Outcome.ok (true, _)
    congr 2
    show _ = (cholesky Real.sqrt machEps s).2 *ᵥ z + (_ + m)
    abel

/-- **C84.** The system density samples the state after driving plus the noise. -/
theorem C84_system_law (m : Fin 3 → ℝ) (s : Matrix (Fin 3) (Fin 3) ℝ)
    (hs : PSD (s - machEps • (1 : Matrix (Fin 3) (Fin 3) ℝ))) (me : SampleMthd)
    (hme : me = .default ∨ me = .cholesky) (x : Fin 3 → ℝ) (u : Fin 2 → ℝ) :
    ∃ sample, (∀ z, systemSample (Gaussian.make m s) me x u z = .ok (true, sample z)) ∧
      HasDensity sample (normalDensity (driven u x + m) s) :=
  ⟨_, systemSample_eq m s hme x u, (conditional_law (driven u x + m) s hs hme 0).2.2⟩

/-- **C84.** With the two other sampling methods the system density has undefined behaviour. -/
theorem C84_system_methods (noise : Gaussian 3) (x : Fin 3 → ℝ) (u : Fin 2 → ℝ) (z : Fin 3 → ℝ) :
    systemSample noise .boxmuller x u z = .ub ∧ systemSample noise .ripley x u z = .ub :=
  ⟨rfl, rfl⟩

/-- **C84.** The system density reports success also when the noise cannot be sampled: it then returns the
state after driving plus the mean of the noise. -/
theorem C84_system_flag (m : Fin 3 → ℝ) (s : Matrix (Fin 3) (Fin 3) ℝ) (x : Fin 3 → ℝ) (u : Fin 2 → ℝ)
    (z v : Fin 3 → ℝ) (h : (Gaussian.make m s).sampleOne .default 0 z = .ok (false, v)) :
    systemSample (Gaussian.make m s) .default x u z = .ok (true, driven u x + v) := by
  have h' : Outcome.ok ((cholesky Real.sqrt machEps s).1, (cholesky Real.sqrt machEps s).2 *ᵥ z + m) =
      Outcome.ok (false, v) := h
  have h2 := congrArg Prod.snd (Outcome.ok.inj h')
  simp only at h2
  rw [systemSample_eq m s (Or.inl rfl), conditional_sample _ _ (Or.inl rfl), ← h2]
  congr 2
  simp only
  abel

/-- **C84.** The simulated robot moves with the distribution that the system density of the particle filter
samples. -/
theorem C84_move_law (r : Robot) (hs : PSD (r.sys.sigma - machEps • (1 : Matrix (Fin 3) (Fin 3) ℝ)))
    (u : Fin 2 → ℝ) :
    HasDensity (fun z => (r.move u z).state) (normalDensity (driven u r.state + r.sys.mu) r.sys.sigma) ∧
    ∀ z, systemSample (Gaussian.make r.sys.mu r.sys.sigma) .default r.state u z =
      .ok (true, (r.move u z).state) := by
  have e : ∀ z, (r.move u z).state =
      (ConditionalGaussian.sampleOne (driven u r.state + r.sys.mu) r.sys.sigma .default 0 z).2 := by
    intro z
    show (ConditionalGaussian.sampleOne (r.sys.expectedValue u r.state) _ _ _ _).2 = _
    rw [mobile_driven]
  refine ⟨?_, fun z => ?_⟩
  · rw [funext e]
    exact (conditional_law _ _ hs (Or.inl rfl) 0).2.2
  · rw [systemSample_eq _ _ (Or.inl rfl), e]

/-! ## The distance sensor -/

/-- The distance of a point from a line. -/
theorem wallDistance (a b x y : ℝ) :
    WallDistance a b x y (|a * x + b - y| / Real.sqrt (a ^ 2 + 1)) := by
  have hc : 0 < a ^ 2 + 1 := by positivity
  have hr : 0 < Real.sqrt (a ^ 2 + 1) := Real.sqrt_pos.2 hc
  have hd : |a * x + b - y| / Real.sqrt (a ^ 2 + 1) = Real.sqrt ((a * x + b - y) ^ 2 / (a ^ 2 + 1)) := by
    rw [Real.sqrt_div (sq_nonneg _), Real.sqrt_sq_eq_abs]
  rw [hd]
  constructor
  · refine ⟨x - a * (a * x + b - y) / (a ^ 2 + 1), ?_⟩
    simp only
    congr 1
    field_simp
    ring
  · rintro _ ⟨t, rfl⟩
    refine Real.sqrt_le_sqrt ?_
    rw [div_le_iff₀ hc]
    nlinarith [sq_nonneg ((x - t) + a * (y - (a * t + b)))]

/-- The distance is unique. -/
theorem wallDistance_unique {a b x y d d' : ℝ} (h : WallDistance a b x y d) (h' : WallDistance a b x y d') :
    d = d' := h.unique h'

theorem measure_eq (r : Robot) (z : Fin 1 → ℝ) :
    r.measure z = .ok (ConditionalGaussian.sampleOne (wallMatrix r.rico *ᵥ r.state + r.measMu) r.measSigma
      .default 0 z).2 := by
  have hv : ∀ M : Matrix (Fin 1) (Fin 3) ℝ,
      DMat.addMulVec (⟨1, 3, M⟩ : DMat ℝ) ⟨3, r.state⟩ (0 : Fin 1 → ℝ) = .ok (M *ᵥ r.state) := by
    intro M
    rw [DMat.addMulVec, dif_pos ⟨rfl, rfl⟩, zero_add]
    rfl
  have hc : (do
      let p ← LinCond.make [⟨1, 3, wallMatrix r.rico⟩] r.measMu r.measSigma
      p.argSet 0 ⟨3, r.state⟩) =
      .ok ⟨1, [⟨3, r.state⟩], [⟨1, 3, wallMatrix r.rico⟩], r.measMu, r.measSigma, none, none⟩ := by
    rfl
  have hp : LinCond.expectedValueGet
      (⟨1, [⟨3, r.state⟩], [⟨1, 3, wallMatrix r.rico⟩], r.measMu, r.measSigma, none, none⟩ : LinCond ℝ 1) =
      .ok (wallMatrix r.rico *ᵥ r.state + r.measMu,
        ⟨1, [⟨3, r.state⟩], [⟨1, 3, wallMatrix r.rico⟩], r.measMu, r.measSigma,
          some (wallMatrix r.rico *ᵥ r.state + r.measMu), some ⟨3, r.state⟩⟩) := by
    have hv' := hv (wallMatrix r.rico)
    simp only [LinCond.expectedValueGet, LinCond.meanLoop, LinCond.argGet, LinCond.matrixGet, readMember,
      cassert_true, Nat.zero_lt_one, vget_of_lt, List.length_singleton, List.getElem_cons_zero, Outcome.ok_bind,
      Outcome.pure_eq, hv']
  exact (from_condition .boost hc hp rfl).2 .default 0 z

/-- The signed distance from a wall through the origin: positive below the wall. -/
theorem wall_mean (rico : ℝ) (x : Fin 3 → ℝ) :
    ∃ d e, WallDistance rico 0 (x 0) (x 1) d ∧ (x 1 ≤ rico * x 0 ∧ e = d ∨ rico * x 0 ≤ x 1 ∧ e = -d) ∧
      wallMatrix rico *ᵥ x = ![2 * e] := by
  have hm : wallMatrix rico *ᵥ x = ![2 * ((rico * x 0 - x 1) / Real.sqrt (rico ^ 2 + 1))] := by
    funext i
    fin_cases i
    simp [wallMatrix, mulVec, dotProduct, Fin.sum_univ_three]
    ring
  have hw := wallDistance rico 0 (x 0) (x 1)
  rw [add_zero] at hw
  refine ⟨_, _, hw, ?_, hm⟩
  rcases le_total (x 1) (rico * x 0) with h | h
  · left
    rw [abs_of_nonneg (by linarith)]
    exact ⟨h, rfl⟩
  · right
    rw [abs_of_nonpos (by linarith)]
    exact ⟨h, by ring⟩

/-- **C84.** What the robot measures has the mean `2 e` plus that of the noise, where `e` is the distance from
the wall `y = rico x`, negative above the wall. -/
theorem C84_measure_law (r : Robot) (hs : PSD (r.measSigma - machEps • (1 : Matrix (Fin 1) (Fin 1) ℝ))) :
    ∃ (d e : ℝ) (sample : (Fin 1 → ℝ) → (Fin 1 → ℝ)),
      WallDistance r.rico 0 (r.state 0) (r.state 1) d ∧
      (r.state 1 ≤ r.rico * r.state 0 ∧ e = d ∨ r.rico * r.state 0 ≤ r.state 1 ∧ e = -d) ∧
      (∀ z, r.measure z = .ok (sample z)) ∧ sample 0 = ![2 * e] + r.measMu ∧
      HasDensity sample (normalDensity (![2 * e] + r.measMu) r.measSigma) := by
  obtain ⟨d, e, h1, h2, h3⟩ := wall_mean r.rico r.state
  refine ⟨d, e, _, h1, h2, measure_eq r, ?_, ?_⟩
  · rw [conditional_sample _ _ (Or.inl rfl), mulVec_zero, zero_add, h3]
  · rw [h3]
    exact (conditional_law _ _ hs (Or.inl rfl) 0).2.2

/-- **C84.** So it does not measure the distance to the wall, as the documentation says: without noise it
returns the distance exactly if the robot touches the wall. -/
theorem C84_not_distance (r : Robot) (hm : r.measMu = 0) (d : ℝ)
    (hd : WallDistance r.rico 0 (r.state 0) (r.state 1) d) :
    (∃ v, r.measure 0 = .ok v ∧ |v 0| = 2 * d) ∧ (r.measure 0 = .ok ![d] ↔ d = 0) := by
  obtain ⟨d', e, h1, h2, h3⟩ := wall_mean r.rico r.state
  obtain rfl := wallDistance_unique hd h1
  have h0 : 0 ≤ d := by
    obtain ⟨t, ht⟩ := hd.1
    rw [← ht]
    exact Real.sqrt_nonneg _
  have hr : r.measure 0 = .ok ![2 * e] := by
    rw [measure_eq, conditional_sample _ _ (Or.inl rfl), mulVec_zero, zero_add, h3, hm, add_zero]
  constructor
  · refine ⟨_, hr, ?_⟩
    rcases h2 with ⟨-, rfl⟩ | ⟨-, rfl⟩
    · simp [abs_of_nonneg h0]
    · simp [abs_of_nonneg h0]
  · rw [hr]
    constructor
    · intro h
      have := congrFun (Outcome.ok.inj h) 0
      simp only [cons_val_zero] at this
      rcases h2 with ⟨-, rfl⟩ | ⟨-, rfl⟩ <;> linarith
    · rintro rfl
      rcases h2 with ⟨-, rfl⟩ | ⟨-, rfl⟩ <;> simp

/-- **C84.** With a horizontal wall the negated measurement, which the discrete example uses, has exactly the
density that the two measurement densities report, whatever the mean of the noise is. -/
theorem C84_negated (be : Backend) (r : Robot) (hr : r.rico = 0)
    (hs : PSD (r.measSigma - machEps • (1 : Matrix (Fin 1) (Fin 1) ℝ))) :
    ∃ (sample : (Fin 1 → ℝ) → (Fin 1 → ℝ)) (p : (Fin 1 → ℝ) → ℝ), (∀ z, r.measure z = .ok (sample z)) ∧
      HasDensity (fun z => -sample z) p ∧
      (∀ y, Prod.fst <$> measurementProb be (Gaussian.make r.measMu r.measSigma) ⟨3, r.state⟩ ⟨1, y⟩ = .ok (p y)) ∧
      ∀ k : Int, r.state 1 = k →
        ∀ y, Prod.fst <$> discreteMeasurementProb be (Gaussian.make r.measMu r.measSigma) k ⟨1, y⟩ = .ok (p y) := by
  obtain ⟨hpd, -, -⟩ := conditional_law (0 : Fin 1 → ℝ) r.measSigma hs (Or.inl rfl : SampleMthd.default = .default ∨ _) 0
  obtain ⟨L, hL, hlow, hpos, hfac⟩ := C42_definite realSqrt_isSqrt machEps_pos machEps_le hs
  have hmean : wallMatrix r.rico *ᵥ r.state = ![-(2 * r.state 1)] := by
    funext i
    fin_cases i
    simp [wallMatrix, hr, mulVec, dotProduct, Fin.sum_univ_three]
  obtain ⟨noise, g1, g2, g3⟩ := C84_likelihood be r.measMu r.measSigma hpd [] (by simp)
  cases g1
  refine ⟨_, normalDensity (![2 * r.state 1] - r.measMu) r.measSigma, measure_eq r, ?_, fun y => ?_,
    fun k hk y => ?_⟩
  · have hdet : (-L).det ≠ 0 := by
      have : (-L) * (-L)ᵀ = r.measSigma := by rw [transpose_neg, neg_mul_neg, hfac]
      intro h
      have h2 := pd_det_pos hpd
      rw [← this, det_mul, h, zero_mul] at h2
      exact lt_irrefl _ h2
    have := affine_law (L := -L) (S := r.measSigma) (by rw [transpose_neg, neg_mul_neg, hfac]) hdet
      (![2 * r.state 1] - r.measMu)
    unfold HasDensity
    rw [← this]
    show Measure.map _ (stdNormals 1) = _
    congr 1
    funext z
    rw [conditional_sample _ _ (Or.inl rfl), hL, hmean]
    simp only [neg_mulVec]
    have : ![-(2 * r.state 1)] = -![2 * r.state 1] := by simp
    rw [this]
    abel
  · obtain ⟨n', h⟩ := g2 r.state y
    rw [h]
    rfl
  · obtain ⟨n', h⟩ := g3 k y
    rw [h, hk]
    rfl

/-! ## Concrete cases -/

/-- The robot of the examples, at (3, 2), with a horizontal wall. -/
noncomputable def exampleRobot : Robot := ⟨0, ⟨0, 1⟩, 0, 1, ![3, 2, 0]⟩

theorem psd_one_sub_eps (n : Nat) : PSD ((1 : Matrix (Fin n) (Fin n) ℝ) - machEps • 1) := by
  have h : (1 : Matrix (Fin n) (Fin n) ℝ) - machEps • 1 = (1 - machEps : ℝ) • 1 := by
    rw [sub_smul, one_smul]
  rw [h]
  refine ⟨by simp, fun x => ?_⟩
  rw [smul_mulVec, one_mulVec, dotProduct_smul, smul_eq_mul]
  refine mul_nonneg ?_ (dotProduct_self_star_nonneg (v := x))
  linarith [machEps_le]

example : ∃ v, exampleRobot.measure 0 = .ok v ∧ |v 0| = 4 := by
  have h := wallDistance 0 0 3 2
  obtain ⟨⟨v, h1, h2⟩, -⟩ := C84_not_distance exampleRobot rfl 2 (by
    have : |(0 : ℝ) * 3 + 0 - 2| / Real.sqrt (0 ^ 2 + 1) = 2 := by simp
    rw [this] at h
    exact h)
  exact ⟨v, h1, by rw [h2]; norm_num⟩

example : HasDensity (fun z => (exampleRobot.move ![1, 0] z).state)
    (normalDensity (driven ![1, 0] ![3, 2, 0] + 0) 1) :=
  (C84_move_law exampleRobot (psd_one_sub_eps 3) ![1, 0]).1

example : ∃ sample : (Fin 1 → ℝ) → (Fin 1 → ℝ), (∀ z, exampleRobot.measure z = .ok (sample z)) ∧
    HasDensity (fun z => -sample z) (normalDensity ![4] 1) := by
  obtain ⟨sample, p, h1, h2, h3, -⟩ := C84_negated .eigen exampleRobot rfl (psd_one_sub_eps 1)
  refine ⟨sample, h1, ?_⟩
  have hp : p = normalDensity ![4] 1 := by
    funext y
    obtain ⟨g, e, k, -⟩ := C84_likelihood .eigen 0 1 ⟨by simp, fun x hx => by
      rw [one_mulVec]; exact dotProduct_self_star_pos_iff (v := x) |>.mpr hx⟩ [] (by simp)
    cases e
    obtain ⟨g', hg⟩ := k ![3, 2, 0] y
    have := h3 y
    have h4 : Prod.fst <$> measurementProb .eigen (Gaussian.make 0 1) ⟨3, ![3, 2, 0]⟩ ⟨1, y⟩ = .ok (p y) := this
    rw [hg] at h4
    have h5 := Outcome.ok.inj h4
    rw [← h5]
    simp [lastMean, lastCov]
    norm_num
  rw [← hp]
  exact h2

/-- Driving 1 ahead from (3, 2) leads to (4, 2). -/
example : driven ![1, 0] ![3, 2, 0] = ![4, 2, 0] := by
  funext i
  fin_cases i <;> simp [driven]
  norm_num

/-- A noise that cannot be sampled: the density still reports success. -/
example : systemSample (Gaussian.make (0 : Fin 3 → ℝ) (-1)) .default ![3, 2, 0] ![1, 0] 1 =
    .ok (true, driven ![1, 0] ![3, 2, 0] + 0) := by
  refine C84_system_flag _ _ _ _ _ _ ?_
  have h : cholesky Real.sqrt machEps (-1 : Matrix (Fin 3) (Fin 3) ℝ) = (false, 0) :=
    C42_negative realSqrt_isSqrt machEps_pos machEps_le (by simp) 0 (by simpa using machEps_le)
  show Outcome.ok ((cholesky Real.sqrt machEps (-1 : Matrix (Fin 3) (Fin 3) ℝ)).1,
    (cholesky Real.sqrt machEps (-1 : Matrix (Fin 3) (Fin 3) ℝ)).2 *ᵥ (1 : Fin 3 → ℝ) + 0) = _
  rw [h]
  simp

end BFL.Props
