import Verif.Lemmas.Steady

set_option linter.unusedSectionVars false

/-!
# C88: with the same models again and again the Kalman filters settle

`Spec.Steady`, `Spec.Riccati` and `Spec.Follows` are in `Verif/Spec/Steady.lean`, `Spec.AtMost` (the order of
covariances) is in `Verif/Spec/KalmanOrder.lean`.
-/

namespace BFL.Props

open Matrix Spec Filter

section generic

variable {K : Type} [Field K] [LinearOrder K] [IsStrictOrderedRing K] {n m : Nat} {U : Type}
variable {A Q : Matrix (Fin n) (Fin n) K} {H : Matrix (Fin m) (Fin n) K} {R : Matrix (Fin m) (Fin m) K}

theorem run_sigma (be : Backend) {kind : KF.Kind K n} (hk : kind.Runs) (hQ : PSD Q) (hR : PD R)
    {as : List (KStep K n U)} (ha : ∀ a ∈ as, Steady A Q H R a) {f : KF K n} (hf : PSD f.sigma) :
    ∃ f', runAll be kind as f = .ok f' ∧ f'.sigma = (ric A Q H R)^[as.length] f.sigma := by
  obtain ⟨f', _, h1, _, _, h2⟩ := run_steady (be := be) (be' := be) hk hk hQ hR ha hf rfl
  exact ⟨f', h1, (congrArg Prod.fst h2).trans (pairStep_fst _ _)⟩

/-- **C88, rate.** Let `P` be a solution of the Riccati equation, and let the process noise act in every direction.
Then every Kalman filter comes geometrically close to `P`, whatever its prior was: after `T` calls the variance it
reports for any linear combination of the coordinates is between `1 - (1 - c)^T` and `1 + t (1 - c)^T` times the
variance under `P`. The factor `c` depends on the models only, `t` on the prior covariance. -/
theorem C88_rate (hQ : PD Q) (hR : PD R) {P : Matrix (Fin n) (Fin n) K} (hP : PD P) (hric : Riccati A Q H R P) :
    ∃ c : K, 0 < c ∧ c ≤ 1 ∧ ∀ S : Matrix (Fin n) (Fin n) K, PSD S → ∃ t : K, 0 ≤ t ∧
      ∀ (be : Backend) (kind : KF.Kind K n), kind.Runs → ∀ f : KF K n, f.sigma = S →
        ∀ as : List (KStep K n U), (∀ a ∈ as, Steady A Q H R a) →
        ∃ f', runAll be kind as f = .ok f' ∧
          AtMost ((1 - (1 - c) ^ as.length) • P) f'.sigma ∧
          AtMost f'.sigma ((1 + t * (1 - c) ^ as.length) • P) := by
  have hfix := (riccati_iff hQ hR hP).1 hric
  obtain ⟨c, hc0, hc1, hc⟩ := exists_share hQ (predict_psd (A := A) hQ.psd hP.psd)
  refine ⟨c, hc0, hc1, fun S hS => ?_⟩
  obtain ⟨t, ht1, ht⟩ := exists_dominates hP hS.1
  refine ⟨t - 1, sub_nonneg.2 ht1, fun be kind hk f hf as ha => ?_⟩
  obtain ⟨f', h1, h2⟩ := run_sigma be hk hQ.psd hR ha (hf ▸ hS)
  refine ⟨f', h1, ?_⟩
  rw [h2, hf]
  exact iterate_bounds hQ.psd hR hP.psd hfix hc0.le hc1 hc hS (sub_nonneg.2 ht1) (by simpa using ht) as.length

/-- **C88, means.** Under the same hypotheses two filters with the same prior covariance and any prior means that
get the same calls agree more and more, whatever the readings are: the difference of any linear combination of their
means falls geometrically. -/
theorem C88_means (hQ : PD Q) (hR : PD R) {P : Matrix (Fin n) (Fin n) K} (hP : PD P) (hric : Riccati A Q H R P)
    (f g : KF K n) (hf : PSD f.sigma) (hs : g.sigma = f.sigma) :
    ∃ c C : K, 0 < c ∧ c < 1 ∧ ∀ (be be' : Backend) (kind kind' : KF.Kind K n), kind.Runs → kind'.Runs →
      ∀ as : List (KStep K n U), (∀ a ∈ as, Steady A Q H R a) →
      ∃ f' g', runAll be kind as f = .ok f' ∧ runAll be' kind' as g = .ok g' ∧ g'.sigma = f'.sigma ∧
        ∀ w, (w ⬝ᵥ (f'.mu - g'.mu)) ^ 2 ≤ C * (1 - c) ^ as.length * quad P w := by
  have hfix := (riccati_iff hQ hR hP).1 hric
  obtain ⟨c0, hc00, hc01, hc0⟩ := exists_share hQ (predict_psd (A := A) hQ.psd hP.psd)
  have hS1 := ric_pd (A := A) (H := H) hQ hR hf
  obtain ⟨t, ht1, ht⟩ := exists_dominates hP hS1.1
  have ht0 : 0 ≤ t := zero_le_one.trans ht1
  obtain ⟨b, hb0, hb1, hb⟩ := exists_share hQ (predict_psd (A := A) hQ.psd (hP.psd.smul ht0))
  have hle : ∀ k, AtMost ((ric A Q H R)^[k] (ric A Q H R f.sigma)) (t • P) := fun k => by
    refine (iterate_bounds hQ.psd hR hP.psd hfix hc00.le hc01 hc0 hS1.psd (sub_nonneg.2 ht1) (by simpa using ht)
      k).2.trans (hP.psd.smul_le ?_)
    have h1 : (1 - c0) ^ k ≤ 1 := pow_le_one₀ (sub_nonneg.2 hc01) (by linarith)
    have := mul_le_mul_of_nonneg_left h1 (sub_nonneg.2 ht1)
    linarith
  have hc : ∀ k, AtMost ((b / 2) • (A * (ric A Q H R)^[k] (ric A Q H R f.sigma) * Aᵀ + Q)) Q := fun k => by
    have h1 := (((hle k).congr A).add (AtMost.refl Q)).smul (half_pos hb0).le
    refine h1.trans (((predict_psd (A := A) hQ.psd (hP.psd.smul ht0)).smul_le ?_).trans hb)
    linarith
  obtain ⟨d, hd⟩ : ∃ d, d = (pairStep A Q H R (f.sigma, f.mu - g.mu)).2 := ⟨_, rfl⟩
  have he : 0 ≤ quad (ric A Q H R f.sigma)⁻¹ d := hS1.inv.psd.2 d
  have hw : WithinSigmas (quad (ric A Q H R f.sigma)⁻¹ d) (ric A Q H R f.sigma) d :=
    (withinSigmas_iff hS1 he d).2 le_rfl
  have he0 : 0 ≤ quad P⁻¹ (f.mu - g.mu) := hP.inv.psd.2 _
  have hw0 := (withinSigmas_iff hP he0 (f.mu - g.mu)).2 le_rfl
  have hb2 : 0 < 1 - b / 2 := by linarith
  have hX : 0 ≤ quad (ric A Q H R f.sigma)⁻¹ d * t / (1 - b / 2) := div_nonneg (mul_nonneg he ht0) hb2.le
  refine ⟨b / 2, quad P⁻¹ (f.mu - g.mu) + quad (ric A Q H R f.sigma)⁻¹ d * t / (1 - b / 2), half_pos hb0, by linarith,
    fun be be' kind kind' hk hk' as ha => ?_⟩
  obtain ⟨f', g', h1, h2, h3, h4⟩ := run_steady (be := be) (be' := be') hk hk' hQ.psd hR ha hf hs
  refine ⟨f', g', h1, h2, h3, fun w => ?_⟩
  have h5 : f'.mu - g'.mu = ((pairStep A Q H R)^[as.length] (f.sigma, f.mu - g.mu)).2 := congrArg Prod.snd h4
  have hq : 0 ≤ quad P w := hP.psd.2 w
  rw [h5]
  rcases hT : as.length with _ | k
  · refine (hw0 w).trans (mul_le_mul_of_nonneg_right ?_ hq)
    rw [pow_zero, mul_one]
    linarith
  · have e1 : pairStep A Q H R (f.sigma, f.mu - g.mu) = (ric A Q H R f.sigma, d) := by rw [hd]; rfl
    rw [Function.iterate_succ_apply, e1]
    have h6 := within_iterate hQ.psd hR hS1.psd he (by linarith : b / 2 ≤ 1) hc hw k w
    have h7 := (hle k).quad_le w
    have h8 : quad (t • P) w = t * quad P w := by
      simp only [quad, smul_mulVec, dotProduct_smul, smul_eq_mul]
    rw [h8] at h7
    have hp : 0 ≤ (1 - b / 2) ^ k := pow_nonneg hb2.le k
    calc _ ≤ quad (ric A Q H R f.sigma)⁻¹ d * (1 - b / 2) ^ k
          * quad ((ric A Q H R)^[k] (ric A Q H R f.sigma)) w := h6
      _ ≤ quad (ric A Q H R f.sigma)⁻¹ d * (1 - b / 2) ^ k * (t * quad P w) :=
          mul_le_mul_of_nonneg_left h7 (mul_nonneg he hp)
      _ = quad (ric A Q H R f.sigma)⁻¹ d * t / (1 - b / 2) * (1 - b / 2) ^ (k + 1) * quad P w := by
          rw [pow_succ]
          generalize 1 - b / 2 = r at hb2
          field_simp
      _ ≤ _ := by
          refine mul_le_mul_of_nonneg_right (mul_le_mul_of_nonneg_right ?_ (pow_nonneg hb2.le _)) hq
          linarith

end generic

section real

variable {n m : Nat} {U : Type}
variable {A Q : Matrix (Fin n) (Fin n) ℝ} {H : Matrix (Fin m) (Fin n) ℝ} {R : Matrix (Fin m) (Fin m) ℝ}

/-- The first `T` calls. -/
def firstCalls (calls : Nat → KStep ℝ n U) (T : Nat) : List (KStep ℝ n U) := (List.range T).map calls

theorem sigma_tendsto (hQ : PD Q) (hR : PD R) {P : Matrix (Fin n) (Fin n) ℝ} (hP : PD P)
    (hfix : ric A Q H R P = P) {S : Matrix (Fin n) (Fin n) ℝ} (hS : PSD S) :
    Tendsto (fun k => (ric A Q H R)^[k] S) atTop (nhds P) := by
  obtain ⟨c, hc0, hc1, hc⟩ := exists_share hQ (predict_psd (A := A) hQ.psd hP.psd)
  obtain ⟨t, ht1, ht⟩ := exists_dominates hP hS.1
  have hb := iterate_bounds hQ.psd hR hP.psd hfix hc0.le hc1 hc hS (sub_nonneg.2 ht1) (by simpa using ht)
  have hz := tendsto_pow_atTop_nhds_zero_of_lt_one (sub_nonneg.2 hc1) (by linarith : 1 - c < 1)
  refine tendsto_of_quad (fun k => (iterate_psd hQ.psd hR hS k).1) hP.1 fun x => ?_
  have hq : ∀ s : ℝ, quad (s • P) x = s * quad P x := fun s => by
    simp only [quad, smul_mulVec, dotProduct_smul, smul_eq_mul]
  have h1 : Tendsto (fun k => (1 - (1 - c) ^ k) * quad P x) atTop (nhds (quad P x)) := by
    simpa using (hz.const_sub 1).mul_const (quad P x)
  have h2 : Tendsto (fun k => (1 + (t - 1) * (1 - c) ^ k) * quad P x) atTop (nhds (quad P x)) := by
    simpa using ((hz.const_mul (t - 1)).const_add 1).mul_const (quad P x)
  refine tendsto_of_tendsto_of_tendsto_of_le_of_le h1 h2 (fun k => ?_) fun k => ?_
  · rw [← hq]
    exact (hb k).1.quad_le x
  · show _ ≤ (1 + (t - 1) * (1 - c) ^ k) * quad P x
    rw [← hq]
    exact (hb k).2.quad_le x

/-- **C88.** The process noise acts in every direction, and some constant gain is enough to follow the state. Then the
Riccati equation has exactly one positive definite solution, and the covariance that any Kalman filter reports
converges to it, whatever the prior and the readings were. -/
theorem C88_settles (hQ : PD Q) (hR : PD R) {G : Matrix (Fin n) (Fin m) ℝ} (hG : Follows A H G) :
    ∃ P, PD P ∧ Riccati A Q H R P ∧ (∀ P', PD P' → Riccati A Q H R P' → P' = P) ∧
      ∀ (be : Backend) (kind : KF.Kind ℝ n), kind.Runs → ∀ f : KF ℝ n, PSD f.sigma →
        ∀ calls : Nat → KStep ℝ n U, (∀ t, Steady A Q H R (calls t)) →
        ∃ f' : Nat → KF ℝ n, (∀ T, runAll be kind (firstCalls calls T) f = .ok (f' T)) ∧
          Tendsto (fun T => (f' T).sigma) atTop (nhds P) := by
  obtain ⟨B, hB⟩ := bounded_of_follows hQ.psd hR hG
  obtain ⟨P, hP0, hfix⟩ := exists_fixed hQ.psd hR hB
  have hP : PD P := by
    have := ric_pd (A := A) (H := H) hQ hR hP0
    rwa [hfix] at this
  refine ⟨P, hP, (riccati_iff hQ hR hP).2 hfix, fun P' hP' h' => ?_, fun be kind hk f hf calls hc => ?_⟩
  · have hfix' := (riccati_iff hQ hR hP').1 h'
    exact tendsto_nhds_unique (sigma_tendsto hQ hR hP' hfix' Spec.PSD.zero)
      (sigma_tendsto hQ hR hP hfix Spec.PSD.zero)
  · have h := fun T => run_sigma be hk hQ.psd hR (as := firstCalls calls T)
      (by simp only [firstCalls, List.mem_map]; rintro _ ⟨t, -, rfl⟩; exact hc t) hf
    choose f' h1 h2 using h
    refine ⟨f', h1, (sigma_tendsto hQ hR hP hfix hf).congr fun T => ?_⟩
    rw [h2 T]
    simp [firstCalls]

/-- **C88, the hypothesis is needed.** If the covariances that one filter reports stay below some matrix, then a
constant gain is enough to follow the state. -/
theorem C88_needed (hQ : PD Q) (hR : PD R) (be : Backend) (kind : KF.Kind ℝ n) (hk : kind.Runs) (f : KF ℝ n)
    (hf : PSD f.sigma) (calls : Nat → KStep ℝ n U) (hc : ∀ t, Steady A Q H R (calls t))
    (B : Matrix (Fin n) (Fin n) ℝ)
    (hB : ∀ T, ∃ f', runAll be kind (firstCalls calls T) f = .ok f' ∧ AtMost f'.sigma B) :
    ∃ G, Follows A H G := by
  have hB' : ∀ k, AtMost ((ric A Q H R)^[k] 0) B := by
    intro k
    obtain ⟨f', h1, h2⟩ := hB k
    obtain ⟨f'', h3, h4⟩ := run_sigma be hk hQ.psd hR (as := firstCalls calls k)
      (by simp only [firstCalls, List.mem_map]; rintro _ ⟨t, -, rfl⟩; exact hc t) hf
    rw [h1] at h3
    cases h3
    rw [h4] at h2
    have h5 := iterate_mono (A := A) (H := H) hQ.psd hR Spec.PSD.zero hf.zero_le k
    have h6 : (firstCalls calls k).length = k := by simp [firstCalls]
    rw [h6] at h2
    exact h5.trans h2
  obtain ⟨P, hP0, hfix⟩ := exists_fixed hQ.psd hR hB'
  have hP : PD P := by
    have := ric_pd (A := A) (H := H) hQ hR hP0
    rwa [hfix] at this
  exact ⟨_, follows_of_fixed hQ hR hP hfix⟩

/-- **C88, when.** A constant gain is enough when the sensor determines the state, and when the state forgets by
itself. -/
theorem C88_when (A : Matrix (Fin n) (Fin n) ℝ) (H : Matrix (Fin m) (Fin n) ℝ) :
    ((∀ x, H *ᵥ x = 0 → x = 0) → ∃ G, Follows A H G) ∧
      (Tendsto (fun k => A ^ k) atTop (nhds 0) → ∃ G, Follows A H G) := by
  constructor
  · intro h
    have hpd : PD (Hᵀ * H) := by
      refine ⟨by rw [transpose_mul, transpose_transpose], fun x hx => ?_⟩
      rw [← mulVec_mulVec, quad_transpose, transpose_transpose]
      refine lt_of_le_of_ne (Finset.sum_nonneg fun i _ => mul_self_nonneg _) fun h0 => hx (h x ?_)
      exact dotProduct_self_eq_zero.1 h0.symm
    refine ⟨(Hᵀ * H)⁻¹ * Hᵀ, ?_⟩
    rw [Follows, Matrix.mul_assoc, nonsing_inv_mul _ hpd.det_ne.isUnit, sub_self, Matrix.zero_mul]
    refine tendsto_const_nhds.congr' ?_
    filter_upwards [eventually_ge_atTop 1] with k hk
    rw [zero_pow (by omega)]
  · intro h
    refine ⟨0, ?_⟩
    rw [Follows, Matrix.zero_mul, sub_zero, Matrix.one_mul]
    exact h

namespace SteadyExample

/-- A walk in one dimension with steps of variance 1/2. -/
noncomputable def walk : AnalyticModel ℝ 1 1 Unit := .noInput (fun x => x) (fun _ => !![1]) (fun _ => !![1 / 2])

/-- A sensor that measures the place with a noise of variance 1. -/
def sensor : AnalyticModel ℝ 1 1 Unit := .noInput (fun x => x) (fun _ => !![1]) (fun _ => !![1])

theorem walk_linear : walk.IsLinear none !![1] 0 !![1 / 2] := by
  refine fun x => ⟨?_, rfl, rfl⟩
  simp [walk, AnalyticModel.predictionGet]
  ext i; fin_cases i; simp; rfl

theorem sensor_linear : sensor.IsLinear none !![1] 0 !![1] := by
  refine fun x => ⟨?_, rfl, rfl⟩
  simp [sensor, AnalyticModel.predictionGet]
  ext i; fin_cases i; simp; rfl

theorem one_by_one_pd {r : ℝ} (h : 0 < r) : PD (!![r] : Matrix (Fin 1) (Fin 1) ℝ) := Coins.pos_pd h

/-- The calls with the readings `z`. -/
noncomputable def calls (z : Nat → ℝ) (t : Nat) : KStep ℝ 1 Unit := ⟨1, some (walk, none), some (sensor, ![z t], none)⟩

theorem steady (z : Nat → ℝ) (t : Nat) :
    Steady !![1] !![1 / 2] (!![1] : Matrix (Fin 1) (Fin 1) ℝ) !![1] (calls z t) := .mk walk_linear sensor_linear

theorem riccati : Riccati !![1] !![1 / 2] (!![1] : Matrix (Fin 1) (Fin 1) ℝ) !![1] !![1 / 2] := by
  rw [Riccati, one_transpose, one_inv (by norm_num), one_inv (by norm_num), one_mul_one, one_mul_one, one_mul_one,
    one_mul_one]
  have : (!![1 * (1 / 2) * 1] + !![1 / 2] : Matrix (Fin 1) (Fin 1) ℝ) = !![1] := by
    ext i j; fin_cases i; fin_cases j; norm_num
  rw [this, one_inv (by norm_num)]
  ext i j; fin_cases i; fin_cases j; norm_num

end SteadyExample

open SteadyExample in
/-- The hypotheses of `C88_settles` hold for the walk, and the limit is `1/2`, whatever the prior and the
readings are. -/
example (be : Backend) (f : KF ℝ 1) (hf : PSD f.sigma) (z : Nat → ℝ) :
    ∃ f' : Nat → KF ℝ 1, (∀ T, runAll be .extended (firstCalls (calls z) T) f = .ok (f' T)) ∧
      Tendsto (fun T => (f' T).sigma) atTop (nhds !![1 / 2]) := by
  obtain ⟨G, hG⟩ := (C88_when (!![1] : Matrix (Fin 1) (Fin 1) ℝ) (!![1] : Matrix (Fin 1) (Fin 1) ℝ)).1 (by
    intro x h
    ext i
    have := congrFun h i
    fin_cases i
    simpa [mulVec, dotProduct] using this)
  obtain ⟨P, -, -, hu, h⟩ := C88_settles (U := Unit) (one_by_one_pd (by norm_num : (0 : ℝ) < 1 / 2))
    (one_by_one_pd one_pos) hG
  rw [hu _ (one_by_one_pd (by norm_num)) riccati]
  exact h be .extended trivial f hf (calls z) (steady z)

open SteadyExample in
/-- The hypotheses of `C88_rate` and `C88_means` hold for the walk. -/
example : PD (!![1 / 2] : Matrix (Fin 1) (Fin 1) ℝ) ∧ PD (!![1] : Matrix (Fin 1) (Fin 1) ℝ) ∧
    Riccati !![1] !![1 / 2] (!![1] : Matrix (Fin 1) (Fin 1) ℝ) !![1] !![1 / 2] ∧
    ∀ a ∈ [calls (fun _ => 3) 0, calls (fun _ => 4) 0],
      Steady !![1] !![1 / 2] (!![1] : Matrix (Fin 1) (Fin 1) ℝ) !![1] a :=
  ⟨one_by_one_pd (by norm_num), one_by_one_pd one_pos, riccati, by
    intro a ha
    simp only [List.mem_cons, List.not_mem_nil, or_false] at ha
    rcases ha with rfl | rfl <;> exact steady _ _⟩

open SteadyExample in
/-- The hypotheses of `C88_needed` hold for the walk: a filter that starts with the variance `1/2` keeps it. -/
example (be : Backend) (z : Nat → ℝ) (T : Nat) :
    ∃ f', runAll be .extended (firstCalls (calls z) T) ⟨![0], !![1 / 2], 0⟩ = .ok f' ∧ AtMost f'.sigma !![1 / 2] := by
  have hQ := one_by_one_pd (by norm_num : (0 : ℝ) < 1 / 2)
  obtain ⟨f', h1, h2⟩ := run_sigma be (kind := .extended) trivial hQ.psd (one_by_one_pd one_pos)
    (as := firstCalls (calls z) T) (f := ⟨![0], !![1 / 2], 0⟩)
    (by simp only [firstCalls, List.mem_map]; rintro _ ⟨t, -, rfl⟩; exact steady z t) hQ.psd
  refine ⟨f', h1, ?_⟩
  have h3 : ric !![1] !![1 / 2] (!![1] : Matrix (Fin 1) (Fin 1) ℝ) !![1] !![1 / 2] = !![1 / 2] :=
    (riccati_iff hQ (one_by_one_pd one_pos) hQ).1 riccati
  rw [h2, Function.iterate_fixed h3]
  exact AtMost.refl _

/-- Nothing follows a walk that is not measured, so by `C88_needed` the reported variance has no bound. -/
example : ¬ ∃ G, Follows (1 : Matrix (Fin 1) (Fin 1) ℝ) (0 : Matrix (Fin 1) (Fin 1) ℝ) G := by
  rintro ⟨G, hG⟩
  rw [Follows, Matrix.mul_zero, sub_zero, Matrix.one_mul] at hG
  simp only [one_pow] at hG
  have := tendsto_nhds_unique hG tendsto_const_nhds
  have h2 := congrFun (congrFun this 0) 0
  simp at h2

end real

end BFL.Props
