import Verif.Lemmas.BestEstimate
import Verif.Props.Innovations
import Verif.Props.KalmanOrder

/-!
# C95: with normal noise the filter reports the distribution of the state

The world is the one of C64, and initial state and noises are jointly normal.
-/

set_option linter.unusedSectionVars false

namespace BFL.Props

open Matrix MeasureTheory ProbabilityTheory Spec Moment

variable {Ω : Type} [MeasurableSpace Ω] {n m : Nat} {U : Type}

/-- **C95, the reported distribution is right.** Whatever the sensors have read, the state is distributed
around the estimate as the filter reports: the error is independent of all readings, and every
combination `a · error` is normal with mean zero and variance `aᵀ Σ a`. -/
theorem C95_distribution (μ : Measure Ω) [IsProbabilityMeasure μ] (be : Backend) (kind : KF.Kind ℝ n)
    (hk : kind.Runs) (es : List (Event Ω n U)) (X : Ω → Fin n → ℝ) (f : KF ℝ n)
    (hp : PriorRight μ X f) (ht : ∀ e ∈ es, e.Told μ) (hu : Uncorrelated μ X f es)
    (hN : JointlyNormal μ (sources es X)) :
    ∃ f' : Ω → KF ℝ n, (∀ ω, runAll be kind (calls es X ω) f = .ok (f' ω)) ∧
      IndepFun (fun ω => lastState es X ω - (f' ω).mu) (heard es X) μ ∧
      ∀ (a : Fin n → ℝ) (ω₀ : Ω), μ.map (fun ω => a ⬝ᵥ (lastState es X ω - (f' ω).mu)) =
        gaussianReal 0 (quad (f' ω₀).sigma a).toNNReal := by
  obtain ⟨f', P, h1, h2, h3, h4, h5, h6, h7, h8⟩ := error_law be hk es X f hp ht hu hN
  refine ⟨f', h1, h8, fun a ω₀ => ?_⟩
  have hA : In (Submodule.span ℝ (insert (fun _ => (1 : ℝ)) (sources es X)))
      (fun ω => Matrix.of (fun _ : Fin 1 => a) *ᵥ (lastState es X ω - (f' ω).mu)) := h7.mulVec _
  have e : (fun ω => a ⬝ᵥ (lastState es X ω - (f' ω).mu)) =
      fun ω => (Matrix.of (fun _ : Fin 1 => a) *ᵥ (lastState es X ω - (f' ω).mu)) 0 := rfl
  have hg := (gaussian_vector hN (Y := fun _ : Unit => fun ω =>
    (Matrix.of (fun _ : Fin 1 => a) *ᵥ (lastState es X ω - (f' ω).mu)) 0) fun _ => hA 0).eval ()
  have m0 : ∫ ω, (Matrix.of (fun _ : Fin 1 => a) *ᵥ (lastState es X ω - (f' ω).mu)) 0 ∂μ = 0 := by
    have : Centred μ (fun ω => Matrix.of (fun _ : Fin 1 => a) *ᵥ (lastState es X ω - (f' ω).mu)) := by
      rw [centred_iff, mulVec_left _ h3 (square_col (memLp_const 1)), centred_iff.1 h5, Matrix.mul_zero]
    exact this 0
  have mm : ∫ ω, (Matrix.of (fun _ : Fin 1 => a) *ᵥ (lastState es X ω - (f' ω).mu)) 0 *
      (Matrix.of (fun _ : Fin 1 => a) *ᵥ (lastState es X ω - (f' ω).mu)) 0 ∂μ = quad P a := by
    have := mulVec_left (Matrix.of (fun _ : Fin 1 => a)) h3 (square_mulVec (Matrix.of (fun _ : Fin 1 => a)) h3)
    rw [mulVec_right _ h3 h3, h4] at this
    have h00 := congrFun (congrFun this 0) 0
    refine Eq.trans h00 ?_
    simp [quad, Matrix.mul_apply, dotProduct, mulVec]
  rw [e, hg.map_eq_gaussianReal, m0, h2 ω₀]
  congr 2
  rw [variance_of_integral_eq_zero hg.aemeasurable m0, ← mm]
  simp only [sq]

/-- **C95, credible regions.** If the reported covariance is invertible, the ellipsoid
`(x − estimate)ᵀ Σ⁻¹ (x − estimate) ≤ r` contains the state with the probability of the chi-square
distribution, after any history and also among those worlds only in which the sensors have read
something particular (any event `B` of the readings). -/
theorem C95_coverage (μ : Measure Ω) [IsProbabilityMeasure μ] (be : Backend) (kind : KF.Kind ℝ n)
    (hk : kind.Runs) (es : List (Event Ω n U)) (X : Ω → Fin n → ℝ) (f : KF ℝ n)
    (hp : PriorRight μ X f) (ht : ∀ e ∈ es, e.Told μ) (hu : Uncorrelated μ X f es)
    (hN : JointlyNormal μ (sources es X)) :
    ∃ f' : Ω → KF ℝ n, (∀ ω, runAll be kind (calls es X ω) f = .ok (f' ω)) ∧
      ((∀ ω, PD (f' ω).sigma) → ∀ (r : ℝ) (B : Set (readings es X → ℝ)), MeasurableSet B →
        μ {ω | (lastState es X ω - (f' ω).mu) ⬝ᵥ ((f' ω).sigma⁻¹ *ᵥ (lastState es X ω - (f' ω).mu)) ≤ r ∧
            heard es X ω ∈ B} =
          chiSquare n (Set.Iic r) * μ {ω | heard es X ω ∈ B}) := by
  obtain ⟨f', P, h1, h2, h3, h4, h5, h6, h7, h8⟩ := error_law be hk es X f hp ht hu hN
  refine ⟨f', h1, fun hpd r B hB => ?_⟩
  have hP : PD P := by
    obtain ⟨ω⟩ := μ.nonempty_of_neZero
    rw [← h2 ω]; exact hpd ω
  have hlaw := nees_law hN h7 h5 h3 (by rw [h4]; exact hP)
  rw [h4] at hlaw
  have hq : Measurable fun x : Fin n → ℝ => quad P⁻¹ x := by
    have : (fun x : Fin n → ℝ => quad P⁻¹ x) = fun x => ∑ i, x i * ∑ j, P⁻¹ i j * x j := rfl
    rw [this]
    fun_prop
  have hm : AEMeasurable (fun ω => quad P⁻¹ (lastState es X ω - (f' ω).mu)) μ :=
    hq.comp_aemeasurable (aemeasurable_pi_lambda _ fun i => (normal_const hN (h7 i)).1)
  have hi := (h8.comp hq measurable_id).measure_inter_preimage_eq_mul (Set.Iic r) B measurableSet_Iic hB
  have e : {ω | (lastState es X ω - (f' ω).mu) ⬝ᵥ ((f' ω).sigma⁻¹ *ᵥ (lastState es X ω - (f' ω).mu)) ≤ r ∧
      heard es X ω ∈ B} = (fun x => quad P⁻¹ x) ∘ (fun ω => lastState es X ω - (f' ω).mu) ⁻¹' Set.Iic r ∩
        id ∘ heard es X ⁻¹' B := by
    ext ω
    simp only [Set.mem_ofPred_eq, h2 ω]
    rfl
  rw [e, hi, ← hlaw, Measure.map_apply_of_aemeasurable hm measurableSet_Iic]
  rfl

/-- **C95, best of all.** No estimate whatsoever, linear or not, that is computed from the readings has a
smaller mean square error, in any direction: its second moment is larger by the second moment of its
difference from the filter's estimate. -/
theorem C95_best (μ : Measure Ω) [IsProbabilityMeasure μ] (be : Backend) (kind : KF.Kind ℝ n)
    (hk : kind.Runs) (es : List (Event Ω n U)) (X : Ω → Fin n → ℝ) (f : KF ℝ n)
    (hp : PriorRight μ X f) (ht : ∀ e ∈ es, e.Told μ) (hu : Uncorrelated μ X f es)
    (hN : JointlyNormal μ (sources es X)) :
    ∃ f' : Ω → KF ℝ n, (∀ ω, runAll be kind (calls es X ω) f = .ok (f' ω)) ∧
      ∀ g : (readings es X → ℝ) → Fin n → ℝ, Measurable g →
        Square μ (fun ω => lastState es X ω - g (heard es X ω)) → ∀ ω₀,
        PSD (moment μ (fun ω => lastState es X ω - g (heard es X ω))
          (fun ω => lastState es X ω - g (heard es X ω)) - (f' ω₀).sigma) ∧
        moment μ (fun ω => lastState es X ω - g (heard es X ω))
            (fun ω => lastState es X ω - g (heard es X ω)) - (f' ω₀).sigma =
          moment μ (fun ω => (f' ω).mu - g (heard es X ω)) (fun ω => (f' ω).mu - g (heard es X ω)) := by
  obtain ⟨f', P, h1, h2, h3, h4, h5, h6, h7, h8⟩ := error_law be hk es X f hp ht hu hN
  refine ⟨f', h1, fun g hg hs ω₀ => ?_⟩
  obtain ⟨g0, hg0, e0⟩ := affine_function h6
  have e : (fun ω => lastState es X ω - g (heard es X ω)) =
      fun ω => (lastState es X ω - (f' ω).mu) + ((f' ω).mu - g (heard es X ω)) := by
    funext ω; abel
  have hd : Square μ (fun ω => (f' ω).mu - g (heard es X ω)) := by
    intro i
    have := (hs i).sub (h3 i)
    refine (memLp_congr_ae (Filter.Eventually.of_forall fun ω => ?_)).1 this
    simp
  have ho : moment μ (fun ω => lastState es X ω - (f' ω).mu) (fun ω => (f' ω).mu - g (heard es X ω)) = 0 := by
    ext i j
    have hi : IndepFun (fun ω => (lastState es X ω - (f' ω).mu) i)
        (fun ω => ((f' ω).mu - g (heard es X ω)) j) μ := by
      have m1 : Measurable fun x : Fin n → ℝ => x i := measurable_pi_apply i
      have m2 : Measurable fun x : readings es X → ℝ => (g0 x - g x) j :=
        (measurable_pi_apply j).comp (hg0.sub hg)
      have := h8.comp m1 m2
      refine this.congr (Filter.Eventually.of_forall fun ω => rfl) (Filter.Eventually.of_forall fun ω => ?_)
      simp only [Function.comp, e0 ω]
      rfl
    have := hi.integral_mul_eq_mul_integral (h3 i).1 (hd j).1
    refine Eq.trans (this) ?_
    rw [h5 i]
    simp
  rw [e, add_left h3 hd (square_add h3 hd), add_right h3 hd h3, add_right h3 hd hd, h4, ho, swap, ho, h2 ω₀]
  have : P + 0 + ((0 : Matrix (Fin n) (Fin n) ℝ)ᵀ + moment μ (fun ω => (f' ω).mu - g (heard es X ω))
      fun ω => (f' ω).mu - g (heard es X ω)) - P =
      moment μ (fun ω => (f' ω).mu - g (heard es X ω)) (fun ω => (f' ω).mu - g (heard es X ω)) := by
    simp
  rw [this]
  exact ⟨Moment.psd hd, rfl⟩

/-! ### Example: a standard normal state, read once with standard normal noise -/

example : ∃ f' : ℝ × ℝ → KF ℝ 1,
    (∀ ω, runAll .boost .extended (calls [Normals.reading] Normals.state ω) Coins.start = .ok (f' ω)) ∧
    ∀ ω₀, Normals.law.map (fun ω => ![1] ⬝ᵥ (Normals.state ω - (f' ω).mu)) =
      gaussianReal 0 (quad (f' ω₀).sigma ![1]).toNNReal := by
  obtain ⟨f', h1, _, h3⟩ := C95_distribution Normals.law .boost .extended trivial [Normals.reading] Normals.state
    Coins.start Normals.prior (by simpa using Normals.told) Normals.uncorrelated Normals.normal
  exact ⟨f', h1, h3 ![1]⟩

/-- The variance is one half after the reading, so the state is within `√(r/2)` of the estimate with the
probability that a standard normal number is within `√r` of zero. -/
example : ∃ f' : ℝ × ℝ → KF ℝ 1,
    (∀ ω, runAll .boost .extended (calls [Normals.reading] Normals.state ω) Coins.start = .ok (f' ω)) ∧
    ∀ r, Normals.law {ω | (Normals.state ω - (f' ω).mu) ⬝ᵥ ((f' ω).sigma⁻¹ *ᵥ (Normals.state ω - (f' ω).mu)) ≤ r ∧
      heard [Normals.reading] Normals.state ω ∈ Set.univ} = chiSquare 1 (Set.Iic r) *
        Normals.law {ω | heard [Normals.reading] Normals.state ω ∈ Set.univ} := by
  obtain ⟨f', h1, h3⟩ := C95_coverage Normals.law .boost .extended trivial [Normals.reading] Normals.state
    Coins.start Normals.prior (by simpa using Normals.told) Normals.uncorrelated Normals.normal
  refine ⟨f', h1, fun r => h3 (fun ω => ?_) r Set.univ MeasurableSet.univ⟩
  obtain ⟨g, hg, hpd, _⟩ := C34_information .boost Coins.model none (!![1] *ᵥ Normals.state ω + 0 + ![ω.2])
    _ _ _ Coins.start (Normals.told.1 Coins.start.mu) (Coins.pos_pd one_pos) (Coins.pos_pd one_pos)
  have e : runAll .boost .extended (calls [Normals.reading] Normals.state ω) Coins.start = .ok g := by
    simp only [calls, Normals.reading, Event.call, runAll, KF.update, KF.sysPart, KF.measPart, KF.measUpdate,
      Outcome.ok_bind, hg, Outcome.pure_eq]
  rw [h1 ω] at e
  cases e
  exact hpd

/-- A nonlinear estimate, the reading cut off at 3, is not better. -/
example : ∃ f' : ℝ × ℝ → KF ℝ 1,
    (∀ ω, runAll .boost .extended (calls [Normals.reading] Normals.state ω) Coins.start = .ok (f' ω)) ∧
    ∀ (Y : readings [Normals.reading] Normals.state), Square Normals.law
        (fun ω => Normals.state ω - ![min (Y.1 ω) 3]) → ∀ ω₀,
      PSD (moment Normals.law (fun ω => Normals.state ω - ![min (Y.1 ω) 3])
        (fun ω => Normals.state ω - ![min (Y.1 ω) 3]) - (f' ω₀).sigma) := by
  obtain ⟨f', h1, h3⟩ := C95_best Normals.law .boost .extended trivial [Normals.reading] Normals.state
    Coins.start Normals.prior (by simpa using Normals.told) Normals.uncorrelated Normals.normal
  refine ⟨f', h1, fun Y hs ω₀ => (h3 (fun x => ![min (x Y) 3]) ?_ hs ω₀).1⟩
  refine measurable_pi_lambda _ fun i => ?_
  fin_cases i
  exact (measurable_pi_apply Y).min measurable_const

end BFL.Props
