import Verif.Lemmas.Ginac
import Verif.Props.LinearWorld
import Verif.Props.LinearModelLaw

/-!
# C68, C69, C70: pdfs given by formulas

The mean, the Jacobian used by the extended Kalman filters, the covariance, the density and the
samples of `NonLinearAnalyticConditionalGaussian_Ginac`, and the Jacobian of the mobile robot of the
examples.
-/

set_option linter.unusedSectionVars false

namespace BFL.Props

open Matrix Spec Ginac MeasureTheory Filter Topology

variable {f p n d : Nat} {func : Fin f → Expr} {us : Fin p → Nat} {xs : Fin n → Nat}

/-! ## Formulas used in the examples -/

/-- Two noisy inputs that are added up. -/
def sumFunc : Fin 1 → Expr := ![.add (.sym 0) (.sym 1)]

theorem distinct_sum : Distinct (![0, 1] : Fin 2 → Nat) (![2] : Fin 1 → Nat) := by
  refine ⟨?_, ?_, ?_⟩
  · decide
  · decide
  · decide

theorem sum_affine (u : Fin 2 → ℝ) (x : Fin 1 → ℝ) (e : Fin 2 → ℝ) :
    FuncIs sumFunc ![0, 1] ![2] (disturb ![0, 1] [0, 1] u e) x
      ((!![1, 1] : Matrix (Fin 1) (Fin 2) ℝ) *ᵥ e + ![u 0 + u 1]) := by
  rw [funcIs_iff distinct_sum]
  intro i
  have := envOf_assigns distinct_sum (disturb ![0, 1] [0, 1] u e) x
  have e0 := this.1 0
  have e1 := this.1 1
  fin_cases i
  simp only [sumFunc, value, Fin.zero_eta, cons_val_zero, cons_val_one] at *
  rw [e0, e1]
  simp [disturb, Fin.sum_univ_two, dotProduct]
  ring

/-- Noise on both inputs of `sumFunc`, with a history: the noise mean is changed, the pdf copied. -/
theorem sum_history : ∃ g0 g : Pdf 1 2 1 2,
    Pdf.makeInputNoise sumFunc ![0, 1] ![2] ![0, 0] 1 [0, 1] = .ok g0 ∧
    Pdf.run [.muSet ![3, 4], .copy] g0 = .ok g ∧ g.mu = ![3, 4] ∧ g.sigma = 1 :=
  ⟨_, _, rfl, rfl, rfl, rfl⟩

theorem sum_cond : ∀ c ∈ [0, 1], ∃ i, (![0, 1] : Fin 2 → Nat) i = c := by
  intro c hc
  simp only [List.mem_cons, List.not_mem_nil, or_false] at hc
  rcases hc with rfl | rfl
  exacts [⟨0, rfl⟩, ⟨1, rfl⟩]

/-- The reciprocal of the state. -/
def recipFunc : Fin 1 → Expr := ![.inv (.sym 1)]

theorem distinct01 : Distinct (![0] : Fin 1 → Nat) (![1] : Fin 1 → Nat) := by
  refine ⟨fun i j _ => Subsingleton.elim i j, fun i j _ => Subsingleton.elim i j, fun i j => ?_⟩
  fin_cases i; fin_cases j; decide

theorem envOf01 (u x : Fin 1 → ℝ) : envOf ![0] ![1] u x 0 = some (u 0) ∧
    envOf ![0] ![1] u x 1 = some (x 0) := by
  have := envOf_assigns distinct01 u x
  exact ⟨this.1 0, this.2.1 0⟩

theorem recip_is (u x : Fin 1 → ℝ) (hx : x 0 ≠ 0) :
    FuncIs recipFunc ![0] ![1] u x ![1 / x 0] := by
  rw [funcIs_iff distinct01]
  intro i
  fin_cases i
  simp [recipFunc, value, envOf01, hx]

/-- Twice the state plus the input. -/
def lineFunc : Fin 1 → Expr := ![.add (.mul (.num 2) (.sym 1)) (.sym 0)]

theorem line_is (u x : Fin 1 → ℝ) : FuncIs lineFunc ![0] ![1] u x (!![2] *ᵥ x + u) := by
  rw [funcIs_iff distinct01]
  intro i
  fin_cases i
  simp [lineFunc, value, envOf01, Matrix.vecHead]

/-- The square of the noisy input. -/
def squareFunc : Fin 1 → Expr := ![.mul (.sym 0) (.sym 0)]

/-- The product of the noisy input with the state. -/
def prodFunc : Fin 1 → Expr := ![.mul (.sym 0) (.sym 1)]

/-! ## C68 -/

/-- **C68.** Noise on the inputs: after any history of setters and copies `ExpectedValueGet` is the
value of the formulas at the inputs disturbed by the current noise mean, and it returns a value
exactly if the formulas have one there. -/
theorem C68_mean_input {cond : List Nat} {mu : Fin cond.length → ℝ}
    {sigma : Matrix (Fin cond.length) (Fin cond.length) ℝ} {g0 g : Pdf f p n cond.length}
    {ops : List (Pdf.Op cond.length)} (hs : Distinct us xs) (hne : cond ≠ [])
    (h0 : Pdf.makeInputNoise func us xs mu sigma cond = .ok g0) (h : Pdf.run ops g0 = .ok g)
    (u : Fin p → ℝ) (x : Fin n → ℝ) (y : Fin f → ℝ) :
    g.expectedValue u x = .ok y ↔ FuncIs func us xs (disturb us cond u g.mu) x y := by
  obtain ⟨hf, hc, hu, hx, -, -, -⟩ := Pdf.same_input h0 h
  rw [Pdf.expectedValue_input hc rfl hne, funcIs_iff hs, hf, hu, hx]
  exact Iff.rfl

example : ∃ g0 g : Pdf 1 2 1 2, Pdf.makeInputNoise sumFunc ![0, 1] ![2] ![0, 0] 1 [0, 1] = .ok g0 ∧
    Pdf.run [.muSet ![3, 4], .copy] g0 = .ok g ∧ g.expectedValue ![1, 2] ![0] = .ok ![10] := by
  obtain ⟨g0, g, h0, h, hmu, -⟩ := sum_history
  refine ⟨g0, g, h0, h, ?_⟩
  rw [C68_mean_input (cond := [0, 1]) distinct_sum (by simp) h0 h, hmu]
  have := sum_affine ![1, 2] ![0] ![3, 4]
  have e : (!![1, 1] : Matrix (Fin 1) (Fin 2) ℝ) *ᵥ ![3, 4] + ![(![1, 2] : Fin 2 → ℝ) 0 +
      (![1, 2] : Fin 2 → ℝ) 1] = ![10] := by
    ext i; fin_cases i; simp; norm_num
  rwa [e] at this

/-- **C68.** Noise on the function value. -/
theorem C68_mean_output {mu : Fin f → ℝ} {sigma : Matrix (Fin f) (Fin f) ℝ} {g : Pdf f p n f}
    {ops : List (Pdf.Op f)} (hs : Distinct us xs)
    (h : Pdf.run ops (Pdf.makeOutputNoise func us xs mu sigma) = .ok g)
    (u : Fin p → ℝ) (x : Fin n → ℝ) (y : Fin f → ℝ) :
    g.expectedValue u x = .ok y ↔ ∃ v, FuncIs func us xs u x v ∧ y = v + g.mu := by
  obtain ⟨hf, hc, hu, hx, -, -⟩ := Pdf.same_output h
  rw [Pdf.expectedValue_output hc rfl, hf, hu, hx]
  exact exists_congr fun v => and_congr_left fun _ => (funcIs_iff hs u x v).symm

example : (Pdf.makeOutputNoise recipFunc ![0] ![1] ![5] 1).expectedValue ![0] ![2] =
    .ok ![1 / 2 + 5] := by
  rw [C68_mean_output (ops := []) distinct01 rfl]
  exact ⟨_, recip_is ![0] ![2] (by simp), by ext i; fin_cases i; simp [Pdf.makeOutputNoise]⟩

/-- The Jacobian of the value of the formulas with respect to the state. -/
theorem jacobian_state (hs : Distinct us xs) {g : Pdf f p n d} (hu : g.u = us)
    (hx : g.x = xs) (hdx : g.dx = fun i => Pdf.derive func (xs i)) {u : Fin p → ℝ} {x : Fin n → ℝ}
    {v : Fin f → ℝ} (hv : ∀ i, value (envOf us xs u x) (func i) = some (v i)) :
    ∃ (h : (Fin n → ℝ) → Fin f → ℝ) (J : Matrix (Fin f) (Fin n) ℝ),
      (∀ᶠ x' in 𝓝 x, ∀ i, value (envOf us xs u x') (func i) = some (h x' i)) ∧
      g.dfGet 0 u x = .ok J ∧
      HasFDerivAt h (LinearMap.toContinuousLinearMap (Matrix.mulVecLin J)) x := by
  obtain ⟨slope, h1, h2⟩ := Pdf.env_state hs u x
  obtain ⟨h, J, e1, e2, e3⟩ := column_jacobian h1 h2 hv
  refine ⟨h, J, e1, Pdf.dfGet_eq_ok (func := func) (by rw [hdx, hx]) u x ?_, e3⟩
  rw [hu, hx]; exact e2

/-- **C68.** Noise on the function value: wherever the mean can be computed, `dfGet(0)` is the matrix
of the partial derivatives of `ExpectedValueGet` with respect to the state. -/
theorem C68_jacobian_output {mu : Fin f → ℝ} {sigma : Matrix (Fin f) (Fin f) ℝ} {g : Pdf f p n f}
    {ops : List (Pdf.Op f)} (hs : Distinct us xs)
    (h : Pdf.run ops (Pdf.makeOutputNoise func us xs mu sigma) = .ok g)
    {u : Fin p → ℝ} {x : Fin n → ℝ} {y : Fin f → ℝ} (hy : g.expectedValue u x = .ok y) :
    ∃ J, g.dfGet 0 u x = .ok J ∧ HasJacobian (fun x => g.expectedValue u x) x J := by
  obtain ⟨hf, hc, hu, hx, -, hdx⟩ := Pdf.same_output h
  obtain ⟨v, hv, -⟩ := (Pdf.expectedValue_output hc rfl u x y).1 hy
  rw [hf, hu, hx] at hv
  obtain ⟨m, J, e1, e2, e3⟩ := jacobian_state hs hu hx hdx hv
  refine ⟨J, e2, fun x' => m x' + g.mu, ?_, e3.add_const g.mu⟩
  filter_upwards [e1] with x' hx'
  rw [Pdf.expectedValue_output hc rfl, hf, hu, hx]
  exact ⟨m x', hx', rfl⟩

example : ∃ J, (Pdf.makeOutputNoise recipFunc ![0] ![1] ![5] 1).dfGet 0 ![0] ![2] = .ok J ∧
    HasJacobian (fun x => (Pdf.makeOutputNoise recipFunc ![0] ![1] ![5] 1).expectedValue ![0] x)
      ![2] J :=
  C68_jacobian_output (ops := []) distinct01 rfl (y := ![1 / 2 + 5]) (by
    rw [C68_mean_output (ops := []) distinct01 rfl]
    exact ⟨_, recip_is ![0] ![2] (by simp), by ext i; fin_cases i; simp [Pdf.makeOutputNoise]⟩)

/-- **C68.** Noise on the inputs, partial: `dfGet(0)` is the matrix of the partial derivatives of
`ExpectedValueGet` if the noise mean is zero. Missing: another noise mean, for which the claim is
false (`C68_jacobian_input_wrong`). -/
theorem C68_jacobian_input_partial {cond : List Nat} {mu : Fin cond.length → ℝ}
    {sigma : Matrix (Fin cond.length) (Fin cond.length) ℝ} {g0 g : Pdf f p n cond.length}
    {ops : List (Pdf.Op cond.length)} (hs : Distinct us xs) (hne : cond ≠ [])
    (h0 : Pdf.makeInputNoise func us xs mu sigma cond = .ok g0) (h : Pdf.run ops g0 = .ok g)
    (hmu : g.mu = 0) {u : Fin p → ℝ} {x : Fin n → ℝ} {y : Fin f → ℝ}
    (hy : g.expectedValue u x = .ok y) :
    ∃ J, g.dfGet 0 u x = .ok J ∧ HasJacobian (fun x => g.expectedValue u x) x J := by
  obtain ⟨hf, hc, hu, hx, -, hdx, -⟩ := Pdf.same_input h0 h
  have hz : ∀ us' : Fin p → Nat, disturb us' cond u (fun k => g.mu (Fin.cast rfl k)) = u := by
    intro us'; funext i; simp [disturb, hmu]
  rw [Pdf.expectedValue_input hc rfl hne, hz, hf, hu, hx] at hy
  obtain ⟨m, J, e1, e2, e3⟩ := jacobian_state hs hu hx hdx hy
  refine ⟨J, e2, m, ?_, e3⟩
  filter_upwards [e1] with x' hx'
  rw [Pdf.expectedValue_input hc rfl hne, hz, hf, hu, hx]
  exact hx'

example (g : Pdf 1 1 1 1) (hg : Pdf.makeInputNoise prodFunc ![0] ![1] ![0] 1 [0] = .ok g)
    (hmu : g.mu = 0) : ∃ J, g.dfGet 0 ![3] ![2] = .ok J ∧
      HasJacobian (fun x => g.expectedValue ![3] x) ![2] J := by
  refine C68_jacobian_input_partial (cond := [0]) (ops := []) distinct01 (by simp) hg rfl hmu
    (y := ![6]) ?_
  rw [C68_mean_input (cond := [0]) (ops := []) distinct01 (by simp) hg rfl, funcIs_iff distinct01]
  intro i
  fin_cases i
  simp [prodFunc, value, envOf01, disturb, hmu]
  norm_num

theorem run_muSet {g0 g : Pdf f p n d} {e : Fin d → ℝ} (ops : List (Pdf.Op d)) :
    Pdf.run ops g0 = .ok g → Pdf.run (ops ++ [.muSet e]) g0 = .ok (g.muSet e) := by
  induction ops generalizing g0 with
  | nil => intro hr; simp only [Pdf.run, Outcome.ok.injEq] at hr; subst hr; rfl
  | cons o os ih =>
    intro hr
    simp only [Pdf.run, Outcome.bind_eq_ok, List.cons_append] at hr ⊢
    obtain ⟨g1, k1, k2⟩ := hr
    exact ⟨g1, k1, ih k2⟩

/-- **C68.** What `dfGet(0)` is for every noise mean: the derivative of the mean the pdf would have if
the noise mean were zero. -/
theorem C68_jacobian_input_actual {cond : List Nat} {mu : Fin cond.length → ℝ}
    {sigma : Matrix (Fin cond.length) (Fin cond.length) ℝ} {g0 g : Pdf f p n cond.length}
    {ops : List (Pdf.Op cond.length)} (hs : Distinct us xs) (hne : cond ≠ [])
    (h0 : Pdf.makeInputNoise func us xs mu sigma cond = .ok g0) (h : Pdf.run ops g0 = .ok g)
    {u : Fin p → ℝ} {x : Fin n → ℝ} {y : Fin f → ℝ} (hy : FuncIs func us xs u x y) :
    ∃ J, g.dfGet 0 u x = .ok J ∧ HasJacobian (fun x => (g.muSet 0).expectedValue u x) x J := by
  have hrun := run_muSet (e := 0) ops h
  have hz : disturb us cond u (g.muSet 0).mu = u := by
    funext i; simp [disturb, Pdf.muSet]
  exact C68_jacobian_input_partial hs hne h0 hrun rfl
    ((C68_mean_input hs hne h0 hrun u x y).2 (by rw [hz]; exact hy))

example (g : Pdf 1 1 1 1) (hg : Pdf.makeInputNoise prodFunc ![0] ![1] ![1] !![1] [0] = .ok g) :
    ∃ J, g.dfGet 0 ![3] ![2] = .ok J ∧
      HasJacobian (fun x => (g.muSet 0).expectedValue ![3] x) ![2] J := by
  refine C68_jacobian_input_actual (cond := [0]) (ops := []) distinct01 (by simp) hg rfl
    (y := ![6]) ?_
  rw [funcIs_iff distinct01]
  intro i
  fin_cases i
  simp [prodFunc, value, envOf01]
  norm_num

/-- **C68, negation.** For a noisy input whose noise mean is 1 and the formula "input times state",
the mean at input 0 is the state itself, but the Jacobian handed to the filter is 0: `dfGet` leaves the
noise mean out. -/
theorem C68_jacobian_input_wrong : ∃ (g : Pdf 1 1 1 1) (u : Fin 1 → ℝ),
    Pdf.makeInputNoise prodFunc ![0] ![1] ![1] !![1] [0] = .ok g ∧
    (∀ x, g.expectedValue u x = .ok x) ∧ (∀ x, g.dfGet 0 u x = .ok 0) ∧
    ∀ x, ¬ HasJacobian (fun x => g.expectedValue u x) x 0 := by
  obtain ⟨g, hg⟩ : ∃ g, Pdf.makeInputNoise (f := 1) (p := 1) (n := 1) (d := 1) prodFunc ![0] ![1]
      ![1] !![1] [0] = .ok g := ⟨_, rfl⟩
  obtain ⟨hf, hc, hu, hx, -, hdx, -⟩ := Pdf.same_input (ops := []) hg rfl
  have hmu : g.mu = ![1] := by
    simp only [Pdf.makeInputNoise, Outcome.bind_eq_ok, Outcome.pure_eq, Outcome.ok.injEq] at hg
    obtain ⟨_, _, rfl⟩ := hg; rfl
  have hE : ∀ x, g.expectedValue 0 x = .ok x := by
    intro x
    rw [Pdf.expectedValue_input hc rfl (by simp), hf, hu, hx]
    intro i
    fin_cases i
    simp [prodFunc, value, envOf01, disturb, hmu]
  refine ⟨g, 0, hg, hE, fun x => ?_, fun x hJ => ?_⟩
  · refine Pdf.dfGet_eq_ok (func := prodFunc) (by rw [hdx, hx]) 0 x ?_
    rw [hu, hx]
    intro i j
    fin_cases i; fin_cases j
    simp [prodFunc, Expr.diff, value, envOf01]
  · obtain ⟨h, h1, h2⟩ := hJ
    have h3 : HasFDerivAt (fun x : Fin 1 → ℝ => x)
        (LinearMap.toContinuousLinearMap (Matrix.mulVecLin (0 : Matrix (Fin 1) (Fin 1) ℝ))) x := by
      refine h2.congr_of_eventuallyEq ?_
      filter_upwards [h1] with x' hx'
      have := hE x'
      rw [hx', Outcome.ok.injEq] at this
      exact this.symm
    have h4 := h3.unique (hasFDerivAt_id x)
    have h5 := congrArg (fun L : (Fin 1 → ℝ) →L[ℝ] (Fin 1 → ℝ) => L 1 0) h4
    simp at h5

/-- **C68.** There is no derivative with respect to another conditional argument. -/
theorem C68_other_argument (g : Pdf f p n d) (i : Nat) (hi : i ≠ 0) (u : Fin p → ℝ) (x : Fin n → ℝ) :
    g.dfGet i u x = .abort := by
  simp [Pdf.dfGet, cassert_false hi]

theorem jacobian_unique {g : (Fin n → ℝ) → Outcome (Fin f → ℝ)} {x : Fin n → ℝ}
    {J J' : Matrix (Fin f) (Fin n) ℝ} (h : HasJacobian g x J) (h' : HasJacobian g x J') : J = J' := by
  obtain ⟨a, a1, a2⟩ := h
  obtain ⟨b, b1, b2⟩ := h'
  have : HasFDerivAt b (LinearMap.toContinuousLinearMap (Matrix.mulVecLin J)) x := by
    refine a2.congr_of_eventuallyEq ?_
    filter_upwards [a1, b1] with x' h1 h2
    exact Outcome.ok.inj (h2.symm.trans h1)
  have h4 := this.unique b2
  ext i j
  have h5 := congrArg (fun L : (Fin n → ℝ) →L[ℝ] (Fin f → ℝ) => L (Pi.single j 1) i) h4
  simpa using h5

/-- **C68.** A formula that is linear in the state gives a linear model: constant Jacobian, the same
as if the matrices had been given to `LinearAnalyticConditionalGaussian`. -/
theorem C68_linear {mu : Fin f → ℝ} {sigma : Matrix (Fin f) (Fin f) ℝ} {g : Pdf f p n f}
    {ops : List (Pdf.Op f)} (hs : Distinct us xs)
    (h : Pdf.run ops (Pdf.makeOutputNoise func us xs mu sigma) = .ok g) (u : Fin p → ℝ)
    (A : Matrix (Fin f) (Fin n) ℝ) (b : Fin f → ℝ)
    (hl : ∀ x, FuncIs func us xs u x (A *ᵥ x + b)) (x : Fin n → ℝ) :
    g.expectedValue u x = .ok (A *ᵥ x + b + g.mu) ∧ g.dfGet 0 u x = .ok A := by
  have hE : ∀ x, g.expectedValue u x = .ok (A *ᵥ x + b + g.mu) := fun x =>
    (C68_mean_output hs h u x _).2 ⟨_, hl x, rfl⟩
  obtain ⟨J, h1, h2⟩ := C68_jacobian_output hs h (hE x)
  refine ⟨hE x, ?_⟩
  rw [h1, jacobian_unique h2 ⟨fun x => A *ᵥ x + b + g.mu, .of_forall hE, ?_⟩]
  exact (((LinearMap.toContinuousLinearMap (Matrix.mulVecLin A)).hasFDerivAt).add_const b).add_const
    g.mu

example : (Pdf.makeOutputNoise lineFunc ![0] ![1] ![5] 1).dfGet 0 ![7] ![3] = .ok !![2] :=
  (C68_linear (ops := []) distinct01 rfl ![7] !![2] ![7] (line_is ![7]) ![3]).2

/-- The mobile robot as formulas; symbols 0, 1 are the velocities, 2, 3, 4 the state. -/
def robot : Fin 3 → Expr :=
  ![.add (.sym 2) (.mul (.cos (.sym 4)) (.sym 0)),
    .add (.sym 3) (.mul (.sin (.sym 4)) (.sym 0)),
    .add (.sym 4) (.sym 1)]

theorem distinct_robot : Distinct (![0, 1] : Fin 2 → Nat) (![2, 3, 4] : Fin 3 → Nat) := by
  refine ⟨?_, ?_, ?_⟩
  · decide
  · decide
  · decide

theorem env_robot (u : Fin 2 → ℝ) (x : Fin 3 → ℝ) :
    envOf ![0, 1] ![2, 3, 4] u x 0 = some (u 0) ∧ envOf ![0, 1] ![2, 3, 4] u x 1 = some (u 1) ∧
    envOf ![0, 1] ![2, 3, 4] u x 2 = some (x 0) ∧ envOf ![0, 1] ![2, 3, 4] u x 3 = some (x 1) ∧
    envOf ![0, 1] ![2, 3, 4] u x 4 = some (x 2) := by
  have := envOf_assigns distinct_robot u x
  exact ⟨this.1 0, this.1 1, this.2.1 0, this.2.1 1, this.2.1 2⟩

/-- **C68.** The mobile robot pdf of the examples and the pdf made from the same formulas have the
same mean and the same Jacobian, for every state, velocity and noise. -/
theorem C68_mobile_same (r : Mobile) (u : Fin 2 → ℝ) (x : Fin 3 → ℝ) :
    (Pdf.makeOutputNoise robot ![0, 1] ![2, 3, 4] r.mu r.sigma).expectedValue u x =
      .ok (r.expectedValue u x) ∧
    (Pdf.makeOutputNoise robot ![0, 1] ![2, 3, 4] r.mu r.sigma).dfGet 0 u x = r.dfGet 0 u x := by
  obtain ⟨e0, e1, e2, e3, e4⟩ := env_robot u x
  constructor
  · rw [Pdf.expectedValue_output rfl rfl]
    refine ⟨r.expectedValue u x - r.mu, fun i => ?_, by funext i; simp [Pdf.makeOutputNoise]⟩
    show value (envOf ![0, 1] ![2, 3, 4] u x) (robot i) = _
    fin_cases i <;>
      simp [robot, value, e0, e1, e2, e3, e4, Mobile.expectedValue, Function.update]
  · refine Pdf.dfGet_eq_ok (func := robot) rfl u x fun i j => ?_
    show value (envOf ![0, 1] ![2, 3, 4] u x) ((robot i).diff ((![2, 3, 4] : Fin 3 → Nat) j)) = _
    fin_cases i <;> fin_cases j <;>
      simp [robot, Expr.diff, value, e0, e4, mul_comm]

/-- **C68.** The Jacobian written by hand in the mobile robot pdf of the examples is the matrix of the
partial derivatives of its mean. -/
theorem C68_mobile (r : Mobile) (u : Fin 2 → ℝ) (x : Fin 3 → ℝ) :
    ∃ J, r.dfGet 0 u x = .ok J ∧ HasJacobian (fun x => .ok (r.expectedValue u x)) x J := by
  obtain ⟨J, h1, h2⟩ := C68_jacobian_output (ops := []) distinct_robot rfl
    (C68_mobile_same r u x).1
  refine ⟨J, by rw [← (C68_mobile_same r u x).2, h1], ?_⟩
  simpa only [(C68_mobile_same r u _).1] using h2

/-- **C68.** A pdf with noise on the inputs cannot be used in a model by itself (the constructor of the
model ends the program), but the models made for these pdfs take a copy, which can, and the copy
gives the same answers. -/
theorem C68_model (be : Backend) {mu : Fin d → ℝ} {sigma : Matrix (Fin d) (Fin d) ℝ}
    {cond : List Nat} {g : Pdf f p n d}
    (h : Pdf.makeInputNoise func us xs mu sigma cond = .ok g) :
    g.intoModel = .abort ∧ ∃ m, g.ginacModel = .ok m ∧ ∀ u x,
      m.expectedValue u x = g.expectedValue u x ∧ (∀ i, m.dfGet i u x = g.dfGet i u x) ∧
      m.covariance be u x = g.covariance be u x := by
  simp only [Pdf.makeInputNoise, Outcome.bind_eq_ok, Outcome.pure_eq, Outcome.ok.injEq,
    cassert_eq_ok] at h
  obtain ⟨_, hd, rfl⟩ := h
  constructor
  · simp [Pdf.intoModel, cassert]
  · refine ⟨{ numArgs := 2, mu := mu, sigma := sigma, func := func, cond := cond, u := us, x := xs,
              dcond := cond.map (Pdf.derive func), dx := fun i => Pdf.derive func (xs i) },
      ?_, fun u x => ⟨rfl, fun i => rfl, rfl⟩⟩
    simp [Pdf.ginacModel, Pdf.copy, Pdf.intoModel, cassert, hd]

/-- **C68.** A noise of the wrong size is refused if it is on the inputs. -/
theorem C68_size {mu : Fin d → ℝ} {sigma : Matrix (Fin d) (Fin d) ℝ} {cond : List Nat}
    (hd : d ≠ cond.length) : Pdf.makeInputNoise func us xs mu sigma cond = .abort := by
  simp [Pdf.makeInputNoise, cassert_false hd]

/-- **C68, negation.** A noise of the wrong size on the function value is accepted, and the mean is
undefined behaviour. -/
theorem C68_size_unchecked (hd : f ≠ d) {mu : Fin d → ℝ} {sigma : Matrix (Fin d) (Fin d) ℝ}
    (hs : Distinct us xs) {u : Fin p → ℝ} {x : Fin n → ℝ} {v : Fin f → ℝ}
    (hv : FuncIs func us xs u x v) :
    (Pdf.makeOutputNoise func us xs mu sigma).expectedValue u x = .ub := by
  have hc : collect (fun i => (Pdf.makeOutputNoise func us xs mu sigma).evalAt u x (func i)) = .ok v := by
    rw [collect_eq_ok]
    intro i
    rw [evalAt_eq_ok]
    exact (funcIs_iff hs u x v).1 hv i
  have h2 : (Pdf.makeOutputNoise func us xs mu sigma).addMu v = .ub := by
    simp [Pdf.addMu, Pdf.makeOutputNoise, hd]
  rw [← h2, Pdf.expectedValue, Pdf.shifted_output rfl, Outcome.ok_bind]
  show (collect (fun i => (Pdf.makeOutputNoise func us xs mu sigma).evalAt u x (func i)) >>= _) = _
  rw [hc, Outcome.ok_bind]

example : (Pdf.makeOutputNoise lineFunc ![0] ![1] ![5, 6] 1).expectedValue ![7] ![3] = .ub :=
  C68_size_unchecked (by decide) distinct01 (line_is ![7] ![3])

/-! ## C69 -/

/-- **C69.** Noise on the inputs, partial: if the noise mean is zero, `CovarianceGet` is `D Σ Dᵀ` where
`D` is the matrix of the partial derivatives of `ExpectedValueGet` with respect to the noise mean,
at the noise mean. Missing: another noise mean, for which this is false
(`C69_wrong`). -/
theorem C69_covariance_partial (be : Backend) {cond : List Nat} {mu : Fin cond.length → ℝ}
    {sigma : Matrix (Fin cond.length) (Fin cond.length) ℝ} {g0 g : Pdf f p n cond.length}
    {ops : List (Pdf.Op cond.length)} (hne : cond ≠ [])
    (hin : ∀ c ∈ cond, ∃ i, us i = c)
    (h0 : Pdf.makeInputNoise func us xs mu sigma cond = .ok g0) (h : Pdf.run ops g0 = .ok g)
    (hsig : g.sigmaᵀ = g.sigma) (hmu : g.mu = 0) {u : Fin p → ℝ} {x : Fin n → ℝ} {y : Fin f → ℝ}
    (hy : g.expectedValue u x = .ok y) :
    ∃ D : Matrix (Fin f) (Fin cond.length) ℝ,
      HasJacobian (fun e => (g.muSet e).expectedValue u x) g.mu D ∧
      g.covariance be u x = .ok ⟨f, D * g.sigma * Dᵀ⟩ := by
  obtain ⟨hf, hc, hu, hx, hdc, -, -⟩ := Pdf.same_input h0 h
  obtain ⟨slope, h1, h2⟩ := Pdf.env_disturb (xs := xs) hin u x (0 : Fin cond.length → ℝ)
  have hz : disturb us cond u (0 : Fin cond.length → ℝ) = u := by
    funext i; simp [disturb]
  rw [Pdf.expectedValue_input hc rfl hne, hf, hu, hx] at hy
  have hy' : ∀ i, value (envOf us xs (disturb us cond u (0 : Fin cond.length → ℝ)) x) (func i) =
      some (y i) := by
    have : (fun k => g.mu (Fin.cast rfl k)) = (0 : Fin cond.length → ℝ) := hmu
    rw [this] at hy; exact hy
  obtain ⟨m, D, e1, e2, e3⟩ := column_jacobian (s := fun k : Fin cond.length => cond[k]) h1 h2 hy'
  refine ⟨D, ⟨m, ?_, by rw [hmu]; exact e3⟩, ?_⟩
  · rw [hmu]
    filter_upwards [e1] with e he
    rw [Pdf.expectedValue_input (g := g.muSet e) hc rfl hne]
    show ∀ i, value (envOf g.u g.x (disturb g.u cond u e) x) (g.func i) = some (m e i)
    rw [hf, hu, hx]
    exact he
  · rw [hz] at e2
    have := Pdf.covariance_input be hc rfl hne hdc hsig u x (D := D) (by rw [hu, hx]; exact e2)
    exact this

example (g : Pdf 1 1 1 1) (hg : Pdf.makeInputNoise squareFunc ![0] ![1] ![0] 1 [0] = .ok g)
    (hmu : g.mu = 0) (hs : g.sigma = 1) : ∃ D : Matrix (Fin 1) (Fin 1) ℝ,
      HasJacobian (fun e => (g.muSet e).expectedValue ![3] ![2]) g.mu D ∧
      g.covariance .boost ![3] ![2] = .ok ⟨1, D * g.sigma * Dᵀ⟩ := by
  refine C69_covariance_partial (cond := [0]) (ops := []) (us := ![0]) .boost (by simp)
    (fun c hc => ⟨0, (List.mem_singleton.1 hc).symm⟩) hg rfl (by rw [hs]; exact transpose_one) hmu
    (y := ![9]) ?_
  rw [C68_mean_input (cond := [0]) (ops := []) distinct01 (by simp) hg rfl, funcIs_iff distinct01]
  intro i
  fin_cases i
  simp [squareFunc, value, envOf01, disturb, hmu]
  norm_num

/-- **C69, negation.** Noise with mean 1 and variance 1 on the input, and the formula "input squared":
at input 0 the derivative with respect to the noise at its mean is 2, so the linearised variance is
4, but the reported variance is 0: the value is reported as certain. -/
theorem C69_wrong (be : Backend) : ∃ g : Pdf 1 1 1 1,
    Pdf.makeInputNoise squareFunc ![0] ![1] ![1] !![1] [0] = .ok g ∧ ∀ x,
    g.expectedValue 0 x = .ok ![1] ∧
    HasJacobian (fun e => (g.muSet e).expectedValue 0 x) g.mu !![2] ∧
    g.covariance be 0 x = .ok ⟨1, 0⟩ ∧
    (!![2] * g.sigma * !![2]ᵀ : Matrix (Fin 1) (Fin 1) ℝ) = !![4] := by
  obtain ⟨g, hg⟩ : ∃ g, Pdf.makeInputNoise (f := 1) (p := 1) (n := 1) (d := 1) squareFunc ![0] ![1]
      ![1] !![1] [0] = .ok g := ⟨_, rfl⟩
  obtain ⟨hf, hc, hu, hx, hdc, -, -⟩ := Pdf.same_input (ops := []) hg rfl
  have hms : g.mu = ![1] ∧ g.sigma = !![1] := by
    simp only [Pdf.makeInputNoise, Outcome.bind_eq_ok, Outcome.pure_eq, Outcome.ok.injEq] at hg
    obtain ⟨_, _, rfl⟩ := hg; exact ⟨rfl, rfl⟩
  have hE : ∀ (e x : Fin 1 → ℝ), (g.muSet e).expectedValue 0 x = .ok ![e 0 * e 0] := by
    intro e x
    rw [Pdf.expectedValue_input (g := g.muSet e) hc rfl (by simp)]
    show ∀ i, value (envOf g.u g.x _ x) (g.func i) = _
    rw [hf, hu, hx]
    intro i
    fin_cases i
    simp [squareFunc, value, envOf01, disturb, Pdf.muSet, hu]
  refine ⟨g, hg, fun x => ⟨?_, ⟨fun e => ![e 0 * e 0], .of_forall fun e => hE e x, ?_⟩, ?_, ?_⟩⟩
  · have := hE g.mu x
    rw [hms.1] at this
    simpa [Pdf.muSet, ← hms.1] using this
  · rw [hasFDerivAt_pi']
    intro i
    have hp : HasFDerivAt (fun e : Fin 1 → ℝ => e 0) (ContinuousLinearMap.proj (R := ℝ) 0) g.mu :=
      hasFDerivAt_apply 0 g.mu
    have h2 := hp.mul hp
    have e1 : (fun e : Fin 1 → ℝ => (![e 0 * e 0] : Fin 1 → ℝ) i) = fun e => e 0 * e 0 := by
      funext e; fin_cases i; rfl
    rw [e1]
    refine h2.congr_fderiv (ContinuousLinearMap.ext fun w => ?_)
    fin_cases i
    simp [hms.1, Matrix.vecHead]
    ring
  · have := Pdf.covariance_input be (D := 0) hc rfl (by simp) hdc (by
      rw [hms.2]; ext i j; fin_cases i; fin_cases j; rfl) 0 x (by
        rw [hu, hx]
        intro i k
        fin_cases i; fin_cases k
        simp [squareFunc, Expr.diff, value, envOf01])
    rw [this]
    simp
  · rw [hms.2]
    ext i j
    fin_cases i; fin_cases j
    simp [Matrix.mul_apply]
    norm_num

/-- **C69.** Formulas that are linear in the noisy inputs: whatever the noise mean, the reported mean
is `A μ + b` and the reported covariance is `A Σ Aᵀ`. -/
theorem C69_affine (be : Backend) {cond : List Nat} {mu : Fin cond.length → ℝ}
    {sigma : Matrix (Fin cond.length) (Fin cond.length) ℝ} {g0 g : Pdf f p n cond.length}
    {ops : List (Pdf.Op cond.length)} (hs : Distinct us xs) (hne : cond ≠ [])
    (hin : ∀ c ∈ cond, ∃ i, us i = c)
    (h0 : Pdf.makeInputNoise func us xs mu sigma cond = .ok g0) (h : Pdf.run ops g0 = .ok g)
    (hsig : g.sigmaᵀ = g.sigma) (u : Fin p → ℝ) (x : Fin n → ℝ)
    (A : Matrix (Fin f) (Fin cond.length) ℝ) (b : Fin f → ℝ)
    (hl : ∀ e, FuncIs func us xs (disturb us cond u e) x (A *ᵥ e + b)) :
    g.expectedValue u x = .ok (A *ᵥ g.mu + b) ∧
    g.covariance be u x = .ok ⟨f, A * g.sigma * Aᵀ⟩ := by
  have hE := (C68_mean_input hs hne h0 h u x _).2 (hl g.mu)
  refine ⟨hE, ?_⟩
  have hrun := run_muSet (e := 0) ops h
  have hy := (C68_mean_input hs hne h0 hrun u x _).2 (hl 0)
  obtain ⟨D, hD, hcov⟩ := C69_covariance_partial be hne hin h0 hrun hsig rfl hy
  have hA : HasJacobian (fun e => ((g.muSet 0).muSet e).expectedValue u x) (g.muSet 0).mu A := by
    refine ⟨fun e => A *ᵥ e + b, .of_forall fun e => ?_,
      ((LinearMap.toContinuousLinearMap (Matrix.mulVecLin A)).hasFDerivAt).add_const b⟩
    have hrun' : Pdf.run (f := f) (p := p) (n := n) [.muSet e] g = .ok (g.muSet e) := rfl
    obtain ⟨hf, hc, hu, hx, -, -, -⟩ := Pdf.same_input h0 h
    show (g.muSet e).expectedValue u x = _
    rw [Pdf.expectedValue_input (g := g.muSet e) hc rfl hne]
    show ∀ i, value (envOf g.u g.x (disturb g.u cond u e) x) (g.func i) = _
    rw [hf, hu, hx]
    exact (funcIs_iff hs _ x _).1 (hl e)
  rw [jacobian_unique hD hA] at hcov
  exact hcov

example : ∃ g0 g : Pdf 1 2 1 2, Pdf.makeInputNoise sumFunc ![0, 1] ![2] ![0, 0] 1 [0, 1] = .ok g0 ∧
    Pdf.run [.muSet ![3, 4], .copy] g0 = .ok g ∧
    g.covariance .boost ![1, 2] ![0] =
      .ok ⟨1, (!![1, 1] : Matrix (Fin 1) (Fin 2) ℝ) * (1 : Matrix (Fin 2) (Fin 2) ℝ) *
        (!![1, 1] : Matrix (Fin 1) (Fin 2) ℝ)ᵀ⟩ := by
  obtain ⟨g0, g, h0, h, -, hsig⟩ := sum_history
  refine ⟨g0, g, h0, h, ?_⟩
  have := (C69_affine (cond := [0, 1]) .boost distinct_sum (by simp) sum_cond h0 h
    (by rw [hsig]; exact transpose_one) ![1, 2] ![0] _ _ (sum_affine ![1, 2] ![0])).2
  rw [hsig] at this
  exact this

/-- **C69.** For formulas linear in the noisy inputs and a random disturbance with the mean and the
covariance given to the pdf, the value of the formulas has exactly the reported mean and the
reported covariance. -/
theorem C69_moments {Ω : Type} [MeasurableSpace Ω] {P : Measure Ω} [IsProbabilityMeasure P] (be : Backend) {cond : List Nat}
    {mu : Fin cond.length → ℝ} {sigma : Matrix (Fin cond.length) (Fin cond.length) ℝ}
    {g0 g : Pdf f p n cond.length} {ops : List (Pdf.Op cond.length)} (hs : Distinct us xs)
    (hne : cond ≠ []) (hin : ∀ c ∈ cond, ∃ i, us i = c)
    (h0 : Pdf.makeInputNoise func us xs mu sigma cond = .ok g0) (h : Pdf.run ops g0 = .ok g)
    (u : Fin p → ℝ) (x : Fin n → ℝ)
    (A : Matrix (Fin f) (Fin cond.length) ℝ) (b : Fin f → ℝ)
    (hl : ∀ e, FuncIs func us xs (disturb us cond u e) x (A *ᵥ e + b))
    {e : Ω → Fin cond.length → ℝ} (he : Square P fun ω => e ω - g.mu)
    (hc : Centred P fun ω => e ω - g.mu)
    (hm : moment P (fun ω => e ω - g.mu) (fun ω => e ω - g.mu) = g.sigma)
    {Y : Ω → Fin f → ℝ} (hY : ∀ ω, FuncIs func us xs (disturb us cond u (e ω)) x (Y ω)) :
    ∃ m C, g.expectedValue u x = .ok m ∧ g.covariance be u x = .ok ⟨f, C⟩ ∧
      Centred P (fun ω => Y ω - m) ∧ moment P (fun ω => Y ω - m) (fun ω => Y ω - m) = C := by
  have hsig : g.sigmaᵀ = g.sigma := by rw [← hm]; exact (Moment.psd he).1
  obtain ⟨h1, h2⟩ := C69_affine be hs hne hin h0 h hsig u x A b hl
  have hYe : ∀ ω, Y ω = A *ᵥ e ω + b := by
    intro ω
    funext i
    have e1 := (funcIs_iff hs _ x _).1 (hY ω) i
    rw [(funcIs_iff hs _ x _).1 (hl (e ω)) i] at e1
    exact (Option.some.inj e1).symm
  have hd : (fun ω => Y ω - (A *ᵥ g.mu + b)) = fun ω => A *ᵥ (e ω - g.mu) := by
    funext ω
    rw [hYe, mulVec_sub]; abel
  refine ⟨_, _, h1, h2, ?_, ?_⟩
  · rw [hd]
    intro i
    simp only [Matrix.mulVec, dotProduct]
    rw [integral_finsetSum]
    · refine Finset.sum_eq_zero fun j _ => ?_
      rw [integral_const_mul, hc j, mul_zero]
    · intro j _
      exact ((he j).integrable one_le_two).const_mul _
  · rw [hd, Moment.mulVec_left A he (Moment.square_mulVec A he), Moment.mulVec_right A he he, hm,
      Matrix.mul_assoc]

/-- Each input is disturbed by a coin with the values `1` and `-1`. -/
example (g : Pdf 1 2 1 2)
    (hg : Pdf.makeInputNoise sumFunc ![0, 1] ![2] ![0, 0] 1 [0, 1] = .ok g) :
    ∃ m C, g.expectedValue ![1, 2] ![0] = .ok m ∧ g.covariance .eigen ![1, 2] ![0] = .ok ⟨1, C⟩ ∧
      (∀ i, ∫ ω, (![Coins.sign ω.1 + Coins.sign ω.2 + 3] - m : Fin 1 → ℝ) i ∂Coins.law = 0) ∧
      moment Coins.law (fun ω => ![Coins.sign ω.1 + Coins.sign ω.2 + 3] - m)
        (fun ω => ![Coins.sign ω.1 + Coins.sign ω.2 + 3] - m) = C := by
  have hms : g.mu = ![0, 0] ∧ g.sigma = 1 := by
    simp only [Pdf.makeInputNoise, Outcome.bind_eq_ok, Outcome.pure_eq, Outcome.ok.injEq] at hg
    obtain ⟨_, _, rfl⟩ := hg; exact ⟨rfl, rfl⟩
  refine C69_moments (P := Coins.law) (cond := [0, 1]) (ops := []) .eigen distinct_sum (by simp)
    sum_cond hg rfl ![1, 2] ![0] _ _ (sum_affine ![1, 2] ![0])
    (e := fun ω => ![Coins.sign ω.1, Coins.sign ω.2]) (fun _ => MemLp.of_discrete) (fun i => ?_) ?_
    (fun ω => ?_)
  · rw [Coins.integral_eq, hms.1]
    fin_cases i <;> simp [Coins.sign]
  · rw [hms.1, hms.2]
    ext i j
    simp only [moment, Matrix.of_apply, Coins.integral_eq]
    fin_cases i <;> fin_cases j <;> simp [Coins.sign] <;> norm_num
  · have := sum_affine ![1, 2] ![0] ![Coins.sign ω.1, Coins.sign ω.2]
    have e : (!![1, 1] : Matrix (Fin 1) (Fin 2) ℝ) *ᵥ ![Coins.sign ω.1, Coins.sign ω.2] +
        ![(![1, 2] : Fin 2 → ℝ) 0 + (![1, 2] : Fin 2 → ℝ) 1] =
        ![Coins.sign ω.1 + Coins.sign ω.2 + 3] := by
      ext i; fin_cases i; simp; norm_num
    rwa [e] at this

/-- **C69.** A valid noise covariance gives a valid covariance. -/
theorem C69_valid (be : Backend) {cond : List Nat} {mu : Fin cond.length → ℝ}
    {sigma : Matrix (Fin cond.length) (Fin cond.length) ℝ} {g0 g : Pdf f p n cond.length}
    {ops : List (Pdf.Op cond.length)}
    (hne : cond ≠ []) (h0 : Pdf.makeInputNoise func us xs mu sigma cond = .ok g0)
    (h : Pdf.run ops g0 = .ok g) (hsig : PSD g.sigma) {u : Fin p → ℝ} {x : Fin n → ℝ}
    {k : Nat} {C : Matrix (Fin k) (Fin k) ℝ} (hcov : g.covariance be u x = .ok ⟨k, C⟩) :
    k = f ∧ PSD C := by
  obtain ⟨-, hc, -, -, -, -, -⟩ := Pdf.same_input h0 h
  have hl : g.cond.length ≠ 0 := by rw [hc]; exact fun h => hne (List.length_eq_zero_iff.1 h)
  simp only [Pdf.covariance, if_pos hl, Outcome.bind_eq_ok, Outcome.pure_eq, Outcome.ok.injEq] at hcov
  obtain ⟨D, -, S, hS, hk⟩ := hcov
  obtain ⟨rfl, hk⟩ := Sigma.mk.inj_iff.1 hk
  obtain rfl := eq_of_heq hk
  refine ⟨rfl, ?_⟩
  simp only [Pdf.sandwich] at hS
  split at hS
  · rw [Outcome.ok.injEq] at hS
    obtain ⟨E, hE⟩ : ∃ E : Matrix (Fin f) (Fin cond.length) ℝ,
      E = Matrix.of fun i k => D[Fin.cast ‹_› k] i := ⟨_, rfl⟩
    rw [← hE] at hS
    have := hsig.congr E
    rw [be.toSym_of_symm this.1] at hS
    rw [← hS]; exact this
  · exact absurd hS (by simp)

example (g0 g : Pdf 1 2 1 2)
    (h0 : Pdf.makeInputNoise sumFunc ![0, 1] ![2] ![0, 0] 1 [0, 1] = .ok g0)
    (h : Pdf.run [.muSet ![3, 4], .copy] g0 = .ok g) (hs : g.sigma = 1)
    (k : Nat) (C : Matrix (Fin k) (Fin k) ℝ)
    (hcov : g.covariance .boost ![1, 2] ![0] = .ok ⟨k, C⟩) : k = 1 ∧ PSD C :=
  C69_valid (cond := [0, 1]) .boost (by simp) h0 h (by
    rw [hs]
    exact ⟨transpose_one, fun x => by rw [one_mulVec]; exact Finset.sum_nonneg fun i _ => mul_self_nonneg (x i)⟩) hcov

/-- **C69.** Noise on the function value: the covariance is that of the noise. -/
theorem C69_output (be : Backend) {mu : Fin d → ℝ} {sigma : Matrix (Fin d) (Fin d) ℝ}
    {g : Pdf f p n d} {ops : List (Pdf.Op d)}
    (h : Pdf.run ops (Pdf.makeOutputNoise func us xs mu sigma) = .ok g) (u : Fin p → ℝ)
    (x : Fin n → ℝ) : g.covariance be u x = .ok ⟨d, g.sigma⟩ := by
  obtain ⟨-, hc, -⟩ := Pdf.same_output h
  simp [Pdf.covariance, hc]

/-! ## C70 -/

/-- **C70.** If the noise has the size of the function value, the density is the normal density with
the reported mean and covariance. -/
theorem C70_density_partial (be : Backend) {g : Pdf f p n f} {u : Fin p → ℝ} {x : Fin n → ℝ}
    {m : Fin f → ℝ} {C : Matrix (Fin f) (Fin f) ℝ} (hm : g.expectedValue u x = .ok m)
    (hC : g.covariance be u x = .ok ⟨f, C⟩) (hpd : PD C) (y : Fin f → ℝ) :
    g.probabilityGet be u x y = .ok (normalDensity m C y) := by
  rw [← conditional_density be hpd m y]
  simp only [Pdf.probabilityGet, hm, hC, Outcome.ok_bind, Pdf.sized, dif_pos]
  rfl

theorem unit_pd : PD (1 : Matrix (Fin 1) (Fin 1) ℝ) := by
  refine ⟨transpose_one, fun x hx => ?_⟩
  have h0 : x 0 ≠ 0 := fun h => hx (by ext i; fin_cases i; exact h)
  simpa [dotProduct] using mul_self_pos.2 h0

theorem line_mean : (Pdf.makeOutputNoise lineFunc ![0] ![1] ![5] 1).expectedValue ![7] ![3] =
    .ok (!![2] *ᵥ ![3] + ![7] + ![5]) :=
  (C68_linear (ops := []) distinct01 rfl ![7] !![2] ![7] (line_is ![7]) ![3]).1

example (y : Fin 1 → ℝ) :
    (Pdf.makeOutputNoise lineFunc ![0] ![1] ![5] 1).probabilityGet .boost ![7] ![3] y =
      .ok (normalDensity (!![2] *ᵥ ![3] + ![7] + ![5]) 1 y) :=
  C70_density_partial .boost line_mean (C69_output .boost (ops := []) rfl _ _) unit_pd y

/-- **C70.** In general the returned number is the normal density multiplied with
`sqrt((2π)^f) / sqrt((2π)^d)`: the normalisation uses the size `d` of the noise instead of the size `f`
of the value. -/
theorem C70_density_factor (be : Backend) {g : Pdf f p n d} {u : Fin p → ℝ} {x : Fin n → ℝ}
    {m : Fin f → ℝ} {C : Matrix (Fin f) (Fin f) ℝ} (hm : g.expectedValue u x = .ok m)
    (hC : g.covariance be u x = .ok ⟨f, C⟩) (hpd : PD C) (y : Fin f → ℝ) :
    ∃ q, g.probabilityGet be u x y = .ok q ∧
      q * Real.sqrt ((2 * Real.pi) ^ d) = normalDensity m C y * Real.sqrt ((2 * Real.pi) ^ f) := by
  have hd := pd_det_pos hpd
  have hq : 0 ≤ (y - m) ⬝ᵥ (C⁻¹ *ᵥ (y - m)) := hpd.inv.psd.2 _
  have hpi : (0 : ℝ) < Real.pi * 2 := by positivity
  obtain ⟨q, hq'⟩ : ∃ q, q = Real.exp (-(1 / 2) * ((y - m) ⬝ᵥ (C⁻¹ *ᵥ (y - m)))) *
      (1 / Real.sqrt ((Real.pi * 2) ^ d * C.det)) := ⟨_, rfl⟩
  refine ⟨q, ?_, ?_⟩
  · have h0 : 0 ≤ q := by rw [hq']; positivity
    simp only [Pdf.probabilityGet, hm, hC, Outcome.ok_bind, Pdf.sized, dif_pos,
      be.symInverse_of_det hpd.1 hd.ne', be.determinant_of_det C hd.ne', mkProb, if_pos hq,
      Gaussian.normaliser, if_neg (not_lt.2 hd.le), Gaussian.densityOf, Pdf.dimension, ← hq', if_pos h0]
  · have e1 : ∀ k : Nat, Real.sqrt ((Real.pi * 2) ^ k * C.det) =
        Real.sqrt ((2 * Real.pi) ^ k) * Real.sqrt C.det := by
      intro k; rw [mul_comm Real.pi 2, Real.sqrt_mul (by positivity)]
    have e2 : ∀ k : Nat, Real.sqrt ((2 * Real.pi) ^ k) ≠ 0 :=
      fun k => (Real.sqrt_pos.2 (by positivity)).ne'
    have e3 : Real.sqrt C.det ≠ 0 := (Real.sqrt_pos.2 hd).ne'
    have hE : Real.exp (-(1 / 2) * ((y - m) ⬝ᵥ (C⁻¹ *ᵥ (y - m)))) =
        Real.exp (-(quad C⁻¹ (y - m)) / 2) := by
      rw [quad]; congr 1; ring
    rw [hq', normalDensity, hE, mul_comm Real.pi 2] at *
    rw [Real.sqrt_mul (by positivity), Real.sqrt_mul (by positivity)]
    field_simp

/-- **C70, negation.** Whenever the sizes differ, the returned number is not the normal density, at no
point. -/
theorem C70_density_wrong (be : Backend) (hfd : f ≠ d) {g : Pdf f p n d} {u : Fin p → ℝ}
    {x : Fin n → ℝ} {m : Fin f → ℝ} {C : Matrix (Fin f) (Fin f) ℝ}
    (hm : g.expectedValue u x = .ok m) (hC : g.covariance be u x = .ok ⟨f, C⟩) (hpd : PD C)
    (y : Fin f → ℝ) : g.probabilityGet be u x y ≠ .ok (normalDensity m C y) := by
  obtain ⟨q, h1, h2⟩ := C70_density_factor be hm hC hpd y
  rw [h1]
  intro h
  obtain rfl := Outcome.ok.inj h
  have hpos := (pd_det_pos hpd)
  have hn : normalDensity m C y ≠ 0 := by rw [normalDensity]; positivity
  have h3 := mul_left_cancel₀ hn h2
  rw [Real.sqrt_inj (by positivity) (by positivity)] at h3
  have h4 : (1 : ℝ) < 2 * Real.pi := by linarith [Real.two_le_pi]
  exact hfd (pow_right_injective₀ (by positivity) h4.ne' h3).symm

/-- **C70.** If the noise has the size of the function value, and the covariance is not close to
singular, samples follow the density that is reported. -/
theorem C70_sample_partial (be : Backend) {g : Pdf f p n f} {u : Fin p → ℝ} {x : Fin n → ℝ}
    {m : Fin f → ℝ} {C : Matrix (Fin f) (Fin f) ℝ} (hm : g.expectedValue u x = .ok m)
    (hC : g.covariance be u x = .ok ⟨f, C⟩)
    (hs : PSD (C - machEps • (1 : Matrix (Fin f) (Fin f) ℝ))) (me : SampleMthd)
    (hme : me = .default ∨ me = .cholesky) (old : Fin f → ℝ) :
    ∃ (draw : (Fin f → ℝ) → Fin f → ℝ) (density : (Fin f → ℝ) → ℝ),
      (∀ z, g.sampleFrom be me u x old z = .ok (true, draw z)) ∧
      (∀ y, g.probabilityGet be u x y = .ok (density y)) ∧
      (Measure.pi fun _ : Fin f => ProbabilityTheory.gaussianReal 0 1).map draw =
        volume.withDensity fun y => ENNReal.ofReal (density y) := by
  obtain ⟨hpd, h1, h2⟩ := conditional_law m C hs hme old
  refine ⟨_, _, fun z => ?_, fun y => C70_density_partial be hm hC hpd y, h2⟩
  have h3 := h1 z
  rw [conditional_sample m C hme] at h3 ⊢
  rcases hme with rfl | rfl <;>
  · simp only [Pdf.sampleFrom, hm, hC, Outcome.ok_bind, Pdf.sized, dif_pos, Pdf.combine,
      Outcome.pure_eq, ← h3]
    rfl

example (old : Fin 1 → ℝ) : ∃ (draw : (Fin 1 → ℝ) → Fin 1 → ℝ) (density : (Fin 1 → ℝ) → ℝ),
    (∀ z, (Pdf.makeOutputNoise lineFunc ![0] ![1] ![5] 1).sampleFrom .boost .default ![7] ![3] old z =
      .ok (true, draw z)) ∧
    (∀ y, (Pdf.makeOutputNoise lineFunc ![0] ![1] ![5] 1).probabilityGet .boost ![7] ![3] y =
      .ok (density y)) ∧
    (Measure.pi fun _ : Fin 1 => ProbabilityTheory.gaussianReal 0 1).map draw =
      volume.withDensity fun y => ENNReal.ofReal (density y) :=
  C70_sample_partial .boost line_mean (C69_output .boost (ops := []) rfl _ _) (by
    have e : (1 : Matrix (Fin 1) (Fin 1) ℝ) - machEps • 1 = (1 - machEps) • 1 := by
      rw [sub_smul, one_smul]
    show PSD ((1 : Matrix (Fin 1) (Fin 1) ℝ) - machEps • 1)
    rw [e]
    refine ⟨by rw [transpose_smul, transpose_one], fun x => ?_⟩
    rw [smul_mulVec, one_mulVec, dotProduct_smul, smul_eq_mul]
    exact mul_nonneg (sub_nonneg.2 machEps_le) (Finset.sum_nonneg fun i _ => mul_self_nonneg (x i))) .default (.inl rfl) old

/-- **C70, negation.** Whenever the sizes differ, drawing a sample is undefined behaviour: a matrix is
multiplied with a vector of another size. -/
theorem C70_sample_ub (be : Backend) (hfd : f ≠ d) {g : Pdf f p n d} {u : Fin p → ℝ}
    {x : Fin n → ℝ} {m : Fin f → ℝ} {C : Matrix (Fin f) (Fin f) ℝ}
    (hm : g.expectedValue u x = .ok m) (hC : g.covariance be u x = .ok ⟨f, C⟩) (me : SampleMthd)
    (hme : me = .default ∨ me = .cholesky) (old : Fin f → ℝ) (z : Fin d → ℝ) :
    g.sampleFrom be me u x old z = .ub := by
  rcases hme with rfl | rfl <;>
  · simp only [Pdf.sampleFrom, hm, hC, Outcome.ok_bind, Pdf.sized, dif_pos, Pdf.combine,
      dif_neg hfd, Outcome.ub_bind]

/-- **C70, negation.** An instance: two noisy inputs that are added up. Mean and covariance are right,
the density is never the normal density, and sampling is undefined behaviour. The model reports a
state of size 2 although the value has size 1. -/
theorem C70_instance (be : Backend) : ∃ g : Pdf 1 2 1 2,
    Pdf.makeInputNoise sumFunc ![0, 1] ![2] ![0, 0] 1 [0, 1] = .ok g ∧ g.stateSize = 2 ∧ ∀ u x,
    g.expectedValue u x = .ok ![u 0 + u 1] ∧ g.covariance be u x = .ok ⟨1, !![2]⟩ ∧
    (∀ y, g.probabilityGet be u x y ≠ .ok (normalDensity ![u 0 + u 1] !![2] y)) ∧
    ∀ old z, g.sampleFrom be .default u x old z = .ub := by
  obtain ⟨g, hg⟩ : ∃ g, Pdf.makeInputNoise (f := 1) (p := 2) (n := 1) (d := 2) sumFunc ![0, 1] ![2]
      ![0, 0] 1 [0, 1] = .ok g := ⟨_, rfl⟩
  have hms : g.mu = ![0, 0] ∧ g.sigma = 1 := by
    simp only [Pdf.makeInputNoise, Outcome.bind_eq_ok, Outcome.pure_eq, Outcome.ok.injEq] at hg
    obtain ⟨_, _, rfl⟩ := hg; exact ⟨rfl, rfl⟩
  refine ⟨g, hg, rfl, fun u x => ?_⟩
  obtain ⟨h1, h2⟩ := C69_affine (cond := [0, 1]) (ops := []) be distinct_sum (by simp)
    sum_cond
    hg rfl (by rw [hms.2]; exact transpose_one) u x _ _ (sum_affine u x)
  have h1' : g.expectedValue u x = .ok ![u 0 + u 1] := by
    rw [h1, hms.1]; congr 1; ext i; fin_cases i; simp
  have h2' : g.covariance be u x = .ok ⟨1, !![2]⟩ := by
    rw [h2, hms.2]
    congr 2
    ext i j; fin_cases i; fin_cases j
    simp [Matrix.mul_apply]; norm_num
  have hpd : PD (!![2] : Matrix (Fin 1) (Fin 1) ℝ) := by
    refine ⟨by ext i j; fin_cases i; fin_cases j; rfl, fun v hv => ?_⟩
    have : v 0 ≠ 0 := fun h => hv (by ext i; fin_cases i; exact h)
    have h2 : 0 < v 0 * v 0 := mul_self_pos.2 this
    simp [Matrix.mulVec, dotProduct]
    nlinarith [h2]
  exact ⟨h1', h2', fun y => C70_density_wrong be (by decide) h1' h2' hpd y,
    fun old z => C70_sample_ub be (by decide) h1' h2' .default (.inl rfl) old z⟩

end BFL.Props
