import Verif.Lemmas.LinearConditional
import Verif.Lemmas.KalmanRun
import Mathlib.Data.Rat.Defs
import Mathlib.Algebra.Order.Ring.Rat
import Mathlib.LinearAlgebra.Matrix.Notation

/-!
# C44: the mean of a linear conditional Gaussian and the prediction of a linear model

`latest (argOf i) ops v` is the value that conditional argument `i` was given last in the history
`ops`, and `v` if the history does not set it; likewise `matrixOf`, `muOf`, `sigmaOf` for the
matrices, the mean and the covariance of the noise, and `modelMatrixOf`, `modelMuOf`,
`modelSigmaOf` for histories of a linear model.
-/

set_option linter.unusedSectionVars false

namespace BFL.Props

open Matrix Spec

variable {K : Type} [Field K] {n : Nat}

/-- **C44.** After any history of calls `ExpectedValueGet` returns the sum of the matrices times the
conditional arguments plus the mean of the noise, all as set last; arguments that were never set are
zero. The covariance is that of the noise. Earlier calls have no other influence. -/
theorem C44_mean (A0 : List (DMat K)) (mu : Fin n → K) (sigma : Matrix (Fin n) (Fin n) K)
    (p0 p : LinCond K n) (ops : List (LinCond.Op K n)) (h0 : LinCond.make A0 mu sigma = .ok p0)
    (h : LinCond.run ops p0 = .ok p) (c : Nat → Nat)
    (A : (i : Nat) → Matrix (Fin n) (Fin (c i)) K) (v : (i : Nat) → Fin (c i) → K)
    (hA : ∀ (i : Nat) M, A0[i]? = some M → latest (matrixOf i) ops M = ⟨n, c i, A i⟩)
    (hv : ∀ (i : Nat) M, A0[i]? = some M → latest (argOf i) ops ⟨M.2.1, 0⟩ = ⟨c i, v i⟩) :
    (∃ p', p.expectedValueGet =
      .ok (∑ i ∈ Finset.range A0.length, A i *ᵥ v i + latest muOf ops mu, p')) ∧
    p.covarianceGet = latest sigmaOf ops sigma := by
  obtain ⟨w0, n0, a0, r0, m0, s0⟩ := LinCond.make_wf h0
  obtain ⟨w, hn, ha, hr, hm, hs⟩ := LinCond.run_state ops w0 h
  have hlen : p.numArgs = A0.length := hn.trans n0
  have hget : ∀ i < p.numArgs, ∃ M, A0[i]? = some M := fun i hi =>
    ⟨_, List.getElem?_eq_getElem (by rw [← hlen]; exact hi)⟩
  obtain ⟨p', hp, _⟩ := LinCond.expectedValueGet_ok c A v p
    (fun i hi => by
      obtain ⟨M, hM⟩ := hget i hi
      rw [hr i M (by rw [r0]; exact hM), hA i M hM])
    (fun i hi => by
      obtain ⟨M, hM⟩ := hget i hi
      rw [ha i _ (by rw [a0, List.getElem?_map, hM]; rfl), LinCond.zeroFor, hv i M hM])
  refine ⟨⟨p', ?_⟩, ?_⟩
  · rw [hp, hlen, hm, m0]
  · rw [LinCond.covarianceGet, hs, s0]

/-- The constructor accepts every list of matrices. -/
theorem C44_make (A0 : List (DMat K)) (mu : Fin n → K) (sigma : Matrix (Fin n) (Fin n) K) :
    ∃ p, LinCond.make A0 mu sigma = .ok p := ⟨_, LinCond.make_eq A0 mu sigma⟩

/-- The precondition of `ExpectedValueGet`: it is undefined as soon as one of the matrices set last
does not have `n` rows, or not as many columns as its argument set last has rows. -/
theorem C44_sizes (A0 : List (DMat K)) (mu : Fin n → K) (sigma : Matrix (Fin n) (Fin n) K)
    (p0 p : LinCond K n) (ops : List (LinCond.Op K n)) (h0 : LinCond.make A0 mu sigma = .ok p0)
    (h : LinCond.run ops p0 = .ok p) (i : Nat) (M : DMat K) (hi : A0[i]? = some M)
    (hbad : (latest (matrixOf i) ops M).1 ≠ n ∨
      (latest (matrixOf i) ops M).2.1 ≠ (latest (argOf i) ops ⟨M.2.1, 0⟩).1) :
    p.expectedValueGet = .ub := by
  obtain ⟨w0, n0, a0, r0, m0, s0⟩ := LinCond.make_wf h0
  obtain ⟨w, hn, ha, hr, hm, hs⟩ := LinCond.run_state ops w0 h
  refine LinCond.expectedValueGet_ub p w fun hf => ?_
  have h1 := hf i _ _ (hr i M (by rw [r0]; exact hi))
    (ha i ⟨M.2.1, 0⟩ (by rw [a0, List.getElem?_map, hi]; rfl))
  rcases hbad with hb | hb
  · exact hb h1.1
  · exact hb h1.2

/-- After the number of arguments has been increased, the mean is undefined until the new matrices
are set. -/
theorem C44_more_arguments (p : LinCond K (n + 1)) (hw : p.args.length = p.numArgs)
    (hw' : p.ratio.length = p.numArgs) (k : Nat) (hk : p.numArgs < k) :
    (p.numArgsSet k).expectedValueGet = .ub := by
  refine LinCond.expectedValueGet_ub _ ⟨?_, ?_⟩ fun hf => ?_
  · simp [LinCond.numArgsSet]; omega
  · simp [LinCond.numArgsSet]; omega
  · have hr : (p.numArgsSet k).ratio[p.numArgs]? = some ⟨0, 0, 0⟩ := by
      simp only [LinCond.numArgsSet]
      rw [List.getElem?_take_of_lt hk, List.getElem?_append_right (by omega), hw',
        List.getElem?_replicate]
      simp; omega
    have ha : (p.numArgsSet k).args[p.numArgs]? = some ⟨0, 0⟩ := by
      simp only [LinCond.numArgsSet]
      rw [List.getElem?_take_of_lt hk, List.getElem?_append_right (by omega), hw,
        List.getElem?_replicate]
      simp; omega
    have := (hf _ _ _ hr ha).1
    simp at this

/-- Two matrices, `A` with two columns and `B` with one, for a two-dimensional result. -/
def exA : Matrix (Fin 2) (Fin 2) ℚ := !![1, 2; 0, 1]

@[inherit_doc exA]
def exB : Matrix (Fin 2) (Fin 1) ℚ := !![3; 1]

/-- A history that sets the second argument twice, asks for the mean in between and replaces the
first matrix and the noise mean. -/
def exOps : List (LinCond.Op ℚ 2) :=
  [.setArg 1 ⟨1, ![7]⟩, .setArg 0 ⟨2, ![1, 1]⟩, .mean, .setMu ![10, 20], .setArg 1 ⟨1, ![-2]⟩,
    .setMatrix 0 ⟨2, 2, exA⟩, .getMatrix 1, .mean]

example : (do
    let p0 ← LinCond.make [⟨2, 2, 1⟩, ⟨2, 1, exB⟩] ![0, 0] 1
    let p ← LinCond.run exOps p0
    let (r, _) ← p.expectedValueGet
    return List.ofFn r) = .ok [7, 19] := by decide +kernel

/-- The hypotheses of `C44_mean` for that history. -/
example (p0 p : LinCond ℚ 2) (h0 : LinCond.make [⟨2, 2, 1⟩, ⟨2, 1, exB⟩] ![0, 0] 1 = .ok p0)
    (h : LinCond.run exOps p0 = .ok p) :
    ∃ p', p.expectedValueGet = .ok (exA *ᵥ ![1, 1] + exB *ᵥ ![-2] + ![10, 20], p') := by
  have h1 := (C44_mean _ _ _ p0 p exOps h0 h (fun | 0 => 2 | _ + 1 => 1)
    (fun | 0 => exA | _ + 1 => exB) (fun | 0 => ![1, 1] | _ + 1 => ![-2])
    (by
      rintro (_ | _ | i) M hM
      · rfl
      · cases hM; rfl
      · cases hM)
    (by
      rintro (_ | _ | i) M hM
      · rfl
      · rfl
      · cases hM)).1
  obtain ⟨p', hp⟩ := h1
  refine ⟨p', ?_⟩
  rw [hp]
  simp only [List.length_cons, List.length_nil, Finset.sum_range_succ, Finset.sum_range_zero,
    zero_add]
  rfl

/-! ### Linear models -/

/-- The linear model after a history of calls has matrices `A` (for the state) and `B` (for the
input), noise mean `mu` and noise covariance `sigma`. -/
structure LinearWithInput (m : LinModel K n) {a b : Nat} (A : Matrix (Fin n) (Fin a) K)
    (B : Matrix (Fin n) (Fin b) K) (mu : Fin n → K) (sigma : Matrix (Fin n) (Fin n) K) : Prop where
  history : ∃ (A0 B0 : DMat K) (mu0 : Fin n → K) (sigma0 : Matrix (Fin n) (Fin n) K)
    (p : LinCond K n) (m0 : LinModel K n) (ops : List (LinModel.Op K n)),
    LinCond.make [A0, B0] mu0 sigma0 = .ok p ∧ LinModel.make p = .ok m0 ∧
    LinModel.run ops m0 = .ok m ∧
    latest (modelMatrixOf 0) ops A0 = ⟨n, a, A⟩ ∧ latest (modelMatrixOf 1) ops B0 = ⟨n, b, B⟩ ∧
    latest modelMuOf ops mu0 = mu ∧ latest modelSigmaOf ops sigma0 = sigma

@[inherit_doc LinearWithInput]
structure LinearNoInput (m : LinModel K n) {a : Nat} (A : Matrix (Fin n) (Fin a) K)
    (mu : Fin n → K) (sigma : Matrix (Fin n) (Fin n) K) : Prop where
  history : ∃ (A0 : DMat K) (mu0 : Fin n → K) (sigma0 : Matrix (Fin n) (Fin n) K)
    (p : LinCond K n) (m0 : LinModel K n) (ops : List (LinModel.Op K n)),
    LinCond.make [A0] mu0 sigma0 = .ok p ∧ LinModel.make p = .ok m0 ∧
    LinModel.run ops m0 = .ok m ∧
    latest (modelMatrixOf 0) ops A0 = ⟨n, a, A⟩ ∧
    latest modelMuOf ops mu0 = mu ∧ latest modelSigmaOf ops sigma0 = sigma

section state

variable {m : LinModel K n} {a b : Nat} {A : Matrix (Fin n) (Fin a) K} {B : Matrix (Fin n) (Fin b) K}
  {mu : Fin n → K} {sigma : Matrix (Fin n) (Fin n) K}

theorem LinearWithInput.state (h : LinearWithInput m A B mu sigma) :
    m.pdf.WF ∧ m.pdf.numArgs = 2 ∧ m.without = false ∧ m.pdf.ratio[0]? = some ⟨n, a, A⟩ ∧
    m.pdf.ratio[1]? = some ⟨n, b, B⟩ ∧ m.pdf.mu = mu ∧ m.pdf.sigma = sigma := by
  obtain ⟨A0, B0, mu0, sigma0, p, m0, ops, hp, hm, hr, hA, hB, hmu, hsig⟩ := h.history
  obtain ⟨w0, n0, a0, r0, m0', s0⟩ := LinCond.make_wf hp
  have hn : p.numArgs = 2 := n0
  rw [LinModel.make, if_neg (by omega), if_pos hn] at hm
  cases hm
  obtain ⟨w, hn', hw, hra, hmu', hs'⟩ := LinModel.run_state ops w0 hr
  refine ⟨w, hn'.trans hn, hw, ?_, ?_, ?_, ?_⟩
  · rw [hra 0 A0 (by rw [r0]; rfl), hA]
  · rw [hra 1 B0 (by rw [r0]; rfl), hB]
  · rw [hmu', ← hmu, m0']
  · rw [hs', ← hsig, s0]

theorem LinearNoInput.state (h : LinearNoInput m A mu sigma) :
    m.pdf.WF ∧ m.pdf.numArgs = 1 ∧ m.without = true ∧ m.pdf.ratio[0]? = some ⟨n, a, A⟩ ∧
    m.pdf.mu = mu ∧ m.pdf.sigma = sigma := by
  obtain ⟨A0, mu0, sigma0, p, m0, ops, hp, hm, hr, hA, hmu, hsig⟩ := h.history
  obtain ⟨w0, n0, a0, r0, m0', s0⟩ := LinCond.make_wf hp
  have hn : p.numArgs = 1 := n0
  rw [LinModel.make, if_pos hn] at hm
  cases hm
  obtain ⟨w, hn', hw, hra, hmu', hs'⟩ := LinModel.run_state ops w0 hr
  refine ⟨w, hn'.trans hn, hw, ?_, ?_, ?_⟩
  · rw [hra 0 A0 (by rw [r0]; rfl), hA]
  · rw [hmu', ← hmu, m0']
  · rw [hs', ← hsig, s0]

/-- The mean with two arguments. -/
theorem mean_two {p : LinCond K n} (hn : p.numArgs = 2) (hA : p.ratio[0]? = some ⟨n, a, A⟩)
    (hB : p.ratio[1]? = some ⟨n, b, B⟩) {x : Fin a → K} {u : Fin b → K}
    (hx : p.args[0]? = some ⟨a, x⟩) (hu : p.args[1]? = some ⟨b, u⟩) :
    ∃ p', p.expectedValueGet = .ok (A *ᵥ x + B *ᵥ u + p.mu, p') ∧ LinCond.Same p p' := by
  obtain ⟨p', h, hs⟩ := LinCond.expectedValueGet_ok (fun | 0 => a | _ + 1 => b)
    (fun | 0 => A | _ + 1 => B) (fun | 0 => x | _ + 1 => u) p
    (by rintro (_ | _ | i) hi; exacts [hA, hB, by omega])
    (by rintro (_ | _ | i) hi; exacts [hx, hu, by omega])
  refine ⟨p', ?_, hs⟩
  rw [h, hn, Finset.sum_range_succ, Finset.sum_range_one]

/-- The mean with one argument. -/
theorem mean_one {p : LinCond K n} (hn : p.numArgs = 1) (hA : p.ratio[0]? = some ⟨n, a, A⟩)
    {x : Fin a → K} (hx : p.args[0]? = some ⟨a, x⟩) :
    ∃ p', p.expectedValueGet = .ok (A *ᵥ x + p.mu, p') ∧ LinCond.Same p p' := by
  obtain ⟨p', h, hs⟩ := LinCond.expectedValueGet_ok (fun _ => a) (fun _ => A) (fun _ => x) p
    (by rintro (_ | i) hi; exacts [hA, by omega])
    (by rintro (_ | i) hi; exacts [hx, by omega])
  refine ⟨p', ?_, hs⟩
  rw [h, hn, Finset.sum_range_one]

/-- What the queries leave behind in the pdf. -/
theorem condition_two (h : LinearWithInput m A B mu sigma) (u x : DVec K) :
    ∃ p, m.condition u x = .ok p ∧ m.conditionBoth x u = .ok p ∧ p.WF ∧ p.numArgs = 2 ∧
      p.ratio[0]? = some ⟨n, a, A⟩ ∧ p.ratio[1]? = some ⟨n, b, B⟩ ∧ p.args[0]? = some x ∧
      p.args[1]? = some u ∧ p.mu = mu ∧ p.sigma = sigma := by
  obtain ⟨w, hn, hwo, hA, hB, hmu, hs⟩ := h.state
  have hw1 : LinCond.WF { m.pdf with args := m.pdf.args.set 0 x } := ⟨by simpa using w.1, w.2⟩
  have e : m.condition u x =
      .ok { m.pdf with args := (m.pdf.args.set 0 x).set 1 u } := by
    simp only [LinModel.condition, LinCond.argSet_ok w (by omega : 0 < m.pdf.numArgs),
      Outcome.ok_bind]
    rw [if_pos hn, LinCond.argSet_ok hw1 (by simp [hn])]
  have e' : m.conditionBoth x u =
      .ok { m.pdf with args := (m.pdf.args.set 0 x).set 1 u } := by
    simp only [LinModel.conditionBoth, cassert_true hwo,
      LinCond.argSet_ok w (by omega : 0 < m.pdf.numArgs), Outcome.ok_bind]
    rw [LinCond.argSet_ok hw1 (by simp [hn])]
  have hl : m.pdf.args.length = 2 := w.1.trans hn
  refine ⟨_, e, e', ⟨by simpa using w.1, w.2⟩, hn, hA, hB, ?_, ?_, hmu, hs⟩
  · simp [hl]
  · simp [hl]

theorem condition_one (h : LinearNoInput m A mu sigma) (u x : DVec K) :
    ∃ p, m.condition u x = .ok p ∧ m.conditionState x = .ok p ∧ p.WF ∧ p.numArgs = 1 ∧
      p.ratio[0]? = some ⟨n, a, A⟩ ∧ p.args[0]? = some x ∧ p.mu = mu ∧ p.sigma = sigma := by
  obtain ⟨w, hn, hwo, hA, hmu, hs⟩ := h.state
  have e : m.condition u x = .ok { m.pdf with args := m.pdf.args.set 0 x } := by
    simp only [LinModel.condition, LinCond.argSet_ok w (by omega : 0 < m.pdf.numArgs),
      Outcome.ok_bind]
    rw [if_neg (by simp [hn])]
  have e' : m.conditionState x = .ok { m.pdf with args := m.pdf.args.set 0 x } := by
    simp only [LinModel.conditionState, cassert_true hwo,
      LinCond.argSet_ok w (by omega : 0 < m.pdf.numArgs), Outcome.ok_bind]
  have hl : m.pdf.args.length = 1 := w.1.trans hn
  refine ⟨_, e, e', ⟨by simpa using w.1, w.2⟩, hn, hA, ?_, hmu, hs⟩
  simp [hl]

end state

/-- **C44.** The prediction of a linear model with input is `A x + B u + mu` with the matrices and
the noise mean set last, whatever happened before; the Jacobian is `A`, the covariance that of the
noise, and the getters return the matrices. -/
theorem C44_prediction (m : LinModel K n) {a b : Nat} (A : Matrix (Fin n) (Fin a) K)
    (B : Matrix (Fin n) (Fin b) K) (mu : Fin n → K) (sigma : Matrix (Fin n) (Fin n) K)
    (h : LinearWithInput m A B mu sigma) (u : Fin b → K) (x : Fin a → K) :
    (∃ m', m.predictionGet ⟨b, u⟩ ⟨a, x⟩ = .ok (A *ᵥ x + B *ᵥ u + mu, m')) ∧
    (∃ m', m.dfGet ⟨b, u⟩ ⟨a, x⟩ = .ok (⟨n, a, A⟩, m')) ∧
    (∃ m', m.covGet ⟨b, u⟩ ⟨a, x⟩ = .ok (sigma, m')) ∧
    m.aGet = .ok ⟨n, a, A⟩ ∧ m.bGet = .ok ⟨n, b, B⟩ := by
  obtain ⟨p, e, -, w, hn, hA, hB, hx, hu, hmu, hs⟩ := condition_two h ⟨b, u⟩ ⟨a, x⟩
  obtain ⟨p', hp, -⟩ := mean_two hn hA hB hx hu
  obtain ⟨w', hn', -, hA', hB', -, -⟩ := h.state
  refine ⟨⟨{ m with pdf := p' }, ?_⟩, ⟨{ m with pdf := p }, ?_⟩, ⟨{ m with pdf := p }, ?_⟩, ?_, ?_⟩
  · simp only [LinModel.predictionGet, e, Outcome.ok_bind, hp, Outcome.pure_eq, hmu]
  · have : p.matrixGet 0 = .ok ⟨n, a, A⟩ := by
      simp only [LinCond.matrixGet, cassert_true (by omega : 0 < p.numArgs), Outcome.ok_bind]
      exact vget_eq_ok.mpr hA
    simp only [LinModel.dfGet, e, Outcome.ok_bind, this, Outcome.pure_eq]
  · simp only [LinModel.covGet, e, Outcome.ok_bind, Outcome.pure_eq, LinCond.covarianceGet, hs]
  · simp only [LinModel.aGet, LinCond.matrixGet, cassert_true (by omega : 0 < m.pdf.numArgs),
      Outcome.ok_bind]
    exact vget_eq_ok.mpr hA'
  · simp only [LinModel.bGet, LinCond.matrixGet, cassert_true (by omega : 1 < m.pdf.numArgs),
      Outcome.ok_bind]
    exact vget_eq_ok.mpr hB'

/-- **C44.** The same for a model without input, whatever is passed as input; there is no matrix
for the input. -/
theorem C44_prediction_no_input (m : LinModel K n) {a : Nat} (A : Matrix (Fin n) (Fin a) K)
    (mu : Fin n → K) (sigma : Matrix (Fin n) (Fin n) K)
    (h : LinearNoInput m A mu sigma) (u : DVec K) (x : Fin a → K) :
    (∃ m', m.predictionGet u ⟨a, x⟩ = .ok (A *ᵥ x + mu, m')) ∧
    (∃ m', m.dfGet u ⟨a, x⟩ = .ok (⟨n, a, A⟩, m')) ∧
    (∃ m', m.covGet u ⟨a, x⟩ = .ok (sigma, m')) ∧
    m.aGet = .ok ⟨n, a, A⟩ ∧ m.bGet = .abort ∧ ∀ M, m.bSet M = .abort := by
  obtain ⟨p, e, -, w, hn, hA, hx, hmu, hs⟩ := condition_one h u ⟨a, x⟩
  obtain ⟨p', hp, -⟩ := mean_one hn hA hx
  obtain ⟨w', hn', -, hA', -, -⟩ := h.state
  refine ⟨⟨{ m with pdf := p' }, ?_⟩, ⟨{ m with pdf := p }, ?_⟩, ⟨{ m with pdf := p }, ?_⟩, ?_, ?_,
    fun M => ?_⟩
  · simp only [LinModel.predictionGet, e, Outcome.ok_bind, hp, Outcome.pure_eq, hmu]
  · have : p.matrixGet 0 = .ok ⟨n, a, A⟩ := by
      simp only [LinCond.matrixGet, cassert_true (by omega : 0 < p.numArgs), Outcome.ok_bind]
      exact vget_eq_ok.mpr hA
    simp only [LinModel.dfGet, e, Outcome.ok_bind, this, Outcome.pure_eq]
  · simp only [LinModel.covGet, e, Outcome.ok_bind, Outcome.pure_eq, LinCond.covarianceGet, hs]
  · simp only [LinModel.aGet, LinCond.matrixGet, cassert_true (by omega : 0 < m.pdf.numArgs),
      Outcome.ok_bind]
    exact vget_eq_ok.mpr hA'
  · simp only [LinModel.bGet, LinCond.matrixGet, cassert_false (by omega : ¬ 1 < m.pdf.numArgs)]
    rfl
  · simp only [LinModel.bSet, LinCond.matrixSet, cassert_false (by omega : ¬ 1 < m.pdf.numArgs)]
    rfl

/-- An input of the wrong size, for instance the empty vector that the update functions without input
pass on, makes the prediction undefined. -/
theorem C44_input_size (m : LinModel K n) {a b : Nat} (A : Matrix (Fin n) (Fin a) K)
    (B : Matrix (Fin n) (Fin b) K) (mu : Fin n → K) (sigma : Matrix (Fin n) (Fin n) K)
    (h : LinearWithInput m A B mu sigma) (u x : DVec K) (hu : u.1 ≠ b ∨ x.1 ≠ a) :
    m.predictionGet u x = .ub := by
  obtain ⟨p, e, -, w, hn, hA, hB, hx, hu', hmu, hs⟩ := condition_two h u x
  have : p.expectedValueGet = .ub := by
    refine LinCond.expectedValueGet_ub p w fun hf => ?_
    rcases hu with hu | hu
    · exact hu (hf 1 _ _ hB hu').2.symm
    · exact hu (hf 0 _ _ hA hx).2.symm
  simp only [LinModel.predictionGet, e, Outcome.ok_bind, this]
  rfl

/-- A history of a model with input: the input matrix and the noise are replaced, and predictions
with other states and inputs are made in between. -/
def exModelOps : List (LinModel.Op ℚ 2) :=
  [.predict ⟨1, ![5]⟩ ⟨2, ![1, 2]⟩, .setB ⟨2, 1, exB⟩, .pdf (.setMu ![10, 20]),
    .cov ⟨1, ![4]⟩ ⟨2, ![0, 0]⟩, .pdf (.setSigma !![2, 1; 1, 2])]

example : ∃ m, LinearWithInput m exA exB ![10, 20] !![2, 1; 1, 2] := by
  refine ⟨_, ⟨⟨2, 2, exA⟩, ⟨2, 1, 0⟩, ![0, 0], 1, _, _, exModelOps, rfl, rfl, rfl, rfl, rfl, rfl, rfl⟩⟩

example : ∃ m : LinModel ℚ 2, LinearNoInput m exA ![0, 0] 1 :=
  ⟨_, ⟨⟨2, 2, exA⟩, ![0, 0], 1, _, _, [], rfl, rfl, rfl, rfl, rfl, rfl⟩⟩

section kalman

variable [LinearOrder K]

/-- **C44.** A linear system or measurement model is linear in the sense the theorems about the
Kalman filters (C29-C39, C55) assume: there is an analytic model that answers the three queries of
the filters the same way and is `x ↦ A x + (B u + mu)` with covariance `sigma`. -/
theorem C44_kalman (m : LinModel K n) {a b : Nat} (A : Matrix (Fin n) (Fin a) K)
    (B : Matrix (Fin n) (Fin b) K) (mu : Fin n → K) (sigma : Matrix (Fin n) (Fin n) K)
    (h : LinearWithInput m A B mu sigma) :
    ∃ mo : AnalyticModel K a n (Fin b → K),
      (∀ u, mo.IsLinear (some u) A (B *ᵥ u + mu) sigma) ∧
      (∀ u x, mo.predictionGet (some u) x = Prod.fst <$> m.predictionGet ⟨b, u⟩ ⟨a, x⟩ ∧
        (fun M : Matrix (Fin n) (Fin a) K => (⟨n, a, M⟩ : DMat K)) <$> mo.dfGet (some u) x =
          Prod.fst <$> m.dfGet ⟨b, u⟩ ⟨a, x⟩ ∧
        mo.covGet (some u) x = Prod.fst <$> m.covGet ⟨b, u⟩ ⟨a, x⟩) ∧
      (b ≠ 0 → ∀ x, mo.predictionGet none x = Prod.fst <$> m.predictionGet ⟨0, 0⟩ ⟨a, x⟩) := by
  refine ⟨.withInput (fun u x => A *ᵥ x + (B *ᵥ u + mu)) (fun _ _ => A) (fun _ _ => sigma),
    fun u x => ⟨rfl, rfl, rfl⟩, fun u x => ?_, fun hb x => ?_⟩
  · obtain ⟨⟨m1, h1⟩, ⟨m2, h2⟩, ⟨m3, h3⟩, -, -⟩ := C44_prediction m A B mu sigma h u x
    rw [h1, h2, h3, add_assoc]
    exact ⟨rfl, rfl, rfl⟩
  · rw [C44_input_size m A B mu sigma h ⟨0, 0⟩ ⟨a, x⟩ (Or.inl fun h => hb h.symm)]
    rfl

@[inherit_doc C44_kalman]
theorem C44_kalman_no_input (m : LinModel K n) {a : Nat} (A : Matrix (Fin n) (Fin a) K)
    (mu : Fin n → K) (sigma : Matrix (Fin n) (Fin n) K) (h : LinearNoInput m A mu sigma) (U : Type) :
    ∃ mo : AnalyticModel K a n U,
      (∀ u, mo.IsLinear u A mu sigma) ∧
      ∀ (u : Option U) (v : DVec K) x,
        mo.predictionGet u x = Prod.fst <$> m.predictionGet v ⟨a, x⟩ ∧
        (fun M : Matrix (Fin n) (Fin a) K => (⟨n, a, M⟩ : DMat K)) <$> mo.dfGet u x =
          Prod.fst <$> m.dfGet v ⟨a, x⟩ ∧
        mo.covGet u x = Prod.fst <$> m.covGet v ⟨a, x⟩ := by
  refine ⟨.noInput (fun x => A *ᵥ x + mu) (fun _ => A) (fun _ => sigma),
    fun u x => ⟨rfl, rfl, rfl⟩, fun u v x => ?_⟩
  obtain ⟨⟨m1, h1⟩, ⟨m2, h2⟩, ⟨m3, h3⟩, -, -⟩ := C44_prediction_no_input m A mu sigma h v x
  rw [h1, h2, h3]
  exact ⟨rfl, rfl, rfl⟩

end kalman

end BFL.Props
