import Verif.Lemmas.Gaussian
import Verif.Props.Cholesky

/-!
# C41 and the sampling half of C42: `Gaussian`
-/

set_option linter.unusedSectionVars false

namespace BFL.Props

open Matrix Spec

variable {n : Nat}

/-- The mean after a history of calls, starting from `m`: the argument of the last call of
`ExpectedValueSet`. -/
def lastMean (m : Fin n → ℝ) : List (Gaussian.Op n) → (Fin n → ℝ)
  | [] => m
  | .setMean m' :: ops => lastMean m' ops
  | _ :: ops => lastMean m ops

/-- The covariance after a history of calls, starting from `s`: the argument of the last call of
`CovarianceSet`. -/
def lastCov (s : Matrix (Fin n) (Fin n) ℝ) : List (Gaussian.Op n) → Matrix (Fin n) (Fin n) ℝ
  | [] => s
  | .setCov s' :: ops => lastCov s' ops
  | _ :: ops => lastCov s ops

theorem run_state (be : Backend) (ops : List (Gaussian.Op n)) {g g' : Gaussian n}
    (hc : g.Coherent be) {m : Fin n → ℝ} {s : Matrix (Fin n) (Fin n) ℝ} (hm : g.mu = some m)
    (hs : g.sigma = some s) (h : Gaussian.run be ops g = .ok g') :
    g'.Coherent be ∧ g'.mu = some (lastMean m ops) ∧ g'.sigma = some (lastCov s ops) := by
  induction ops generalizing g m s with
  | nil => simp only [Gaussian.run, Outcome.ok.injEq] at h; subst h; exact ⟨hc, hm, hs⟩
  | cons op ops ih =>
    simp only [Gaussian.run, Outcome.bind_eq_ok] at h
    obtain ⟨g1, h1, h2⟩ := h
    obtain ⟨hc1, h3⟩ := Gaussian.step_state hc h1
    cases op with
    | setMean m' => exact ih hc1 h3.1 (h3.2.trans hs) h2
    | setCov s' => exact ih hc1 (h3.1.trans hm) h3.2 h2
    | copy => exact ih hc1 (h3.1.trans hm) (h3.2.trans hs) h2
    | query x => exact ih hc1 (h3.1.trans hm) (h3.2.trans hs) h2
    | sample me old z => exact ih hc1 (h3.1.trans hm) (h3.2.trans hs) h2

/-- **C41.** After any history of setters, copies, samples and density queries the answer to a
query (value, failed assert or undefined behaviour) is that of a new object with the mean and
covariance set last. -/
theorem C41_fresh (be : Backend) (m : Fin n → ℝ) (s : Matrix (Fin n) (Fin n) ℝ)
    (ops : List (Gaussian.Op n)) (g : Gaussian n)
    (h : Gaussian.run be ops (Gaussian.make m s) = .ok g) (x : Fin n → ℝ) :
    Prod.fst <$> g.probabilityGet be x =
      Prod.fst <$> (Gaussian.make (lastMean m ops) (lastCov s ops)).probabilityGet be x := by
  obtain ⟨h1, h2, h3⟩ := run_state be ops (g := Gaussian.make m s)
    (fun h => by simp [Gaussian.make] at h) rfl rfl h
  exact Gaussian.probabilityGet_coherent h1 h2 h3 x

/-- **C41.** When all covariances that were set are positive definite, every history runs without
failure, and a query afterwards returns the normal density for the mean and covariance set last. -/
theorem C41_density (be : Backend) (m : Fin n → ℝ) (s : Matrix (Fin n) (Fin n) ℝ) (hs : PD s)
    (ops : List (Gaussian.Op n)) (hops : ∀ s', Gaussian.Op.setCov s' ∈ ops → PD s') :
    ∃ g, Gaussian.run be ops (Gaussian.make m s) = .ok g ∧
      ∀ x, ∃ g', g.probabilityGet be x =
        .ok (normalDensity (lastMean m ops) (lastCov s ops) x, g') := by
  have query : ∀ (g : Gaussian n) (m : Fin n → ℝ) (s : Matrix (Fin n) (Fin n) ℝ),
      g.Coherent be → g.mu = some m → g.sigma = some s → PD s → ∀ x,
      ∃ g', g.probabilityGet be x = .ok (normalDensity m s x, g') := by
    intro g m s hc hm hs hpd x
    have e := Gaussian.probabilityGet_coherent hc hm hs x
    obtain ⟨g0, h0⟩ := Gaussian.probabilityGet_make be hpd m x
    rw [h0] at e
    cases hq : g.probabilityGet be x with
    | ok r =>
      rw [hq] at e
      have e1 : r.1 = normalDensity m s x := Outcome.ok.inj e
      exact ⟨r.2, by rw [← e1]⟩
    | abort => rw [hq] at e; cases e
    | ub => rw [hq] at e; cases e
  have key : ∀ (ops : List (Gaussian.Op n)) (g : Gaussian n) (m : Fin n → ℝ)
      (s : Matrix (Fin n) (Fin n) ℝ), g.Coherent be → g.mu = some m → g.sigma = some s → PD s →
      (∀ s', Gaussian.Op.setCov s' ∈ ops → PD s') →
      ∃ g', Gaussian.run be ops g = .ok g' ∧ PD (lastCov s ops) := by
    intro ops
    induction ops with
    | nil => intro g m s _ _ _ hpd _; exact ⟨g, rfl, hpd⟩
    | cons op ops ih =>
      intro g m s hc hm hs hpd hops
      have hops' : ∀ s', Gaussian.Op.setCov s' ∈ ops → PD s' :=
        fun s' hs' => hops s' (List.mem_cons_of_mem _ hs')
      have hstep : ∃ g1, g.step be op = .ok g1 := by
        cases op with
        | setMean m' => exact ⟨_, rfl⟩
        | setCov s' => exact ⟨_, rfl⟩
        | copy => exact ⟨_, rfl⟩
        | query x =>
          obtain ⟨g1, h1⟩ := query g m s hc hm hs hpd x
          exact ⟨g1, by simp [Gaussian.step, h1]⟩
        | sample me old z =>
          cases me <;> simp [Gaussian.step, Gaussian.sampleOne, hm, hs, readMember]
      obtain ⟨g1, h1⟩ := hstep
      obtain ⟨hc1, h3⟩ := Gaussian.step_state hc h1
      simp only [Gaussian.run, h1, Outcome.ok_bind]
      cases op with
      | setMean m' => exact ih g1 _ _ hc1 h3.1 (h3.2.trans hs) hpd hops'
      | setCov s' =>
        exact ih g1 _ _ hc1 (h3.1.trans hm) h3.2 (hops s' List.mem_cons_self) hops'
      | copy => exact ih g1 _ _ hc1 (h3.1.trans hm) (h3.2.trans hs) hpd hops'
      | query x => exact ih g1 _ _ hc1 (h3.1.trans hm) (h3.2.trans hs) hpd hops'
      | sample me old z => exact ih g1 _ _ hc1 (h3.1.trans hm) (h3.2.trans hs) hpd hops'
  have hc : (Gaussian.make m s).Coherent be := fun h => by simp [Gaussian.make] at h
  obtain ⟨g, hg, hpd⟩ := key ops (Gaussian.make m s) m s hc rfl rfl hs hops
  obtain ⟨h1, h2, h3⟩ := run_state be ops hc rfl rfl hg
  exact ⟨g, hg, query g _ _ h1 h2 h3 hpd⟩

/-- One by one positive definite matrices. -/
theorem one_pd {v : ℝ} (hv : 0 < v) : PD (!![v] : Matrix (Fin 1) (Fin 1) ℝ) := by
  refine ⟨by ext i j; fin_cases i; fin_cases j; rfl, fun x hx => ?_⟩
  have h0 : x 0 ≠ 0 := fun h => hx (by ext i; fin_cases i; exact h)
  have : x ⬝ᵥ (!![v] *ᵥ x) = v * (x 0 * x 0) := by simp [mulVec, dotProduct]; ring
  rw [this]
  exact mul_pos hv (mul_self_pos.mpr h0)

example : ∃ g, Gaussian.run .boost
      [.query ![1], .setCov !![4], .copy, .setMean ![3], .query ![0]]
      (Gaussian.make (n := 1) ![0] !![1]) = .ok g ∧
    ∀ x, ∃ g', g.probabilityGet .boost x = .ok (normalDensity ![3] !![4] x, g') :=
  C41_density .boost ![0] !![1] (one_pd one_pos) _ (by
    intro s' h
    simp only [List.mem_cons, List.not_mem_nil, or_false, reduceCtorEq, false_or,
      Gaussian.Op.setCov.injEq] at h
    subst h; exact one_pd (by norm_num))

/-- **C41, objects without initial value.** An object made with a dimension only behaves, once both
parameters were set, as a new object with the parameters set last; a query before that reads
values that were never assigned. -/
theorem C41_blank (be : Backend) (pre ops : List (Gaussian.Op n)) (g : Gaussian n)
    (h : Gaussian.run be (pre ++ ops) (Gaussian.blank n) = .ok g) :
    ((∀ s, Gaussian.Op.setCov s ∉ pre ++ ops) ∨ (∀ m, Gaussian.Op.setMean m ∉ pre ++ ops) →
      ∀ x p g', g.probabilityGet be x ≠ .ok (p, g')) ∧
    ∀ m s, (pre = [.setMean m, .setCov s] ∨ pre = [.setCov s, .setMean m]) →
      ∀ x, Prod.fst <$> g.probabilityGet be x =
        Prod.fst <$> (Gaussian.make (lastMean m ops) (lastCov s ops)).probabilityGet be x := by
  have hb : (Gaussian.blank n).Coherent be := fun h => by simp [Gaussian.blank] at h
  have key : ∀ (ops : List (Gaussian.Op n)) (g0 g : Gaussian n), g0.Coherent be →
      Gaussian.run be ops g0 = .ok g → g.Coherent be ∧
      (g0.sigma = none → (∀ s, Gaussian.Op.setCov s ∉ ops) → g.sigma = none) ∧
      (g0.mu = none → (∀ m, Gaussian.Op.setMean m ∉ ops) → g.mu = none) := by
    intro ops
    induction ops with
    | nil =>
      intro g0 g hc h
      simp only [Gaussian.run, Outcome.ok.injEq] at h; subst h
      exact ⟨hc, fun h _ => h, fun h _ => h⟩
    | cons op ops ih =>
      intro g0 g hc h
      simp only [Gaussian.run, Outcome.bind_eq_ok] at h
      obtain ⟨g1, h1, h2⟩ := h
      obtain ⟨hc1, h3⟩ := Gaussian.step_state hc h1
      obtain ⟨h4, h5, h6⟩ := ih g1 g hc1 h2
      refine ⟨h4, fun h0 hn => h5 ?_ fun s hs => hn s (List.mem_cons_of_mem _ hs),
        fun h0 hn => h6 ?_ fun m hm => hn m (List.mem_cons_of_mem _ hm)⟩
      · cases op with
        | setCov s => exact absurd List.mem_cons_self (hn s)
        | setMean m => exact h3.2.trans h0
        | copy => exact h3.2.trans h0
        | query x => exact h3.2.trans h0
        | sample me old z => exact h3.2.trans h0
      · cases op with
        | setMean m => exact absurd List.mem_cons_self (hn m)
        | setCov s => exact h3.1.trans h0
        | copy => exact h3.1.trans h0
        | query x => exact h3.1.trans h0
        | sample me old z => exact h3.1.trans h0
  refine ⟨fun hn x p g' hq => ?_, fun m s hpre x => ?_⟩
  · obtain ⟨hc, h1, h2⟩ := key _ _ _ hb h
    simp only [Gaussian.probabilityGet, Gaussian.prepare_coherent hc, Outcome.bind_eq_ok] at hq
    obtain ⟨g1, h3, m, h4, _⟩ := hq
    obtain ⟨h5, h6, _⟩ := Gaussian.refresh_ok h3
    rcases hn with hn | hn
    · have h7 : g.sigma = none := h1 rfl hn
      simp [Gaussian.refresh, h7, readMember] at h3
    · have h7 : g.mu = none := h2 rfl hn
      rw [h5, h7] at h4
      simp [readMember] at h4
  · rcases hpre with rfl | rfl
    · exact C41_fresh be m s ops g h x
    · exact C41_fresh be m s ops g h x

example (g : Gaussian 1)
    (h : Gaussian.run .boost ([.setCov !![1], .setMean ![0]] ++ [.query ![2], .setCov !![4]])
      (Gaussian.blank 1) = .ok g) (x : Fin 1 → ℝ) :
    Prod.fst <$> g.probabilityGet .boost x =
      Prod.fst <$> (Gaussian.make ![0] !![4]).probabilityGet .boost x :=
  (C41_blank .boost _ _ g h).2 ![0] !![1] (Or.inr rfl) x

/-- **C41, invalid covariances.** A covariance with negative determinant is never answered with a
number: the query fails an assert. -/
theorem C41_negative_determinant (be : Backend) (m : Fin n → ℝ) (s : Matrix (Fin n) (Fin n) ℝ)
    (hs : sᵀ = s) (hd : s.det < 0) (x : Fin n → ℝ) :
    (Gaussian.make m s).probabilityGet be x = .abort := by
  simp only [Gaussian.probabilityGet, Gaussian.prepare, Gaussian.make, if_true, Gaussian.refresh,
    readMember, Outcome.ok_bind, be.symInverse_of_det hs hd.ne, be.determinant_of_det s hd.ne,
    Outcome.pure_eq, Gaussian.normaliser, if_pos hd, Gaussian.densityOf]
  by_cases h : 0 ≤ (x - m) ⬝ᵥ (s⁻¹ *ᵥ (x - m))
  · rw [mkProb, if_pos h]; rfl
  · rw [mkProb, if_neg h]; rfl

example : (Gaussian.make ![0] !![-1]).probabilityGet .eigen ![0] = .abort :=
  C41_negative_determinant .eigen ![0] !![-1] (by ext i j; fin_cases i; fin_cases j; rfl)
    (by simp) ![0]

/-- **C42, sampling.** For a covariance whose eigenvalues are not below the machine epsilon, a sample
drawn with the default or the Cholesky method is the mean plus a lower triangular factor of the
covariance times the normal draws, and success is reported. -/
theorem C42_sample (m : Fin n → ℝ) (s : Matrix (Fin n) (Fin n) ℝ)
    (hs : PSD (s - machEps • (1 : Matrix (Fin n) (Fin n) ℝ))) (me : SampleMthd)
    (hme : me = .default ∨ me = .cholesky) :
    ∃ L, LowerTriangular L ∧ L * Lᵀ = s ∧
      ∀ old z, (Gaussian.make m s).sampleOne me old z = .ok (true, m + L *ᵥ z) := by
  obtain ⟨L, hL, h1, _, h2⟩ := C42_definite realSqrt_isSqrt machEps_pos machEps_le hs
  refine ⟨L, h1, h2, fun old z => ?_⟩
  rw [Gaussian.sampleOne_ok rfl rfl hme, hL, add_comm]

/-- **C42, sampling.** Draws with zero mean and unit covariance are turned into samples with the
mean and the covariance of the Gaussian. -/
theorem C42_sample_moments (m : Fin n → ℝ) (s : Matrix (Fin n) (Fin n) ℝ)
    (hs : PSD (s - machEps • (1 : Matrix (Fin n) (Fin n) ℝ))) (me : SampleMthd)
    (hme : me = .default ∨ me = .cholesky) (old zs : List (Fin n → ℝ)) (hz : zs.sum = 0)
    (hzz : (zs.map fun z => vecMulVec z z).sum =
      (zs.length : ℝ) • (1 : Matrix (Fin n) (Fin n) ℝ)) :
    ∃ xs, (Gaussian.make m s).sampleList me old zs = .ok (true, xs) ∧ xs.length = zs.length ∧
      xs.sum = (zs.length : ℝ) • m ∧
      (xs.map fun x => vecMulVec (x - m) (x - m)).sum = (zs.length : ℝ) • s := by
  obtain ⟨L, hL, _, _, h2⟩ := C42_definite realSqrt_isSqrt machEps_pos machEps_le hs
  refine ⟨zs.map fun z => L *ᵥ z + m, by rw [Gaussian.sampleList_ok rfl rfl hme, hL], by simp,
    ?_, ?_⟩
  · have : ∀ l : List (Fin n → ℝ), (l.map fun z => L *ᵥ z + m).sum =
        L *ᵥ l.sum + (l.length : ℝ) • m := by
      intro l
      induction l with
      | nil => simp
      | cons z l ih =>
        simp only [List.map_cons, List.sum_cons, ih, mulVec_add, List.length_cons, Nat.cast_add,
          Nat.cast_one, add_smul, one_smul]
        abel
    rw [this, hz, mulVec_zero, zero_add]
  · rw [List.map_map]
    have e : ((fun x => vecMulVec (x - m) (x - m)) ∘ fun z => L *ᵥ z + m) =
        fun z => L * vecMulVec z z * Lᵀ := by
      funext z
      simp only [Function.comp, add_sub_cancel_right]
      rw [mul_vecMulVec, vecMulVec_mul, vecMul_transpose]
    rw [e]
    have : ∀ l : List (Fin n → ℝ), (l.map fun z => L * vecMulVec z z * Lᵀ).sum =
        L * (l.map fun z => vecMulVec z z).sum * Lᵀ := by
      intro l
      induction l with
      | nil => simp
      | cons z l ih => simp only [List.map_cons, List.sum_cons, ih, Matrix.mul_add, Matrix.add_mul]
    rw [this, hzz, Matrix.mul_smul, Matrix.mul_one, Matrix.smul_mul, h2]

/-- A covariance that is far from singular. -/
theorem four_psd : PSD ((!![4] : Matrix (Fin 1) (Fin 1) ℝ) -
    machEps • (1 : Matrix (Fin 1) (Fin 1) ℝ)) := by
  refine ⟨by ext i j; fin_cases i; fin_cases j; rfl, fun x => ?_⟩
  have : x ⬝ᵥ (((!![4] : Matrix (Fin 1) (Fin 1) ℝ) -
      machEps • (1 : Matrix (Fin 1) (Fin 1) ℝ)) *ᵥ x) = (4 - machEps) * (x 0 * x 0) := by
    simp [mulVec, dotProduct]; ring
  rw [this]
  exact mul_nonneg (by have := machEps_le; linarith) (mul_self_nonneg _)

example : ∃ xs, (Gaussian.make ![3] !![4]).sampleList .default [] [![1], ![-1]] = .ok (true, xs) ∧
    xs.length = 2 ∧ xs.sum = (2 : ℝ) • ![3] ∧
    (xs.map fun x => vecMulVec (x - ![3]) (x - ![3])).sum = (2 : ℝ) • !![4] := by
  have := C42_sample_moments ![3] !![4] four_psd .default (Or.inl rfl) [] [![1], ![-1]]
    (by simp) (by ext i j; fin_cases i; fin_cases j; norm_num [vecMulVec_apply, Matrix.one_apply])
  simpa using this

/-- **C42, sampling.** An indefinite covariance that the factorisation rejects gives samples equal
to the mean, and the call reports failure; the other two methods never write the sample. -/
theorem C42_sample_failure (m : Fin n → ℝ) (s : Matrix (Fin n) (Fin n) ℝ) (hs : sᵀ = s) (j : Fin n)
    (hj : s j j ≤ -machEps) (old z : Fin n → ℝ) :
    (Gaussian.make m s).sampleOne .default old z = .ok (false, m) ∧
    (Gaussian.make m s).sampleOne .cholesky old z = .ok (false, m) ∧
    (Gaussian.make m s).sampleOne .boxmuller old z = .ok (false, old) ∧
    (Gaussian.make m s).sampleOne .ripley old z = .ok (false, old) := by
  have h := C42_negative realSqrt_isSqrt machEps_pos machEps_le hs j hj
  refine ⟨?_, ?_, rfl, rfl⟩
  · rw [Gaussian.sampleOne_ok rfl rfl (Or.inl rfl), h]; simp
  · rw [Gaussian.sampleOne_ok rfl rfl (Or.inr rfl), h]; simp

example : (Gaussian.make ![3] !![-4]).sampleOne .default ![0] ![1] = .ok (false, ![3]) :=
  (C42_sample_failure ![3] !![-4] (by ext i j; fin_cases i; fin_cases j; rfl) 0
    (by have := machEps_le; simp; linarith) ![0] ![1]).1

end BFL.Props
