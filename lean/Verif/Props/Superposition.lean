import Verif.Spec.Superposition
import Verif.Props.PriorMean

set_option linter.unusedSectionVars false

/-!
# C107: superposition in the Kalman filters
-/

namespace BFL.Props

open Matrix Spec

variable {K : Type} [Field K] [LinearOrder K] [IsStrictOrderedRing K] {n : Nat} {U ι : Type}
  [Fintype ι]

/-- A linear relation between the entries of a family. -/
def Related {V : Type} [AddCommMonoid V] [Module K V] (w : ι → K) (x : ι → V) : Prop :=
  ∑ i, w i • x i = 0

theorem Related.mulVec {m k : Nat} {w : ι → K} {x : ι → Fin m → K} (h : Related w x)
    (A : Matrix (Fin k) (Fin m) K) : Related w (fun i => A *ᵥ x i) := by
  unfold Related at *
  simp only [← Matrix.mulVec_smul]
  rw [← Matrix.mulVec_sum, h, mulVec_zero]

theorem Related.add {m : Nat} {w : ι → K} {x y : ι → Fin m → K} (h : Related w x)
    (h' : Related w y) : Related w (fun i => x i + y i) := by
  unfold Related at *
  simp only [smul_add, Finset.sum_add_distrib, h, h', add_zero]

theorem Related.sub {m : Nat} {w : ι → K} {x y : ι → Fin m → K} (h : Related w x)
    (h' : Related w y) : Related w (fun i => x i - y i) := by
  unfold Related at *
  simp only [smul_sub, Finset.sum_sub_distrib, h, h', sub_zero]

/-- The filters agree on the covariance, and their means satisfy the relation. -/
def Jointly (w : ι → K) (P : Matrix (Fin n) (Fin n) K) (f : ι → KF K n) : Prop :=
  PSD P ∧ (∀ i, (f i).sigma = P) ∧ Related w (fun i => (f i).mu)

theorem sysPart_jointly {be : ι → Backend} {w : ι → K}
    {sys : Option (ι → AnalyticModel K n n U × Option U)}
    (hl : ∀ g, sys = some g → ∃ A Q, ∃ b : ι → Fin n → K, PSD Q ∧
      (∀ i, (g i).1.IsLinear (g i).2 A (b i) Q) ∧ Related w b) {P : Matrix (Fin n) (Fin n) K}
    {f : ι → KF K n} (h : Jointly w P f) :
    ∃ P' f', (∀ i, (f i).sysPart (be i) (sys.map fun g => g i) = .ok (f' i)) ∧ Jointly w P' f' := by
  obtain ⟨hP, hs, hd⟩ := h
  rcases sys with _ | g
  · exact ⟨P, f, fun i => rfl, hP, hs, hd⟩
  · obtain ⟨A, Q, b, hQ, hlin, hb⟩ := hl g rfl
    have h1 := (hP.congr A).add hQ
    refine ⟨A * P * Aᵀ + Q, _, fun i => sysUpdate_eq (hlin i _), h1, fun i => ?_, ?_⟩
    · simp only; rw [hs i, (be i).toSym_of_symm h1.1]
    · exact (hd.mulVec A).add hb

theorem measPart_jointly {be : ι → Backend} {kind : ι → KF.Kind K n} (hk : ∀ i, (kind i).Runs)
    {w : ι → K} {m : Nat} {meas : Option (ι → AnalyticModel K n m U × (Fin m → K) × Option U)}
    (hl : ∀ g, meas = some g → ∃ H R, ∃ c : ι → Fin m → K, PD R ∧
      (∀ i, (g i).1.IsLinear (g i).2.2 H (c i) R) ∧ Related w c ∧ Related w (fun i => (g i).2.1))
    {P : Matrix (Fin n) (Fin n) K} {f : ι → KF K n} (h : Jointly w P f) :
    ∃ P' f', (∀ i, (f i).measPart (be i) (kind i) (meas.map fun g => g i) = .ok (f' i))
      ∧ Jointly w P' f' := by
  obtain ⟨hP, hs, hd⟩ := h
  rcases meas with _ | g
  · exact ⟨P, f, fun i => rfl, hP, hs, hd⟩
  · obtain ⟨H, R, c, hR, hlin, hc, hz⟩ := hl g rfl
    refine ⟨kcov P H R, _, fun i => (measUpdate_linear (hk i) (hlin i)).trans
      (calc_valid (by rw [hs]; exact hP) hR), kcov_psd hP hR, fun i => ?_, ?_⟩
    · simp only; rw [hs]
    · simp only [hs]
      exact ((hz.sub ((hd.mulVec H).add hc)).mulVec _).add hd

theorem run_jointly {be : ι → Backend} {kind : ι → KF.Kind K n} (hk : ∀ i, (kind i).Runs)
    {w : ι → K} {as : List (JointStep K n U ι)}
    (hl : ∀ a ∈ as, a.Shared (Related w) (fun _ c z => Related w c ∧ Related w z)) :
    ∀ {P : Matrix (Fin n) (Fin n) K} {f : ι → KF K n}, Jointly w P f →
    ∃ P' f', (∀ i, runAll (be i) (kind i) (as.map fun a => a.call i) (f i) = .ok (f' i))
      ∧ Jointly w P' f' := by
  induction as with
  | nil => intro P f h; exact ⟨P, f, fun i => rfl, h⟩
  | cons a as ih =>
    intro P f h
    have ha := hl a (by simp)
    obtain ⟨P1, f1, e1, h1⟩ := sysPart_jointly (be := be) ha.1 h
    obtain ⟨P2, f2, e2, h2⟩ := measPart_jointly (be := be) hk ha.2 h1
    obtain ⟨P3, f3, e3, h3⟩ := ih (fun a ha => hl a (by simp [ha])) h2
    refine ⟨P3, f3, fun i => ?_, h3⟩
    simp only [List.map_cons, runAll, KF.update, JointStep.call]
    rw [e1]; simp only [Outcome.ok_bind]; rw [e2]; simp only [Outcome.ok_bind, Outcome.pure_eq]
    exact e3 i

theorem related_of_isSum {κ : Type} [Fintype κ] {V : Type} [AddCommGroup V] [Module K V] {w : κ → K}
    {x : Option κ → V} :
    Related (ι := Option κ) (fun o => o.elim (-1 : K) w) x ↔ IsSum w x := by
  unfold Related IsSum
  rw [Fintype.sum_option]
  simp only [Option.elim, neg_smul, one_smul]
  rw [neg_add_eq_zero]

/-- C107. Kalman filters (extended or iterated, any mixture of both and of the two matrix libraries) are
run on linear models with the same matrices in every step. If prior means, inputs and readings of one run
are the weighted sums of those of the other runs, its estimate is the weighted sum of their estimates, and
all runs report the same covariance. -/
theorem C107_superposition {κ : Type} [Fintype κ] (w : κ → K) (be : Option κ → Backend)
    (kind : Option κ → KF.Kind K n) (hk : ∀ i, (kind i).Runs)
    (as : List (JointStep K n U (Option κ))) (hl : ∀ a ∈ as, a.Superposed w)
    (P : Matrix (Fin n) (Fin n) K) (hP : PSD P) (f : Option κ → KF K n) (hs : ∀ i, (f i).sigma = P)
    (hm : IsSum w fun i => (f i).mu) :
    ∃ f' : Option κ → KF K n,
      (∀ i, runAll (be i) (kind i) (as.map fun a => a.call i) (f i) = .ok (f' i)) ∧
      (∀ i, (f' i).sigma = (f' none).sigma) ∧ (f' none).mu = ∑ i, w i • (f' (some i)).mu := by
  obtain ⟨P', f', h1, _, h2, h3⟩ := run_jointly (be := be) hk
    (w := fun o : Option κ => o.elim (-1 : K) w) (as := as) (f := f) (P := P)
    (fun a ha => by
      have := hl a ha
      unfold JointStep.Superposed at this
      unfold JointStep.Shared at *
      simpa only [related_of_isSum] using this)
    ⟨hP, hs, related_of_isSum.2 hm⟩
  exact ⟨f', h1, fun i => by rw [h2, h2], related_of_isSum.1 h3⟩

/-- C107. The covariance can be computed in advance: it depends on the prior covariance and on the
matrices of the models only, not on prior means, inputs, offsets and readings. -/
theorem C107_covariance (be : ι → Backend) (kind : ι → KF.Kind K n) (hk : ∀ i, (kind i).Runs)
    (as : List (JointStep K n U ι)) (hl : ∀ a ∈ as, a.SameMatrices)
    (P : Matrix (Fin n) (Fin n) K) (hP : PSD P) (f : ι → KF K n) (hs : ∀ i, (f i).sigma = P) :
    ∃ f' : ι → KF K n,
      (∀ i, runAll (be i) (kind i) (as.map fun a => a.call i) (f i) = .ok (f' i)) ∧
      ∀ i j, (f' i).sigma = (f' j).sigma := by
  have zero : ∀ {m : Nat} (x : ι → Fin m → K), Related (fun _ => (0 : K)) x := by
    intro m x; simp [Related]
  obtain ⟨P', f', h1, _, h2, _⟩ := run_jointly (be := be) hk (w := fun _ => (0 : K)) (as := as) (f := f)
    (P := P)
    (fun a ha => by
      obtain ⟨h1, h2⟩ := hl a ha
      refine ⟨fun g hg => ?_, fun g hg => ?_⟩
      · obtain ⟨A, Q, b, hQ, hb, _⟩ := h1 g hg
        exact ⟨A, Q, b, hQ, hb, zero _⟩
      · obtain ⟨H, R, c, hR, hc, _⟩ := h2 g hg
        exact ⟨H, R, c, hR, hc, zero _, zero _⟩)
    ⟨hP, hs, zero _⟩
  exact ⟨f', h1, fun i j => by rw [h2, h2]⟩

namespace SumFixture

open KFixture

/-- Weights that do not sum to one. -/
def w : Fin 2 → ℚ := ![2, -3]

/-- The motion of the examples, pushed by `b`. -/
def pushed (b : Fin 2 → ℚ) : AnalyticModel ℚ 2 2 Unit :=
  .noInput (fun x => F *ᵥ x + b) (fun _ => F) (fun _ => Q)

theorem pushed_linear (b : Fin 2 → ℚ) : (pushed b).IsLinear none F b Q := fun _ => ⟨rfl, rfl, rfl⟩

/-- Pushes, readings and prior means of the three runs. -/
def push : Option (Fin 2) → Fin 2 → ℚ
  | some 0 => ![1, 0]
  | some 1 => ![0, 1]
  | none => ![2, -3]

def read : Option (Fin 2) → Fin 1 → ℚ
  | some 0 => ![1]
  | some 1 => ![4]
  | none => ![-10]

def mean : Option (Fin 2) → Fin 2 → ℚ
  | some 0 => ![1, 1]
  | some 1 => ![0, 2]
  | none => ![2, -4]

def step : JointStep ℚ 2 Unit (Option (Fin 2)) :=
  ⟨1, some fun i => (pushed (push i), none), some fun i => (meas, read i, none)⟩

theorem superposed : step.Superposed w := by
  refine ⟨fun g hg => ?_, fun g hg => ?_⟩
  · cases hg
    refine ⟨F, Q, push, Q_psd, fun i => pushed_linear _, ?_⟩
    ext i; fin_cases i <;> simp [push, w, Fin.sum_univ_two]
  · cases hg
    refine ⟨H, R, fun _ => 0, R_pd, fun i => meas_linear, ?_, ?_⟩
    · simp [IsSum]
    · show (![-10] : Fin 1 → ℚ) = _
      rw [Fin.sum_univ_two]
      show (![-10] : Fin 1 → ℚ) = (2 : ℚ) • ![1] + (-3 : ℚ) • ![4]
      decide +kernel

end SumFixture

example : ∃ f' : Option (Fin 2) → KF ℚ 2,
    (∀ i, runAll .boost .extended ([SumFixture.step, SumFixture.step].map fun a => a.call i)
      (KF.make (SumFixture.mean i) KFixture.P) = .ok (f' i)) ∧
    (∀ i, (f' i).sigma = (f' none).sigma) ∧
    (f' none).mu = ∑ i, SumFixture.w i • (f' (some i)).mu :=
  C107_superposition SumFixture.w (fun _ => .boost) (fun _ => .extended) (fun _ => trivial) _
    (by intro a ha; simp at ha; subst ha; exact SumFixture.superposed) KFixture.P KFixture.P_pd.psd
    (fun i => KF.make (SumFixture.mean i) KFixture.P) (fun _ => rfl)
    (by ext i; fin_cases i <;> simp [KF.make, SumFixture.mean, SumFixture.w, Fin.sum_univ_two]; norm_num)

/-- C107, the boundary: with the sensor `x²` the reported variance depends on the prior mean, and doubling
the prior mean and the reading does not double the estimate. -/
theorem C107_nonlinear (be : Backend) :
    ∃ (meas : AnalyticModel ℚ 1 1 Unit) (f g : KF ℚ 1) (z : Fin 1 → ℚ),
      (∀ x, ∃ Z H R, meas.Evaluates none x Z H R ∧ PD R) ∧ PD f.sigma ∧ g.sigma = f.sigma ∧
      g.mu = (2 : ℚ) • f.mu ∧
      ∃ f' g', runAll be .extended [⟨1, none, some (meas, z, none)⟩] f = .ok f' ∧
        runAll be .extended [⟨1, none, some (meas, (2 : ℚ) • z, none)⟩] g = .ok g' ∧
        g'.sigma ≠ f'.sigma ∧ g'.mu ≠ (2 : ℚ) • f'.mu := by
  have step : ∀ (a p z : ℚ), (2 * a) * p * (2 * a) + 1 ≠ 0 →
      (⟨![a], !![p], 0⟩ : KF ℚ 1).update be .extended none (some (UnitsFixture.square, ![z], none))
        = .ok (true, ⟨![p * (2 * a) * ((2 * a) * p * (2 * a) + 1)⁻¹ * (z - a * a) + a],
            !![p - p * (2 * a) * ((2 * a) * p * (2 * a) + 1)⁻¹ * (2 * a) * p], 0⟩) := by
    intro a p z h
    simp only [KF.update, KF.sysPart, KF.measPart, KF.measUpdate, Outcome.ok_bind]
    rw [ekf_eq (UnitsFixture.ev _)]
    simp only [Matrix.cons_val_zero]
    rw [one_calc be h]
    rfl
  have s1 := step 1 1 1 (by norm_num)
  have s2 := step 2 1 2 (by norm_num)
  have e2 : (2 : ℚ) • (![1] : Fin 1 → ℚ) = ![2] := by ext i; fin_cases i; simp
  refine ⟨UnitsFixture.square, ⟨![1], !![1], 0⟩, ⟨![2], !![1], 0⟩, ![1],
    fun x => ⟨_, _, _, UnitsFixture.ev x, UnitsFixture.pd 1 one_pos⟩, UnitsFixture.pd 1 one_pos, rfl,
    e2.symm, ?_⟩
  rw [e2]
  refine ⟨_, _, by simp only [runAll]; rw [s1]; rfl, by simp only [runAll]; rw [s2]; rfl, ?_, ?_⟩
  · intro h
    have := congrFun (congrFun h 0) 0
    norm_num at this
  · intro h
    have := congrFun h 0
    norm_num at this

end BFL.Props
