import Verif.Model.Gaussian
import Verif.Lemmas.CholeskyMain
import Verif.Spec.GaussianDensity
import Mathlib.Analysis.Matrix.PosDef

set_option linter.unusedSectionVars false

namespace BFL

open Matrix Spec

section wrapper

variable {K : Type} [Field K] [LinearOrder K] [IsStrictOrderedRing K] {n : Nat}

theorem Backend.symInverse_of_det (be : Backend) {a : Matrix (Fin n) (Fin n) K} (hs : aᵀ = a)
    (h : a.det ≠ 0) : be.symInverse a = .ok a⁻¹ := by
  have hi : (a⁻¹)ᵀ = a⁻¹ := by rw [transpose_nonsing_inv, hs]
  rw [Backend.symInverse, be.inverse_of_det a h]
  cases be
  · simp [Backend.toSym_of_symm _ hi]
  · simp

theorem Backend.symInverse_ok {be : Backend} {a b : Matrix (Fin n) (Fin n) K}
    (h : be.symInverse a = .ok b) : a.det ≠ 0 := by
  rw [Backend.symInverse, Outcome.bind_eq_ok] at h
  obtain ⟨c, hc, _⟩ := h
  exact (Backend.inverse_eq_ok.mp hc).1

theorem Backend.determinant_of_det (be : Backend) (a : Matrix (Fin n) (Fin n) K) (h : a.det ≠ 0) :
    be.determinant a = .ok a.det := by
  match n, a, h with
  | 0, a, h => cases be <;> simp [Backend.determinant]
  | 1, a, h => simp [Backend.determinant]
  | 2, a, h => simp [Backend.determinant, det_fin_two]; ring
  | k + 3, a, h => cases be <;> simp [Backend.determinant, h]

end wrapper

theorem pd_posDef' {n : Nat} {S : Matrix (Fin n) (Fin n) ℝ} (h : PD S) : S.PosDef := by
  refine Matrix.PosDef.of_dotProduct_mulVec_pos ?_ fun x hx => ?_
  · rw [Matrix.IsHermitian, conjTranspose_eq_transpose_of_trivial]; exact h.1
  · simpa using h.2 x hx

theorem pd_det_pos {n : Nat} {S : Matrix (Fin n) (Fin n) ℝ} (h : PD S) : 0 < S.det :=
  (pd_posDef' h).det_pos

namespace Gaussian

variable {n : Nat}

/-- The cache, when it is said to be valid, is what a recomputation would give. -/
def Coherent (be : Backend) (g : Gaussian n) : Prop := g.changed = false → g.refresh be = .ok g

theorem refresh_ok {be : Backend} {g g' : Gaussian n} (h : g.refresh be = .ok g') :
    g'.mu = g.mu ∧ g'.sigma = g.sigma ∧ g'.changed = false ∧ g'.refresh be = .ok g' := by
  simp only [refresh, Outcome.bind_eq_ok, Outcome.pure_eq, Outcome.ok.injEq] at h
  obtain ⟨s, hs, i, hi, d, hd, rfl⟩ := h
  refine ⟨rfl, rfl, rfl, ?_⟩
  simp [refresh, hs, hi, hd]

theorem refresh_congr (be : Backend) {g₁ g₂ : Gaussian n} (hs : g₁.sigma = g₂.sigma)
    {g' : Gaussian n} (h : g₁.refresh be = .ok g') :
    g₂.refresh be = .ok { g₂ with changed := false, inv := g'.inv, sqrtPow := g'.sqrtPow } := by
  simp only [refresh, Outcome.bind_eq_ok, Outcome.pure_eq, Outcome.ok.injEq] at h
  obtain ⟨s, hs', i, hi, d, hd, rfl⟩ := h
  simp [refresh, ← hs, hs', hi, hd]

theorem prepare_coherent {be : Backend} {g : Gaussian n} (h : g.Coherent be) :
    g.prepare be = g.refresh be := by
  rw [prepare]
  split
  · rfl
  · next hc => rw [h (by simpa using hc)]

theorem probabilityGet_state {be : Backend} {g g' : Gaussian n} {x : Fin n → ℝ} {p : ℝ}
    (hc : g.Coherent be) (h : g.probabilityGet be x = .ok (p, g')) :
    g'.mu = g.mu ∧ g'.sigma = g.sigma ∧ g'.Coherent be := by
  simp only [probabilityGet, Outcome.bind_eq_ok, Outcome.pure_eq, Outcome.ok.injEq,
    Prod.mk.injEq] at h
  obtain ⟨g1, h1, m, _, _, _, _, _, _, rfl⟩ := h
  rw [prepare_coherent hc] at h1
  obtain ⟨h2, h3, _, h5⟩ := refresh_ok h1
  exact ⟨h2, h3, fun _ => h5⟩

theorem step_state {be : Backend} {g g' : Gaussian n} {op : Op n} (hc : g.Coherent be)
    (h : g.step be op = .ok g') :
    g'.Coherent be ∧ (match op with
      | .setMean m => g'.mu = some m ∧ g'.sigma = g.sigma
      | .setCov s => g'.mu = g.mu ∧ g'.sigma = some s
      | _ => g'.mu = g.mu ∧ g'.sigma = g.sigma) := by
  cases op with
  | setMean m =>
    simp only [step, Outcome.ok.injEq] at h; subst h
    refine ⟨fun hch => ?_, rfl, rfl⟩
    have h1 := hc hch
    have h2 := refresh_congr be (g₁ := g) (g₂ := g.expectedValueSet m) rfl h1
    rw [h2]
    simp only [expectedValueSet] at hch ⊢
    simp [hch]
  | setCov s =>
    simp only [step, Outcome.ok.injEq] at h; subst h
    exact ⟨fun hch => by simp [covarianceSet] at hch, rfl, rfl⟩
  | copy => simp only [step, Outcome.ok.injEq] at h; subst h; exact ⟨hc, rfl, rfl⟩
  | query x =>
    simp only [step, Outcome.bind_eq_ok, Outcome.pure_eq, Outcome.ok.injEq, Prod.exists] at h
    obtain ⟨p, g1, h1, rfl⟩ := h
    obtain ⟨h2, h3, h4⟩ := probabilityGet_state hc h1
    exact ⟨h4, h2, h3⟩
  | sample me old z =>
    simp only [step, Outcome.bind_eq_ok, Outcome.pure_eq, Outcome.ok.injEq, Prod.exists] at h
    obtain ⟨_, _, _, rfl⟩ := h
    exact ⟨hc, rfl, rfl⟩

/-- The value returned by a query depends on the mean and the covariance only. -/
theorem probabilityGet_coherent {be : Backend} {g : Gaussian n} (hc : g.Coherent be)
    {m : Fin n → ℝ} {s : Matrix (Fin n) (Fin n) ℝ} (hm : g.mu = some m) (hs : g.sigma = some s)
    (x : Fin n → ℝ) :
    Prod.fst <$> g.probabilityGet be x = Prod.fst <$> (make m s).probabilityGet be x := by
  have h1 : (make m s).Coherent be := fun h => by simp [make] at h
  have e : ∀ g : Gaussian n, g.mu = some m → g.sigma = some s → g.Coherent be →
      Prod.fst <$> g.probabilityGet be x = (do
        let i ← be.symInverse s
        let d ← be.determinant s
        let temp ← mkProb ((x - m) ⬝ᵥ (i *ᵥ (x - m)))
        densityOf temp (normaliser n d)) := by
    intro g hm hs hc
    simp only [probabilityGet, prepare_coherent hc, refresh, hs, readMember, Outcome.ok_bind]
    cases be.symInverse s with
    | abort => rfl
    | ub => rfl
    | ok i =>
      cases be.determinant s with
      | abort => rfl
      | ub => rfl
      | ok d =>
        simp only [Outcome.ok_bind, Outcome.pure_eq, hm]
        cases mkProb ((x - m) ⬝ᵥ (i *ᵥ (x - m))) with
        | abort => rfl
        | ub => rfl
        | ok t =>
          simp only [Outcome.ok_bind]
          cases densityOf t (normaliser n d) <;> rfl
  rw [e g hm hs hc, e _ rfl rfl h1]

theorem densityOf_pd {s : Matrix (Fin n) (Fin n) ℝ} (hs : PD s) (m x : Fin n → ℝ) :
    densityOf ((x - m) ⬝ᵥ (s⁻¹ *ᵥ (x - m))) (normaliser n s.det) = .ok (normalDensity m s x) := by
  have hd := pd_det_pos hs
  rw [normaliser, if_neg (not_lt.mpr hd.le), densityOf]
  have e : Real.exp (-(1 / 2) * ((x - m) ⬝ᵥ (s⁻¹ *ᵥ (x - m)))) *
      (1 / Real.sqrt ((Real.pi * 2) ^ n * s.det)) = normalDensity m s x := by
    rw [normalDensity, quad, mul_comm Real.pi 2, mul_one_div]
    congr 2; ring
  rw [e, mkProb, if_pos]
  rw [normalDensity]; positivity

theorem probabilityGet_make (be : Backend) {s : Matrix (Fin n) (Fin n) ℝ} (hs : PD s)
    (m x : Fin n → ℝ) :
    ∃ g, (make m s).probabilityGet be x = .ok (normalDensity m s x, g) := by
  have hd := (pd_det_pos hs).ne'
  have hq : 0 ≤ (x - m) ⬝ᵥ (s⁻¹ *ᵥ (x - m)) := hs.inv.psd.2 _
  simp only [probabilityGet, prepare, make, if_true, refresh, readMember, Outcome.ok_bind,
    be.symInverse_of_det hs.1 hd, be.determinant_of_det s hd, Outcome.pure_eq, mkProb, if_pos hq,
    densityOf_pd hs m x]
  exact ⟨_, rfl⟩

theorem sampleOne_ok {g : Gaussian n} {m : Fin n → ℝ} {s : Matrix (Fin n) (Fin n) ℝ}
    (hm : g.mu = some m) (hs : g.sigma = some s) {me : SampleMthd}
    (hme : me = .default ∨ me = .cholesky) (old z : Fin n → ℝ) :
    g.sampleOne me old z =
      .ok ((cholesky Real.sqrt machEps s).1, (cholesky Real.sqrt machEps s).2 *ᵥ z + m) := by
  rcases hme with rfl | rfl <;> simp [sampleOne, hm, hs, readMember]

theorem sampleList_ok {g : Gaussian n} {m : Fin n → ℝ} {s : Matrix (Fin n) (Fin n) ℝ}
    (hm : g.mu = some m) (hs : g.sigma = some s) {me : SampleMthd}
    (hme : me = .default ∨ me = .cholesky) (old zs : List (Fin n → ℝ)) :
    g.sampleList me old zs =
      .ok ((cholesky Real.sqrt machEps s).1,
        zs.map fun z => (cholesky Real.sqrt machEps s).2 *ᵥ z + m) := by
  rcases hme with rfl | rfl <;> simp [sampleList, hm, hs, readMember]

end Gaussian

theorem machEps_pos : 0 < machEps := by unfold machEps; positivity

theorem machEps_le : machEps ≤ 1 := by unfold machEps; norm_num

end BFL
