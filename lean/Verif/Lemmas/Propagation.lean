import Verif.Spec.Propagation
import Verif.Props.KalmanSetup
import Mathlib.Analysis.Calculus.FDeriv.Comp
import Mathlib.Analysis.Calculus.FDeriv.Linear

/-! # First-order propagation of uncertainty -/

set_option linter.unusedSectionVars false

namespace BFL

open Matrix Spec Filter Topology Props

variable {n : Nat} {U : Type}

theorem jacobian_id (x : Fin n → ℝ) :
    HasJacobian (fun y => (.ok y : Outcome (Fin n → ℝ))) x (1 : Matrix (Fin n) (Fin n) ℝ) := by
  refine ⟨id, Eventually.of_forall fun _ => rfl, ?_⟩
  have : LinearMap.toContinuousLinearMap (Matrix.mulVecLin (1 : Matrix (Fin n) (Fin n) ℝ)) =
      ContinuousLinearMap.id ℝ (Fin n → ℝ) := by
    ext v
    simp
  rw [this]
  exact hasFDerivAt_id x

theorem jacobian_comp {g h : (Fin n → ℝ) → Outcome (Fin n → ℝ)} {x y : Fin n → ℝ}
    {A B : Matrix (Fin n) (Fin n) ℝ} (hg : HasJacobian g x A) (hy : g x = .ok y) (hh : HasJacobian h y B) :
    HasJacobian (fun x => g x >>= h) x (B * A) := by
  obtain ⟨g', e1, d1⟩ := hg
  obtain ⟨h', e2, d2⟩ := hh
  have hgx : g' x = y := by
    have := e1.self_of_nhds
    rw [hy] at this
    exact (Outcome.ok.inj this).symm
  rw [← hgx] at e2 d2
  refine ⟨h' ∘ g', ?_, ?_⟩
  · filter_upwards [e1, d1.continuousAt.eventually e2] with x' hx1 hx2
    rw [hx1, Outcome.ok_bind, hx2]
    rfl
  · have := d2.comp x d1
    refine this.congr_fderiv ?_
    ext v
    simp [Matrix.mulVec_mulVec]

/-- The steps as calls of `Update` with a system model only. -/
def predictCalls (steps : List (PredictStep n U)) : List (KStep ℝ n U) :=
  steps.map fun st => ⟨n, some st, none⟩

theorem sysUpdate_smooth (be : Backend) {st : PredictStep n U} {f : KF ℝ n} {y : Fin n → ℝ}
    {F Q : Matrix (Fin n) (Fin n) ℝ} (hy : st.1.predictionGet st.2 f.mu = .ok y)
    (hF : st.1.dfGet st.2 f.mu = .ok F) (hQ : st.1.covGet st.2 f.mu = .ok Q) (hs : f.sigmaᵀ = f.sigma)
    (hq : Qᵀ = Q) :
    f.sysUpdate be st.1 st.2 = .ok ⟨y, F * f.sigma * Fᵀ + Q, f.timestep⟩ := by
  have hsym : (F * (f.sigma * Fᵀ) + Q)ᵀ = F * (f.sigma * Fᵀ) + Q := by
    rw [transpose_add, transpose_mul, transpose_mul, transpose_transpose, hs, hq, Matrix.mul_assoc]
  simp only [KF.sysUpdate, hy, hF, hQ, Outcome.ok_bind, Outcome.pure_eq, KF.calculateSysUpdate,
    KF.postMuSet, KF.postSigmaSet, be.toSym_of_symm hsym, Matrix.mul_assoc]

theorem propagate (be : Backend) (kind : KF.Kind ℝ n) (steps : List (PredictStep n U))
    (h : ∀ st ∈ steps, TrueJacobian st) (f : KF ℝ n) (hs : f.sigmaᵀ = f.sigma) :
    ∃ f', runAll be kind (predictCalls steps) f = .ok f' ∧ endOf steps f.mu = .ok f'.mu ∧
      f'.sigmaᵀ = f'.sigma ∧ f'.timestep = f.timestep ∧ Propagated steps f.mu f.sigma f'.sigma := by
  induction steps generalizing f with
  | nil =>
    refine ⟨f, rfl, rfl, hs, rfl, 1, fun j => j.elim0, fun j => j.elim0, jacobian_id f.mu, fun j => j.elim0, ?_⟩
    simp
  | cons st rest ih =>
    obtain ⟨y, F, Q, hy, hF, hJ, hQ, hq⟩ := h st (by simp) f.mu
    have e1 := sysUpdate_smooth be hy hF hQ hs hq
    have hs1 : (F * f.sigma * Fᵀ + Q)ᵀ = F * f.sigma * Fᵀ + Q := by
      rw [transpose_add, transpose_mul, transpose_mul, transpose_transpose, hs, hq, Matrix.mul_assoc]
    obtain ⟨f', e2, e3, e4, e5, J, Js, Qs, k1, k2, k3⟩ := ih (fun st' hst' => h st' (by simp [hst']))
      ⟨y, F * f.sigma * Fᵀ + Q, f.timestep⟩ hs1
    refine ⟨f', ?_, ?_, e4, e5, J * F, Fin.cons J Js, Fin.cons Q Qs, jacobian_comp hJ hy k1, ?_, ?_⟩
    · simp only [predictCalls, List.map_cons, runAll, KF.update, KF.sysPart, KF.measPart, e1, Outcome.ok_bind,
        Outcome.pure_eq]
      exact e2
    · simp only [endOf, hy, Outcome.ok_bind]
      exact e3
    · intro j
      refine Fin.cases ?_ (fun j => ?_) j
      · refine ⟨f.mu, y, rfl, ?_, hQ, k1⟩
        show (st.1.predictionGet st.2 f.mu >>= fun y => endOf (rest.take 0) y) = _
        rw [hy, Outcome.ok_bind]
        rfl
      · obtain ⟨b, a, l1, l2, l3, l4⟩ := k2 j
        refine ⟨b, a, ?_, ?_, l3, l4⟩
        · show (st.1.predictionGet st.2 f.mu >>= fun y => endOf (rest.take j) y) = _
          rw [hy, Outcome.ok_bind]
          exact l1
        · show (st.1.predictionGet st.2 f.mu >>= fun y => endOf (rest.take (j + 1)) y) = _
          rw [hy, Outcome.ok_bind]
          exact l2
    · rw [k3]
      have hsum : (∑ j : Fin (st :: rest).length, (Fin.cons J Js : Fin (rest.length + 1) → _) j *
          (Fin.cons Q Qs : Fin (rest.length + 1) → _) j * ((Fin.cons J Js : Fin (rest.length + 1) → _) j)ᵀ) =
          J * Q * Jᵀ + ∑ j, Js j * Qs j * (Js j)ᵀ := by
        show (∑ j : Fin (rest.length + 1), _) = _
        rw [Fin.sum_univ_succ]
        rfl
      rw [hsum]
      simp only [Matrix.mul_add, Matrix.add_mul, transpose_mul, Matrix.mul_assoc, add_assoc]

end BFL
