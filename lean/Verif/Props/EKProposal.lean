import Verif.Lemmas.EKProposal
import Verif.Lemmas.Smoothing
import Verif.Props.KalmanFamily
import Verif.Props.LinearModelLaw

/-!
# C62: the EKF proposal density
-/

set_option linter.unusedSectionVars false

namespace BFL.Props

open Matrix Spec EKProposal

variable {K : Type} [Field K] [LinearOrder K] {n m : Nat} {U : Type}

/-- **C62.** After any history of calls, a proposal density that is given both models, the covariance
of the old particle and the conditional arguments reports the mean and the covariance of a new
extended Kalman filter, and fails in the same way. Nothing of the history is left. -/
theorem C62_fresh (be : Backend) (h0 : GaussHeap K n) (sys0 : Option (AnalyticModel K n n U))
    (meas0 : Option (AnalyticModel K n m U)) (ops : List (Op K n m U)) (h : GaussHeap K n)
    (p : EKProposal K n m U) (hr : run be ops (EKProposal.make h0 sys0 meas0) = .ok (h, p))
    (s : AnalyticModel K n n U) (mm : AnalyticModel K n m U) (S : Matrix (Fin n) (Fin n) K)
    (x : Fin n → K) (u : Option U) (z : Fin m → K) (sp : Option U) :
    ∃ p', prepare s mm S x u z sp p = .ok p' ∧
      (p'.expectedValueGet be h >>= fun r => Outcome.ok r.1) =
        (freshEkf be x S (some (s, givenTo s u)) (some (mm, z, givenTo mm sp)) >>= fun g =>
          .ok g.1) ∧
      (p'.covarianceGet be h >>= fun r => Outcome.ok r.1) =
        (freshEkf be x S (some (s, givenTo s u)) (some (mm, z, givenTo mm sp)) >>= fun g =>
          .ok g.2) := by
  have hw := Wf.run (Wf.make h0 sys0 meas0) (make_live h0 sys0 meas0) hr
  have hl := run_live (make_live h0 sys0 meas0) hr
  obtain ⟨p', e1, e2, e3, e4⟩ := prepare_ok be hw s mm S x u z sp
  have hl' := hl.of_addr e2 e3
  exact ⟨p', e1, by rw [mean_eq be hl', e4], by rw [cov_eq be hl', e4]⟩

/-- A history with queries, on a two-dimensional state. -/
def EKFixture.history : List (Op ℚ 2 1 Unit) :=
  [.setCov KFixture.P, .setArg 0 (.state ![1, 2]), .setArg 1 (.meas ![3])] ++ [.mean, .cov, .mean]

theorem EKFixture.runs : ∃ h p, run .boost EKFixture.history
    (EKProposal.make Heap.empty (some KFixture.sys) (some KFixture.meas)) = .ok (h, p) := by
  rw [EKFixture.history, run_append]
  have h1 : run .boost [.setCov KFixture.P, .setArg 0 (.state ![1, 2]), .setArg 1 (.meas ![3])]
      (EKProposal.make Heap.empty (some KFixture.sys) (some KFixture.meas)) =
      .ok ((EKProposal.make Heap.empty (some KFixture.sys) (some KFixture.meas)).1,
        { (EKProposal.make Heap.empty (some KFixture.sys) (some KFixture.meas)).2 with
          sampleCov := some KFixture.P,
          args := argList KFixture.sys KFixture.meas ![1, 2] none ![3] none }) := rfl
  obtain ⟨f', _, _, _, hf, _⟩ := C37_kalman .boost KFixture.sys none _ _ _ KFixture.meas none _ _
    ![3] _ KFixture.sys_linear KFixture.meas_linear KFixture.start KFixture.P_pd.psd
    KFixture.Q_psd KFixture.R_pd
  have h2 : freshEkf .boost ![1, 2] KFixture.P (some (KFixture.sys, none))
      (some (KFixture.meas, ![3], none)) = .ok (f'.mu, f'.sigma) := by
    unfold freshEkf
    erw [hf]
    rfl
  obtain ⟨r, hr⟩ := run_queries (be := .boost) (ops := [.mean, .cov, .mean])
    (run_live (make_live _ _ _) h1) ((answer_argList .boost rfl rfl rfl rfl rfl).trans h2)
    (by simp [isQuery])
  exact ⟨r.1, r.2, by rw [h1]; exact hr⟩

example : ∃ h p p', run .boost EKFixture.history
      (EKProposal.make Heap.empty (some KFixture.sys) (some KFixture.meas)) = .ok (h, p) ∧
    prepare KFixture.sys KFixture.square KFixture.P ![0, 1] none ![4] none p = .ok p' := by
  obtain ⟨h, p, hr⟩ := EKFixture.runs
  obtain ⟨p', e, _⟩ := C62_fresh .boost _ _ _ _ h p hr KFixture.sys KFixture.square KFixture.P ![0, 1]
    none ![4] none
  exact ⟨h, p, p', hr, e⟩

/-- **C62.** Queries leave no trace: without them the same history leads to the same answers. -/
theorem C62_queries (be : Backend) (h0 : GaussHeap K n) (sys0 : Option (AnalyticModel K n n U))
    (meas0 : Option (AnalyticModel K n m U)) (ops : List (Op K n m U)) (h : GaussHeap K n)
    (p : EKProposal K n m U) (hr : run be ops (EKProposal.make h0 sys0 meas0) = .ok (h, p)) :
    ∃ h' p', run be (ops.filter fun op => !isQuery op) (EKProposal.make h0 sys0 meas0) =
        .ok (h', p') ∧
      (p.expectedValueGet be h >>= fun r => Outcome.ok r.1) =
        (p'.expectedValueGet be h' >>= fun r => .ok r.1) ∧
      (p.covarianceGet be h >>= fun r => Outcome.ok r.1) =
        (p'.covarianceGet be h' >>= fun r => .ok r.1) := by
  obtain ⟨⟨h', p'⟩, e1, e2, e3, e4⟩ := run_skip (Same.refl _) (make_live h0 sys0 meas0)
    (make_live h0 sys0 meas0) hr
  exact ⟨h', p', e1, by rw [mean_eq be e3, mean_eq be e4, e2.answer],
    by rw [cov_eq be e3, cov_eq be e4, e2.answer]⟩

example : ∃ h p, run .boost (EKFixture.history.filter fun op => !isQuery op)
    (EKProposal.make Heap.empty (some KFixture.sys) (some KFixture.meas)) = .ok (h, p) := by
  obtain ⟨h, p, hr⟩ := EKFixture.runs
  obtain ⟨h', p', e, _⟩ := C62_queries .boost _ _ _ _ h p hr
  exact ⟨h', p', e⟩

/-- **C62.** After any history the proposal density can be destroyed: although the filter inside takes
over the prior object, no object is deleted twice. Of the two pdf objects created by the constructor
exactly one is never released; the objects of the client are as before. -/
theorem C62_destroy (be : Backend) (h0 : GaussHeap K n) (sys0 : Option (AnalyticModel K n n U))
    (meas0 : Option (AnalyticModel K n m U)) (ops : List (Op K n m U)) (h : GaussHeap K n)
    (p : EKProposal K n m U) (hr : run be ops (EKProposal.make h0 sys0 meas0) = .ok (h, p)) :
    ∃ h', p.destroy h = .ok h' ∧ (∀ a < h0.size, h'.get a = h0.get a) ∧
      ((h'.get h0.size).isSome ≠ (h'.get (h0.size + 1)).isSome) := by
  obtain ⟨f1, f2, f3, ⟨v, f4⟩, w, f5⟩ := Frame.run (Frame.make h0 sys0 meas0) hr
  have hd : ∀ (a : Nat) (v), h.get a = some ⟨v, true⟩ → deletePdf h a = .ok (h.upd a none) := by
    intro a v hv
    simp [deletePdf, Heap.read_ok hv, Heap.free_ok hv]
  rcases f2 with f2 | f2
  · refine ⟨h.upd h0.size none, ?_, fun a ha => ?_, ?_⟩
    · rw [EKProposal.destroy, FilterObj.destroy, f2, hd _ v f4]
    · rw [Heap.upd_get_ne (by omega), f3 a ha]
    · rw [Heap.upd_get (Heap.lt_of_get f4), if_pos rfl, Heap.upd_get_ne (by omega), f5]
      simp
  · refine ⟨h.upd (h0.size + 1) none, ?_, fun a ha => ?_, ?_⟩
    · rw [EKProposal.destroy, FilterObj.destroy, f2, hd _ w f5]
    · rw [Heap.upd_get_ne (by omega), f3 a ha]
    · rw [Heap.upd_get_ne (by omega), f4, Heap.upd_get (Heap.lt_of_get f5), if_pos rfl]
      simp

example : ∃ h p h', run .boost EKFixture.history
      (EKProposal.make Heap.empty (some KFixture.sys) (some KFixture.meas)) = .ok (h, p) ∧
    p.destroy h = .ok h' := by
  obtain ⟨h, p, hr⟩ := EKFixture.runs
  obtain ⟨h', e, _⟩ := C62_destroy .boost _ _ _ _ h p hr
  exact ⟨h, p, h', hr, e⟩

/-- **C62.** A proposal density built with a system model only has no conditional arguments: setting
one, or asking for the mean or the covariance, stops the program. -/
theorem C62_single_model (be : Backend) (h0 : GaussHeap K n) (s : AnalyticModel K n n U) (i : Nat)
    (v : Option (CondArg K n m U)) :
    (EKProposal.make (m := m) h0 (some s) none).2.argSet i v = .abort ∧
      (EKProposal.make (m := m) h0 (some s) none).2.expectedValueGet be
        (EKProposal.make (m := m) h0 (some s) none).1 = .abort := by
  have h1 : (EKProposal.make (m := m) h0 (some s) none).2.numArgs = 0 := rfl
  have h2 : ∀ i, ¬ i < (EKProposal.make (m := m) h0 (some s) none).2.numArgs := by
    intro i; rw [h1]; omega
  exact ⟨by simp only [EKProposal.argSet, cassert_false (h2 i), Outcome.abort_bind],
    by simp only [EKProposal.expectedValueGet, EKProposal.filterStep, EKProposal.argGet,
      cassert_false (h2 0), Outcome.abort_bind]⟩

variable [IsStrictOrderedRing K]

/-- **C62.** On a linear system and a linear measurement the reported mean and covariance are those of
the textbook Kalman filter started at the old particle. -/
theorem C62_kalman (be : Backend) (h0 : GaussHeap K n) (sys0 : Option (AnalyticModel K n n U))
    (meas0 : Option (AnalyticModel K n m U)) (ops : List (Op K n m U)) (h : GaussHeap K n)
    (p : EKProposal K n m U) (hr : run be ops (EKProposal.make h0 sys0 meas0) = .ok (h, p))
    (s : AnalyticModel K n n U) (mm : AnalyticModel K n m U) (S : Matrix (Fin n) (Fin n) K)
    (x : Fin n → K) (u : Option U) (z : Fin m → K) (sp : Option U)
    (A Q : Matrix (Fin n) (Fin n) K) (b : Fin n → K) (H : Matrix (Fin m) (Fin n) K) (c : Fin m → K)
    (R : Matrix (Fin m) (Fin m) K) (hs : s.IsLinear (givenTo s u) A b Q)
    (hm : mm.IsLinear (givenTo mm sp) H c R) (hS : PSD S) (hQ : PSD Q) (hR : PD R) :
    ∃ p' mean cov xp Pp G, prepare s mm S x u z sp p = .ok p' ∧
      (p'.expectedValueGet be h >>= fun r => Outcome.ok r.1) = .ok mean ∧
      (p'.covarianceGet be h >>= fun r => Outcome.ok r.1) = .ok cov ∧
      xp = A *ᵥ x + b ∧ Pp = A * S * Aᵀ + Q ∧ G * (H * Pp * Hᵀ + R) = Pp * Hᵀ ∧
      mean = xp + G *ᵥ (z - (H *ᵥ xp + c)) ∧ cov = Pp - G * H * Pp := by
  obtain ⟨p', e1, e2, e3⟩ := C62_fresh be h0 sys0 meas0 ops h p hr s mm S x u z sp
  obtain ⟨f', xp, Pp, G, k1, k2, k3, k4, k5, k6⟩ :=
    C37_kalman be s (givenTo s u) A Q b mm (givenTo mm sp) H c z R hs hm (KF.make x S) hS hQ hR
  have hf : freshEkf be x S (some (s, givenTo s u)) (some (mm, z, givenTo mm sp)) =
      .ok (f'.mu, f'.sigma) := by
    simp only [freshEkf, k1, Outcome.ok_bind, Outcome.pure_eq]
  rw [hf] at e2 e3
  exact ⟨p', f'.mu, f'.sigma, xp, Pp, G, e1, e2, e3, k2, k3, k4, k5, k6⟩

example : ∃ h p p' mean, run .boost EKFixture.history
      (EKProposal.make Heap.empty (some KFixture.sys) (some KFixture.meas)) = .ok (h, p) ∧
    prepare KFixture.sys KFixture.meas KFixture.P ![0, 1] none ![4] none p = .ok p' ∧
    (p'.expectedValueGet .boost h >>= fun r => Outcome.ok r.1) = .ok mean := by
  obtain ⟨h, p, hr⟩ := EKFixture.runs
  obtain ⟨p', mean, _, _, _, _, e1, e2, _⟩ := C62_kalman .boost _ _ _ _ h p hr KFixture.sys
    KFixture.meas KFixture.P ![0, 1] none ![4] none _ _ _ _ _ _ KFixture.sys_linear
    KFixture.meas_linear KFixture.P_pd.psd KFixture.Q_psd KFixture.R_pd
  exact ⟨h, p, p', mean, hr, e1, e2⟩

/-- **C62.** The reported density is that of the posterior of the linearised model: predicted density
times likelihood is the likelihood of the prediction, which does not depend on `y`, times the density
reported for `y`. -/
theorem C62_bayes {n m : Nat} (be : Backend) (h0 : GaussHeap ℝ n)
    (sys0 : Option (AnalyticModel ℝ n n U)) (meas0 : Option (AnalyticModel ℝ n m U))
    (ops : List (Op ℝ n m U)) (h : GaussHeap ℝ n)
    (p : EKProposal ℝ n m U) (hr : run be ops (EKProposal.make h0 sys0 meas0) = .ok (h, p))
    (s : AnalyticModel ℝ n n U) (mm : AnalyticModel ℝ n m U) (S : Matrix (Fin n) (Fin n) ℝ)
    (x : Fin n → ℝ) (u : Option U) (z : Fin m → ℝ) (sp : Option U) (J : Fin n → ℝ)
    (F Q : Matrix (Fin n) (Fin n) ℝ) (Z : Fin m → ℝ) (H : Matrix (Fin m) (Fin n) ℝ)
    (R : Matrix (Fin m) (Fin m) ℝ) (hs : s.Evaluates (givenTo s u) x J F Q)
    (hm : mm.Evaluates (givenTo mm sp) J Z H R) (hS : PSD S) (hQ : PD Q) (hR : PD R) :
    ∃ (p' : EKProposal ℝ n m U) (q : (Fin n → ℝ) → ℝ), prepare s mm S x u z sp p = .ok p' ∧
      ∀ y, (p'.probabilityGet be h y >>= fun r => Outcome.ok r.1) = .ok (q y) ∧
        normalDensity J (F * S * Fᵀ + Q) y * normalDensity (Z + H *ᵥ (y - J)) R z =
          normalDensity Z (H * (F * S * Fᵀ + Q) * Hᵀ + R) z * q y := by
  have hw := Wf.run (Wf.make h0 sys0 meas0) (make_live h0 sys0 meas0) hr
  have hl := run_live (make_live h0 sys0 meas0) hr
  obtain ⟨p', e1, e2, e3, e4⟩ := prepare_ok be hw s mm S x u z sp
  have hl' := hl.of_addr e2 e3
  have hP : PD (F * S * Fᵀ + Q) := (hS.congr F).add_pd hQ
  have u1 : (KF.make x S).sysUpdate be s (givenTo s u) = .ok ⟨J, F * S * Fᵀ + Q, 0⟩ := by
    rw [sysUpdate_eq (f := KF.make x S) hs]
    exact congrArg (fun P => Outcome.ok (KF.mk J P 0)) (be.toSym_of_symm hP.1)
  obtain ⟨f', k1, k2⟩ := C34_bayes be mm (givenTo mm sp) z Z H R ⟨J, F * S * Fᵀ + Q, 0⟩ hm hP hR
  obtain ⟨f'', k3, k4, _⟩ := C34_information be mm (givenTo mm sp) z Z H R ⟨J, F * S * Fᵀ + Q, 0⟩ hm
    hP hR
  rw [k1] at k3
  cases k3
  have hf : p'.answer be = .ok (f'.mu, f'.sigma) := by
    rw [e4]
    simp only [freshEkf, KF.update, KF.sysPart, u1, Outcome.ok_bind, KF.measPart, KF.measUpdate, k1,
      Outcome.pure_eq]
  refine ⟨p', normalDensity f'.mu f'.sigma, e1, fun y => ⟨?_, k2 y⟩⟩
  rw [(probabilityGet_eq be hl' y).2, hf, Outcome.ok_bind, conditional_density be k4]

/-- **C62.** With sample covariance zero and a linear measurement model the proposal is the optimal
importance density p(x_k | x_{k-1}, z): transition density times likelihood is a factor that does
not depend on the proposed state times the reported density. -/
theorem C62_optimal {n m : Nat} (be : Backend) (h0 : GaussHeap ℝ n)
    (sys0 : Option (AnalyticModel ℝ n n U)) (meas0 : Option (AnalyticModel ℝ n m U))
    (ops : List (Op ℝ n m U)) (h : GaussHeap ℝ n)
    (p : EKProposal ℝ n m U) (hr : run be ops (EKProposal.make h0 sys0 meas0) = .ok (h, p))
    (s : AnalyticModel ℝ n n U) (mm : AnalyticModel ℝ n m U)
    (x : Fin n → ℝ) (u : Option U) (z : Fin m → ℝ) (sp : Option U) (J : Fin n → ℝ)
    (F Q : Matrix (Fin n) (Fin n) ℝ) (c : Fin m → ℝ) (H : Matrix (Fin m) (Fin n) ℝ)
    (R : Matrix (Fin m) (Fin m) ℝ) (hs : s.Evaluates (givenTo s u) x J F Q)
    (hm : mm.IsLinear (givenTo mm sp) H c R) (hQ : PD Q) (hR : PD R) :
    ∃ (p' : EKProposal ℝ n m U) (q : (Fin n → ℝ) → ℝ) (k : ℝ),
      prepare s mm 0 x u z sp p = .ok p' ∧
      ∀ y, (p'.probabilityGet be h y >>= fun r => Outcome.ok r.1) = .ok (q y) ∧
        normalDensity J Q y * normalDensity (H *ᵥ y + c) R z = k * q y := by
  have h00 : PSD (0 : Matrix (Fin n) (Fin n) ℝ) := ⟨by simp, by simp⟩
  obtain ⟨p', q, e1, e2⟩ := C62_bayes be h0 sys0 meas0 ops h p hr s mm 0 x u z sp J F Q
    (H *ᵥ J + c) H R hs (hm J) h00 hQ hR
  refine ⟨p', q, normalDensity (H *ᵥ J + c) (H * Q * Hᵀ + R) z, e1, fun y => ⟨(e2 y).1, ?_⟩⟩
  have := (e2 y).2
  rw [mul_zero, zero_mul, zero_add] at this
  rw [← this, mulVec_sub, show H *ᵥ J + c + (H *ᵥ y - H *ᵥ J) = H *ᵥ y + c by abel]

theorem EKFixture.one_pd : PD (1 : Matrix (Fin 1) (Fin 1) ℝ) := by
  refine ⟨by simp, fun x hx => ?_⟩
  have h0 : x 0 ≠ 0 := by
    intro h; apply hx; ext i; fin_cases i; exact h
  simpa [dotProduct, mulVec] using mul_self_pos.mpr h0

/-- A nonlinear motion with a direct measurement. -/
example : ∃ (p' : EKProposal ℝ 1 1 Unit) (q : (Fin 1 → ℝ) → ℝ) (k : ℝ),
    prepare (.noInput (fun x => fun _ => x 0 * x 0) (fun x => !![2 * x 0]) (fun _ => 1))
      (.noInput (fun x => (1 : Matrix (Fin 1) (Fin 1) ℝ) *ᵥ x + 0) (fun _ => 1) (fun _ => 1)) 0 ![3]
        none ![7] none
      (EKProposal.make (m := 1) (U := Unit) (Heap.empty : GaussHeap ℝ 1) none none).2 = .ok p' ∧
    ∀ y, (p'.probabilityGet .eigen (EKProposal.make (m := 1) (U := Unit)
        (Heap.empty : GaussHeap ℝ 1) none none).1 y >>= fun r => Outcome.ok r.1) = .ok (q y) ∧
      normalDensity (fun _ => 3 * 3) 1 y *
        normalDensity ((1 : Matrix (Fin 1) (Fin 1) ℝ) *ᵥ y + 0) 1 ![7] = k * q y :=
  C62_optimal .eigen Heap.empty none none [] _ _ rfl _ _ ![3] none ![7] none (fun _ => 3 * 3)
    !![2 * 3] 1 0 1 1 ⟨rfl, rfl, rfl⟩ (fun _ => ⟨rfl, rfl, rfl⟩) EKFixture.one_pd EKFixture.one_pd

end BFL.Props
