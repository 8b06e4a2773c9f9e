import Verif.Lemmas.Smoothing
import Verif.Props.KalmanFamily

set_option linter.unusedSectionVars false

/-!
# Properties of the Rauch-Tung-Striebel smoother: C39, C55
-/

namespace BFL.Props

open Matrix Spec

variable {K : Type} [Field K] [LinearOrder K] [IsStrictOrderedRing K] {n m : Nat} {U : Type}

/-! ## C39: one backward step -/

/-- **C39, covariance.** Let the filtered covariance `Pf` and the smoothed covariance of the successor
be valid, and let `F`, `Q` be what the code takes for the system: the model evaluated at the smoothed
successor. If the covariance predicted with `F` and `Q` is invertible, the smoothed covariance is
symmetric and positive semidefinite; if moreover the successor is known at least as well as predicted,
the smoothed state is known at least as well as the filtered one. -/
theorem C39_covariance (be : Backend) (sys : AnalyticModel K n n U) (u : Option U)
    (xf xpred : Fin n → K) (Pf F Q : Matrix (Fin n) (Fin n) K) (f : RTS K n)
    (hF : sys.dfGet u f.mu = .ok F) (hQ : sys.covGet u f.mu = .ok Q)
    (hx : sys.predictionGet u xf = .ok xpred) (hPf : PSD Pf) (hQp : PSD Q) (hS : PSD f.sigma)
    (hdet : (F * Pf * Fᵀ + Q).det ≠ 0) :
    ∃ f', f.sysUpdate be sys u xf Pf = .ok f' ∧ PSD f'.sigma ∧
      (PSD (F * Pf * Fᵀ + Q - f.sigma) → PSD (Pf - f'.sigma)) := by
  have hsym := smoothedCov_symm (F := F) hPf.1 hQp.1 hS.1
  refine ⟨_, RTS.sysUpdate_ok be hF hQ hx hdet, ?_, fun hle => ?_⟩
  · simp only
    rw [be.toSym_of_symm hsym, smoothedCov_split hPf.1 hQp.1 hdet, kcov_joseph hdet]
    exact ((hPf.congr _).add (hQp.congr _)).add (hS.congr _)
  · simp only
    rw [be.toSym_of_symm hsym, smoothedCov_eq, sub_sub_cancel]
    exact hle.congr _

example : ∃ f', (RTS.make ![3, 2] KFixture.P).sysUpdate .boost KFixture.sys none ![1, 2] KFixture.P
    = .ok f' ∧ PSD f'.sigma := by
  obtain ⟨f', h, h', _⟩ := C39_covariance .boost KFixture.sys none ![1, 2] (KFixture.F *ᵥ ![1, 2])
    KFixture.P KFixture.F KFixture.Q (RTS.make ![3, 2] KFixture.P) rfl rfl rfl KFixture.P_pd.psd
    KFixture.Q_psd KFixture.P_pd.psd (by decide +kernel)
  exact ⟨f', h, h'⟩

/-- **C39, formula (partial: only for models whose Jacobian and noise do not depend on the state, see
`C39_jacobian_false`).** The smoother computes the Rauch-Tung-Striebel mean and covariance. -/
theorem C39_formula_partial (be : Backend) (sys : AnalyticModel K n n U) (u : Option U) (xf c : Fin n → K)
    (Pf F Q : Matrix (Fin n) (Fin n) K) (f : RTS K n) (hl : sys.IsLinear u F c Q) (hPf : PSD Pf)
    (hQ : PSD Q) (hS : PSD f.sigma) (hdet : (F * Pf * Fᵀ + Q).det ≠ 0) :
    f.sysUpdate be sys u xf Pf = .ok
      ⟨smoothedMean xf Pf F Q (F *ᵥ xf + c) f.mu, smoothedCov Pf F Q f.sigma, f.timestep⟩ := by
  rw [RTS.sysUpdate_ok be (hl f.mu).2.1 (hl f.mu).2.2 (hl xf).1 hdet,
    be.toSym_of_symm (smoothedCov_symm hPf.1 hQ.1 hS.1)]

example : (RTS.make ![3, 2] KFixture.P).sysUpdate .eigen KFixture.sys none ![1, 2] KFixture.P = .ok
    ⟨smoothedMean ![1, 2] KFixture.P KFixture.F KFixture.Q (KFixture.F *ᵥ ![1, 2] + 0) ![3, 2],
      smoothedCov KFixture.P KFixture.F KFixture.Q KFixture.P, 0⟩ :=
  C39_formula_partial .eigen KFixture.sys none ![1, 2] 0 KFixture.P KFixture.F KFixture.Q
    (RTS.make ![3, 2] KFixture.P) KFixture.sys_linear KFixture.P_pd.psd KFixture.Q_psd
    KFixture.P_pd.psd (by decide +kernel)

/-- **C39, nothing new (partial: only for linear models, see `C39_unchanged_false`).** If the smoothed
successor is exactly what the Kalman filter predicts from the filtered estimate, smoothing leaves the
filtered estimate as it is. -/
theorem C39_unchanged_partial (be : Backend) (sys : AnalyticModel K n n U) (u : Option U) (c : Fin n → K)
    (F Q : Matrix (Fin n) (Fin n) K) (hl : sys.IsLinear u F c Q) (hQ : PSD Q)
    (filtered predicted : KF K n) (hPf : PSD filtered.sigma)
    (hdet : (F * filtered.sigma * Fᵀ + Q).det ≠ 0) (hp : filtered.sysUpdate be sys u = .ok predicted) :
    ∃ f', (RTS.make predicted.mu predicted.sigma).sysUpdate be sys u filtered.mu filtered.sigma = .ok f' ∧
      f'.mu = filtered.mu ∧ f'.sigma = filtered.sigma := by
  rw [sysUpdate_eq (hl filtered.mu)] at hp
  cases hp
  have hpsd : PSD (F * filtered.sigma * Fᵀ + Q) := (hPf.congr F).add hQ
  rw [be.toSym_of_symm hpsd.1]
  refine ⟨_, C39_formula_partial be sys u filtered.mu c filtered.sigma F Q _ hl hPf hQ
    (by exact hpsd) hdet, ?_, ?_⟩
  · simp [smoothedMean, RTS.make]
  · simp [smoothedCov, RTS.make]

example : ∃ p f', KFixture.start.sysUpdate .boost KFixture.sys none = .ok p ∧
    (RTS.make p.mu p.sigma).sysUpdate .boost KFixture.sys none ![1, 2] KFixture.P = .ok f' ∧
    f'.mu = ![1, 2] ∧ f'.sigma = KFixture.P := by
  have h := sysUpdate_eq (be := .boost) (KFixture.sys_linear KFixture.start.mu)
  obtain ⟨f', h1, h2, h3⟩ := C39_unchanged_partial .boost KFixture.sys none 0 KFixture.F KFixture.Q
    KFixture.sys_linear KFixture.Q_psd KFixture.start _ KFixture.P_pd.psd (by decide +kernel) h
  exact ⟨_, f', h, h1, h2, h3⟩

/-- The scalar system `x ↦ x²` with unit noise. -/
def squareSys : AnalyticModel K 1 1 Unit :=
  .noInput (fun x => ![x 0 * x 0]) (fun x => !![2 * x 0]) (fun _ => !![1])

theorem one_smoothed (be : Backend) {y : K} {xf pf p : K} (h : 2 * y * pf * (2 * y) + 1 ≠ 0) :
    (RTS.make ![y] !![p]).sysUpdate be squareSys none ![xf] !![pf] = .ok
      ⟨![xf + pf * (2 * y) * (2 * y * pf * (2 * y) + 1)⁻¹ * (y - xf * xf)],
       !![pf - pf * (2 * y) * (2 * y * pf * (2 * y) + 1)⁻¹ * (2 * y * pf * (2 * y) + 1 - p) *
          (pf * (2 * y) * (2 * y * pf * (2 * y) + 1)⁻¹)], 0⟩ := by
  have hk : smootherGain (!![pf] : Matrix (Fin 1) (Fin 1) K) !![2 * y] !![1] =
      !![pf * (2 * y) * (2 * y * pf * (2 * y) + 1)⁻¹] := one_kgain h
  have hi : (!![2 * y] * !![pf] * (!![2 * y])ᵀ + !![1] : Matrix (Fin 1) (Fin 1) K) =
      !![2 * y * pf * (2 * y) + 1] := one_innovCov _ _ _
  rw [RTS.sysUpdate_ok be (F := !![2 * y]) (Q := !![1]) (xpred := ![xf * xf]) rfl rfl rfl
    (by rw [one_innovCov, one_det]; exact h), smoothedMean, smoothedCov_eq, hk, hi]
  have e1 : (![y] - ![xf * xf] : Fin 1 → K) = ![y - xf * xf] := by ext i; fin_cases i; rfl
  have e2 : ∀ a b : K, (!![a] - !![b] : Matrix (Fin 1) (Fin 1) K) = !![a - b] := by
    intro a b; ext i j; fin_cases i; fin_cases j; rfl
  simp only [RTS.make, e1, e2, one_transpose, one_mul_one, one_mulVec_one,
    be.toSym_of_symm (one_transpose _)]
  congr 2
  ext i; fin_cases i; rfl

/-- **C39 fails: the linearisation point.** The Jacobian is taken at the smoothed successor, not at the
filtered estimate being smoothed: for `x ↦ x²`, filtered estimate `1 ± 1` and smoothed successor `4`,
the Rauch-Tung-Striebel mean is `1 + 6/5`, the code gives `1 + 24/65`. -/
theorem C39_jacobian_false (be : Backend) (p : K) :
    ∃ f', (RTS.make ![4] !![p]).sysUpdate be squareSys none ![1] !![1] = .ok f' ∧
      f'.mu = ![1 + 24 / 65] ∧
      smoothedMean ![1] !![1] !![2 * 1] !![1] ![1 * 1] ![4] = (![1 + 6 / 5] : Fin 1 → K) := by
  refine ⟨_, one_smoothed be (by norm_num), ?_, ?_⟩
  · simp only; norm_num
  · have hk : smootherGain (!![1] : Matrix (Fin 1) (Fin 1) K) !![2 * 1] !![1] =
        !![1 * (2 * 1) * (2 * 1 * 1 * (2 * 1) + 1)⁻¹] := one_kgain (by norm_num)
    have e1 : (![4] - ![1 * 1] : Fin 1 → K) = ![4 - 1 * 1] := by ext i; fin_cases i; rfl
    rw [smoothedMean, hk, e1, one_mulVec_one]
    ext i; fin_cases i
    simp; norm_num

/-- **C39 fails: a successor that brings no information.** The extended Kalman filter predicts
`9 ± √37` from `3 ± 1` for `x ↦ x²`; handing exactly this back to the smoother changes the variance
of the filtered estimate from 1 to `1 - (18/325)² · 288`. -/
theorem C39_unchanged_false (be : Backend) :
    ∃ p f', (⟨![3], !![1], 0⟩ : KF K 1).sysUpdate be squareSys none = .ok p ∧
      (RTS.make p.mu p.sigma).sysUpdate be squareSys none ![3] !![1] = .ok f' ∧
      f'.sigma = !![1 - (18 / 325) ^ 2 * 288] ∧ f'.sigma ≠ !![1] := by
  have hp : (⟨![3], !![1], 0⟩ : KF K 1).sysUpdate be squareSys none = .ok
      ⟨![9], !![37], 0⟩ := by
    rw [sysUpdate_eq (J := ![3 * 3]) (F := !![2 * 3]) (Q := !![1]) ⟨rfl, rfl, rfl⟩]
    have hi : (!![2 * 3] * !![1] * (!![2 * 3])ᵀ + !![1] : Matrix (Fin 1) (Fin 1) K) =
        !![2 * 3 * 1 * (2 * 3) + 1] := one_innovCov _ _ _
    rw [hi, be.toSym_of_symm (one_transpose _)]
    norm_num
  have hs : (!![1 - (18 / 325) ^ 2 * 288] : Matrix (Fin 1) (Fin 1) K) ≠ !![1] := by
    intro h
    have := congrFun (congrFun h 0) 0
    simp at this
  refine ⟨_, _, hp, one_smoothed be (by norm_num), ?_, ?_⟩
  · simp only; norm_num
  · intro h
    apply hs
    rw [← h]
    simp only; norm_num

end BFL.Props
