import Verif.Spec.Coordinates
import Verif.Lemmas.KalmanRun

/-! # Lemmas on changes of coordinates -/

set_option linter.unusedSectionVars false

namespace BFL

open Matrix Spec

variable {K : Type} [Field K] [LinearOrder K] [IsStrictOrderedRing K] {n m : Nat} {U : Type}

namespace Coord

variable (c : Spec.Coord K n) (d : Spec.Coord K m)

theorem back_vec (x : Fin n → K) : c.back (c.vec x) = x := by
  simp [Spec.Coord.back, Spec.Coord.vec, Matrix.mulVec_mulVec, c.inv_mul]

theorem vec_sub (x y : Fin n → K) : c.vec x - c.vec y = c.T *ᵥ (x - y) := by
  simp [Spec.Coord.vec, Matrix.mulVec_sub]

theorem tinv_mul : c.invᵀ * c.Tᵀ = 1 := by
  rw [← Matrix.transpose_mul, c.mul_inv, Matrix.transpose_one]

theorem tmul_inv : c.Tᵀ * c.invᵀ = 1 := by
  rw [← Matrix.transpose_mul, c.inv_mul, Matrix.transpose_one]

theorem cov_psd {P : Matrix (Fin n) (Fin n) K} (h : PSD P) : PSD (c.cov P) := h.congr c.T

theorem cov_pd {P : Matrix (Fin n) (Fin n) K} (h : PD P) : PD (c.cov P) := by
  refine ⟨(h.psd.congr c.T).1, fun x hx => ?_⟩
  have hne : c.Tᵀ *ᵥ x ≠ 0 := by
    intro h0
    have := congrArg (c.invᵀ *ᵥ ·) h0
    simp only [Matrix.mulVec_mulVec, tinv_mul, Matrix.one_mulVec, Matrix.mulVec_zero] at this
    exact hx this
  have h1 := h.2 _ hne
  rw [Spec.Coord.cov, ← Matrix.mulVec_mulVec, ← Matrix.mulVec_mulVec, Matrix.dotProduct_mulVec,
    ← Matrix.mulVec_transpose]
  exact h1

theorem evaluates {mo : AnalyticModel K n m U} {s : Option U} {x : Fin n → K} {Z H R}
    (h : mo.Evaluates s x Z H R) :
    (c.model d mo).Evaluates s (c.vec x) (d.vec Z) (c.jac d H) (d.cov R) := by
  cases mo with
  | noInput f j r =>
    obtain ⟨h1, h2, h3⟩ := h
    cases h1; cases h2; cases h3
    refine ⟨?_, ?_, ?_⟩ <;>
      simp only [Spec.Coord.model, AnalyticModel.predictionGet, AnalyticModel.dfGet,
        AnalyticModel.covGet, back_vec]
  | withInput f j r =>
    cases s with
    | none => cases h.1
    | some s =>
      obtain ⟨h1, h2, h3⟩ := h
      cases h1; cases h2; cases h3
      refine ⟨?_, ?_, ?_⟩ <;>
        simp only [Spec.Coord.model, AnalyticModel.predictionGet, AnalyticModel.dfGet,
          AnalyticModel.covGet, back_vec]

theorem predict_cov (F P Q : Matrix (Fin n) (Fin n) K) :
    c.jac c F * c.cov P * (c.jac c F)ᵀ + c.cov Q = c.cov (F * P * Fᵀ + Q) := by
  simp only [Spec.Coord.jac, Spec.Coord.cov, Matrix.transpose_mul, Matrix.mul_add, Matrix.add_mul]
  congr 1
  calc c.T * F * c.inv * (c.T * P * c.Tᵀ) * (c.invᵀ * (Fᵀ * c.Tᵀ))
      = c.T * F * (c.inv * c.T) * P * (c.Tᵀ * c.invᵀ) * Fᵀ * c.Tᵀ := by
        simp only [Matrix.mul_assoc]
    _ = _ := by rw [c.inv_mul, tmul_inv]; simp only [Matrix.mul_assoc, Matrix.mul_one]

theorem innovCov_eq (P : Matrix (Fin n) (Fin n) K) (H : Matrix (Fin m) (Fin n) K)
    (R : Matrix (Fin m) (Fin m) K) :
    innovCov (c.cov P) (c.jac d H) (d.cov R) = d.T * innovCov P H R * d.Tᵀ := by
  simp only [innovCov, Spec.Coord.jac, Spec.Coord.cov, Matrix.transpose_mul, Matrix.mul_add,
    Matrix.add_mul]
  congr 1
  calc d.T * H * c.inv * (c.T * P * c.Tᵀ) * (c.invᵀ * (Hᵀ * d.Tᵀ))
      = d.T * H * (c.inv * c.T) * P * (c.Tᵀ * c.invᵀ) * Hᵀ * d.Tᵀ := by
        simp only [Matrix.mul_assoc]
    _ = _ := by rw [c.inv_mul, tmul_inv]; simp only [Matrix.mul_assoc, Matrix.mul_one]

theorem inv_congr {S : Matrix (Fin m) (Fin m) K} (hS : S.det ≠ 0) :
    (d.T * S * d.Tᵀ)⁻¹ = d.invᵀ * S⁻¹ * d.inv := by
  apply Matrix.inv_eq_left_inv
  calc d.invᵀ * S⁻¹ * d.inv * (d.T * S * d.Tᵀ)
      = d.invᵀ * (S⁻¹ * ((d.inv * d.T) * S)) * d.Tᵀ := by simp only [Matrix.mul_assoc]
    _ = 1 := by
        rw [d.inv_mul, Matrix.one_mul, Matrix.nonsing_inv_mul _ (isUnit_iff_ne_zero.2 hS),
          Matrix.mul_one, tinv_mul]

theorem kgain_eq' {P : Matrix (Fin n) (Fin n) K} {H : Matrix (Fin m) (Fin n) K}
    {R : Matrix (Fin m) (Fin m) K} (hS : (innovCov P H R).det ≠ 0) :
    kgain (c.cov P) (c.jac d H) (d.cov R) = c.T * kgain P H R * d.inv := by
  rw [kgain, innovCov_eq, inv_congr d hS, kgain]
  simp only [Spec.Coord.jac, Spec.Coord.cov, Matrix.transpose_mul]
  calc c.T * P * c.Tᵀ * (c.invᵀ * (Hᵀ * d.Tᵀ)) * (d.invᵀ * (innovCov P H R)⁻¹ * d.inv)
      = c.T * P * (c.Tᵀ * c.invᵀ) * Hᵀ * (d.Tᵀ * d.invᵀ) * (innovCov P H R)⁻¹ * d.inv := by
        simp only [Matrix.mul_assoc]
    _ = _ := by rw [tmul_inv, tmul_inv]; simp only [Matrix.mul_assoc, Matrix.one_mul]

theorem kcov_eq' {P : Matrix (Fin n) (Fin n) K} {H : Matrix (Fin m) (Fin n) K}
    {R : Matrix (Fin m) (Fin m) K} (hS : (innovCov P H R).det ≠ 0) :
    kcov (c.cov P) (c.jac d H) (d.cov R) = c.cov (kcov P H R) := by
  rw [kcov, kgain_eq' c d hS, kcov]
  simp only [Spec.Coord.jac, Spec.Coord.cov, Matrix.mul_sub, Matrix.sub_mul]
  congr 1
  calc c.T * kgain P H R * d.inv * (d.T * H * c.inv) * (c.T * P * c.Tᵀ)
      = c.T * kgain P H R * (d.inv * d.T) * H * (c.inv * c.T) * P * c.Tᵀ := by
        simp only [Matrix.mul_assoc]
    _ = _ := by
        rw [d.inv_mul, c.inv_mul]; simp only [Matrix.mul_assoc, Matrix.mul_one]

/-- Correction of a mean. -/
theorem mean_eq' {P : Matrix (Fin n) (Fin n) K} {H : Matrix (Fin m) (Fin n) K}
    {R : Matrix (Fin m) (Fin m) K} (hS : (innovCov P H R).det ≠ 0) (x xi : Fin n → K)
    (z h : Fin m → K) :
    kgain (c.cov P) (c.jac d H) (d.cov R) *ᵥ (d.vec z - (d.vec h + c.jac d H *ᵥ (c.vec x - c.vec xi))) +
      c.vec x = c.vec (kgain P H R *ᵥ (z - (h + H *ᵥ (x - xi))) + x) := by
  have e : d.vec z - (d.vec h + c.jac d H *ᵥ (c.vec x - c.vec xi)) =
      d.T *ᵥ (z - (h + H *ᵥ (x - xi))) := by
    have e1 : c.jac d H *ᵥ (c.T *ᵥ (x - xi)) = d.T *ᵥ (H *ᵥ (x - xi)) := by
      simp only [Spec.Coord.jac, Matrix.mulVec_mulVec, Matrix.mul_assoc, c.inv_mul, Matrix.mul_one]
    rw [vec_sub, e1]
    simp only [Spec.Coord.vec, Matrix.mulVec_sub, Matrix.mulVec_add]
    abel
  rw [e, kgain_eq' c d hS, Matrix.mulVec_mulVec, Matrix.mul_assoc, d.inv_mul, Matrix.mul_one]
  simp only [Spec.Coord.vec, Matrix.mulVec_add, Matrix.mulVec_mulVec]
  abel

theorem passes_eq (chk : Option ((Fin n → K) → Bool)) (a b : Fin n → K) :
    KF.passes (chk.map fun ch v => ch (c.inv *ᵥ v)) (c.vec a - c.vec b) = KF.passes chk (a - b) := by
  cases chk with
  | none => rfl
  | some ch =>
    simp only [Option.map_some, KF.passes]
    rw [vec_sub, Matrix.mulVec_mulVec, c.inv_mul, Matrix.one_mulVec]

/-- The loop in new coordinates ends with the same linearisation. -/
theorem iekfLoop_eq (be : Backend) {meas : AnalyticModel K n m U} {s : Option U} {z : Fin m → K}
    {chk : Option ((Fin n → K) → Bool)} {x : Fin n → K} {P : Matrix (Fin n) (Fin n) K} (hP : PSD P)
    (hm : ∀ x, ∃ Z H R, meas.Evaluates s x Z H R ∧ PD R) (k : Nat) :
    ∀ (xi : Fin n → K) buf buf', ∃ xj h H R, meas.Evaluates s xj h H R ∧ PD R ∧
      KF.iekfLoop be meas z s chk x P (k + 1) xi buf = .ok (some (h + H *ᵥ (x - xj), H, R)) ∧
      KF.iekfLoop be (c.model d meas) (d.vec z) s (chk.map fun ch v => ch (c.inv *ᵥ v)) (c.vec x)
          (c.cov P) (k + 1) (c.vec xi) buf' =
        .ok (some (d.vec h + c.jac d H *ᵥ (c.vec x - c.vec xj), c.jac d H, d.cov R)) := by
  have hS' : ∀ {H : Matrix (Fin m) (Fin n) K} {R : Matrix (Fin m) (Fin m) K}, PD R →
      (innovCov (c.cov P) (c.jac d H) (d.cov R)).det ≠ 0 := fun hR =>
    (innovCov_pd (cov_psd c hP) (cov_pd d hR)).det_ne
  induction k with
  | zero =>
    intro xi buf buf'
    obtain ⟨h, H, R, he, hR⟩ := hm xi
    refine ⟨xi, h, H, R, he, hR, ?_, ?_⟩
    · rw [iekfLoop_step he (innovCov_pd hP hR).det_ne, iekfLoop_stop, ite_self]
    · rw [iekfLoop_step (evaluates c d he) (hS' hR), iekfLoop_stop, ite_self]
  | succ k ih =>
    intro xi buf buf'
    obtain ⟨h, H, R, he, hR⟩ := hm xi
    have hS := (innovCov_pd (H := H) hP hR).det_ne
    rw [iekfLoop_step he hS, iekfLoop_step (evaluates c d he) (hS' hR)]
    rw [add_comm (c.vec x), mean_eq' c d hS, passes_eq, add_comm _ x]
    split
    · exact ih _ _ _
    · exact ⟨xi, h, H, R, he, hR, rfl, rfl⟩

theorem measUpdate_eq (be : Backend) {kind : KF.Kind K n} (hk : kind.Runs)
    {meas : AnalyticModel K n m U} {s : Option U} {f : KF K n} {z : Fin m → K}
    (hP : PSD f.sigma) (hm : ∀ x, ∃ Z H R, meas.Evaluates s x Z H R ∧ PD R) :
    ∃ f', f.measUpdate be kind meas z s = .ok f' ∧ PSD f'.sigma ∧
      (c.filter f).measUpdate be (c.kind kind) (c.model d meas) (d.vec z) s = .ok (c.filter f') := by
  have fin : ∀ {xj : Fin n → K} {h : Fin m → K} {H : Matrix (Fin m) (Fin n) K}
      {R : Matrix (Fin m) (Fin m) K}, PD R →
      (c.filter f).calculateMeasUpdate be (d.vec z)
        (d.vec h + c.jac d H *ᵥ (c.vec f.mu - c.vec xj)) (c.jac d H) (d.cov R) =
      .ok (c.filter ⟨kgain f.sigma H R *ᵥ (z - (h + H *ᵥ (f.mu - xj))) + f.mu, kcov f.sigma H R,
        f.timestep⟩) := by
    intro xj h H R hR
    have hS := (innovCov_pd (H := H) hP hR).det_ne
    rw [calc_valid (f := c.filter f) (cov_psd c hP) (cov_pd d hR)]
    show Outcome.ok (KF.mk (kgain (c.cov f.sigma) (c.jac d H) (d.cov R) *ᵥ
      (d.vec z - (d.vec h + c.jac d H *ᵥ (c.vec f.mu - c.vec xj))) + c.vec f.mu) 
      (kcov (c.cov f.sigma) (c.jac d H) (d.cov R)) f.timestep) = _
    rw [mean_eq' c d hS, kcov_eq' c d hS]
    rfl
  cases kind with
  | extended =>
    obtain ⟨Z, H, R, he, hR⟩ := hm f.mu
    refine ⟨_, (ekf_eq he).trans (calc_valid hP hR), kcov_psd (H := H) hP hR,
      (ekf_eq (f := c.filter f) (evaluates c d he)).trans ?_⟩
    · have := fin (xj := f.mu) (h := Z) (H := H) hR
      simp only [sub_self, Matrix.mulVec_zero, add_zero] at this
      exact this
  | iterated nr chk =>
    obtain ⟨k, rfl⟩ : ∃ k, nr = k + 1 := ⟨nr - 1, by simp only [KF.Kind.Runs] at hk; omega⟩
    obtain ⟨xj, h, H, R, he, hR, e1, e2⟩ := iekfLoop_eq c d be (z := z) (chk := chk) (x := f.mu)
      hP hm k f.mu none none
    have e0 := calc_valid (be := be) (z := z) (Z := h + H *ᵥ (f.mu - xj)) (H := H) hP hR
    refine ⟨_, Eq.trans ?_ e0, kcov_psd (H := H) hP hR, ?_⟩
    · simp only [KF.measUpdate, KF.iekfMeasUpdate]
      rw [e1]
      rfl
    · simp only [KF.measUpdate, KF.iekfMeasUpdate, Spec.Coord.kind]
      erw [e2]
      exact fin hR

theorem sysUpdate_eq' (be : Backend) {sys : AnalyticModel K n n U} {u : Option U} {f : KF K n}
    {J : Fin n → K} {F Q : Matrix (Fin n) (Fin n) K} (he : sys.Evaluates u f.mu J F Q)
    (hP : PSD f.sigma) (hQ : PSD Q) :
    ∃ f', f.sysUpdate be sys u = .ok f' ∧ PSD f'.sigma ∧
      (c.filter f).sysUpdate be (c.model c sys) u = .ok (c.filter f') := by
  have hp := (hP.congr F).add hQ
  refine ⟨_, sysUpdate_eq he, ?_, ?_⟩
  · simp only
    rw [be.toSym_of_symm hp.1]
    exact hp
  · rw [sysUpdate_eq (f := c.filter f) (evaluates c c he)]
    show Outcome.ok (KF.mk (c.vec J) (be.toSym (c.jac c F * c.cov f.sigma * (c.jac c F)ᵀ + c.cov Q))
      f.timestep) = _
    rw [predict_cov, be.toSym_of_symm (cov_psd c hp).1]
    simp only [Spec.Coord.filter]
    rw [be.toSym_of_symm hp.1]

end Coord

end BFL
