import Verif.Spec.Unrelated

set_option linter.unusedSectionVars false

/-! Lemmas on two unrelated systems seen as one. -/

namespace BFL

open Matrix Spec

variable {K : Type} [Field K] [LinearOrder K] {n n' m m' l l' : Nat} {U : Type}

theorem fstPart_stackV (x : Fin n → K) (y : Fin n' → K) : fstPart (stackV x y) = x := by
  ext i; simp [fstPart, stackV]

theorem sndPart_stackV (x : Fin n → K) (y : Fin n' → K) : sndPart (stackV x y) = y := by
  ext i; simp [sndPart, stackV]

theorem stackV_zero : stackV (0 : Fin n → K) (0 : Fin n' → K) = 0 := by
  ext i
  refine Fin.addCases (fun i => ?_) (fun i => ?_) i <;> simp [stackV]

theorem diag2_mulVec (A : Matrix (Fin m) (Fin n) K) (B : Matrix (Fin m') (Fin n') K)
    (v : Fin n → K) (w : Fin n' → K) : diag2 A B *ᵥ stackV v w = stackV (A *ᵥ v) (B *ᵥ w) := by
  ext i
  refine Fin.addCases (fun i => ?_) (fun i => ?_) i <;>
    simp [diag2, stackV, mulVec, dotProduct, Fin.sum_univ_add]

theorem diag2_mul (A : Matrix (Fin m) (Fin n) K) (B : Matrix (Fin m') (Fin n') K)
    (C : Matrix (Fin n) (Fin l) K) (D : Matrix (Fin n') (Fin l') K) :
    diag2 A B * diag2 C D = diag2 (A * C) (B * D) := by
  ext i j
  refine Fin.addCases (fun i => ?_) (fun i => ?_) i <;>
    refine Fin.addCases (fun j => ?_) (fun j => ?_) j <;>
    simp [diag2, Matrix.mul_apply, Fin.sum_univ_add]

theorem diag2_transpose (A : Matrix (Fin m) (Fin n) K) (B : Matrix (Fin m') (Fin n') K) :
    (diag2 A B)ᵀ = diag2 Aᵀ Bᵀ := by
  ext i j
  refine Fin.addCases (fun i => ?_) (fun i => ?_) i <;>
    refine Fin.addCases (fun j => ?_) (fun j => ?_) j <;> simp [diag2]

theorem diag2_add (A C : Matrix (Fin m) (Fin n) K) (B D : Matrix (Fin m') (Fin n') K) :
    diag2 A B + diag2 C D = diag2 (A + C) (B + D) := by
  ext i j
  refine Fin.addCases (fun i => ?_) (fun i => ?_) i <;>
    refine Fin.addCases (fun j => ?_) (fun j => ?_) j <;> simp [diag2]

theorem diag2_sub (A C : Matrix (Fin m) (Fin n) K) (B D : Matrix (Fin m') (Fin n') K) :
    diag2 A B - diag2 C D = diag2 (A - C) (B - D) := by
  ext i j
  refine Fin.addCases (fun i => ?_) (fun i => ?_) i <;>
    refine Fin.addCases (fun j => ?_) (fun j => ?_) j <;> simp [diag2]

theorem onFirst_mulVec (A : Matrix (Fin m) (Fin n) K) (v : Fin n → K) (w : Fin n' → K) :
    onFirst A *ᵥ stackV v w = A *ᵥ v := by
  ext i; simp [onFirst, stackV, mulVec, dotProduct, Fin.sum_univ_add]

theorem onSecond_mulVec (A : Matrix (Fin m) (Fin n') K) (v : Fin n → K) (w : Fin n' → K) :
    onSecond A *ᵥ stackV v w = A *ᵥ w := by
  ext i; simp [onSecond, stackV, mulVec, dotProduct, Fin.sum_univ_add]

theorem onFirst_mul (A : Matrix (Fin m) (Fin n) K) (P : Matrix (Fin n) (Fin l) K)
    (Q : Matrix (Fin n') (Fin l') K) : onFirst A * diag2 P Q = onFirst (A * P) := by
  ext i j
  refine Fin.addCases (fun j => ?_) (fun j => ?_) j <;>
    simp [onFirst, diag2, Matrix.mul_apply, Fin.sum_univ_add]

theorem onSecond_mul (A : Matrix (Fin m) (Fin n') K) (P : Matrix (Fin n) (Fin l) K)
    (Q : Matrix (Fin n') (Fin l') K) : onSecond A * diag2 P Q = onSecond (A * Q) := by
  ext i j
  refine Fin.addCases (fun j => ?_) (fun j => ?_) j <;>
    simp [onSecond, diag2, Matrix.mul_apply, Fin.sum_univ_add]

theorem onFirst_cross (A : Matrix (Fin m) (Fin n) K) (B : Matrix (Fin l) (Fin n) K) :
    (onFirst A : Matrix _ (Fin (n + n')) K) * (onFirst B)ᵀ = A * Bᵀ := by
  ext i j; simp [onFirst, Matrix.mul_apply, Fin.sum_univ_add]

theorem onSecond_cross (A : Matrix (Fin m) (Fin n') K) (B : Matrix (Fin l) (Fin n') K) :
    (onSecond A : Matrix _ (Fin (n + n')) K) * (onSecond B)ᵀ = A * Bᵀ := by
  ext i j; simp [onSecond, Matrix.mul_apply, Fin.sum_univ_add]

theorem diag2_mul_onFirst (P : Matrix (Fin l) (Fin n) K) (Q : Matrix (Fin l') (Fin n') K)
    (A : Matrix (Fin m) (Fin n) K) : diag2 P Q * (onFirst A)ᵀ = stackM (P * Aᵀ) 0 := by
  ext i j
  refine Fin.addCases (fun i => ?_) (fun i => ?_) i <;>
    simp [onFirst, diag2, stackM, Matrix.mul_apply, Fin.sum_univ_add]

theorem diag2_mul_onSecond (P : Matrix (Fin l) (Fin n) K) (Q : Matrix (Fin l') (Fin n') K)
    (A : Matrix (Fin m) (Fin n') K) : diag2 P Q * (onSecond A)ᵀ = stackM 0 (Q * Aᵀ) := by
  ext i j
  refine Fin.addCases (fun i => ?_) (fun i => ?_) i <;>
    simp [onSecond, diag2, stackM, Matrix.mul_apply, Fin.sum_univ_add]

theorem stackM_mul (A : Matrix (Fin m) (Fin n) K) (B : Matrix (Fin m') (Fin n) K)
    (C : Matrix (Fin n) (Fin l) K) : stackM A B * C = stackM (A * C) (B * C) := by
  ext i j
  refine Fin.addCases (fun i => ?_) (fun i => ?_) i <;> simp [stackM, Matrix.mul_apply]

theorem stackM_onFirst (A : Matrix (Fin m) (Fin n) K) :
    stackM (onFirst A) 0 = (diag2 A 0 : Matrix (Fin (m + m')) (Fin (n + n')) K) := by
  ext i j
  refine Fin.addCases (fun i => ?_) (fun i => ?_) i <;>
    refine Fin.addCases (fun j => ?_) (fun j => ?_) j <;> simp [diag2, stackM, onFirst]

theorem stackM_onSecond (A : Matrix (Fin m') (Fin n') K) :
    stackM 0 (onSecond A) = (diag2 0 A : Matrix (Fin (m + m')) (Fin (n + n')) K) := by
  ext i j
  refine Fin.addCases (fun i => ?_) (fun i => ?_) i <;>
    refine Fin.addCases (fun j => ?_) (fun j => ?_) j <;> simp [diag2, stackM, onSecond]

/-! ## The Kalman equations -/

section equations

variable {P : Matrix (Fin n) (Fin n) K} {Q : Matrix (Fin n') (Fin n') K}
  {H : Matrix (Fin m) (Fin n) K} {H' : Matrix (Fin m') (Fin n') K}
  {R : Matrix (Fin m) (Fin m) K} {R' : Matrix (Fin m') (Fin m') K}

theorem innovCov_both : innovCov (diag2 P Q) (diag2 H H') (diag2 R R') =
    diag2 (innovCov P H R) (innovCov Q H' R') := by
  simp only [innovCov, diag2_mul, diag2_transpose, diag2_add]

theorem diag2_inv {A : Matrix (Fin m) (Fin m) K} {B : Matrix (Fin m') (Fin m') K}
    (hA : A.det ≠ 0) (hB : B.det ≠ 0) : (diag2 A B)⁻¹ = diag2 A⁻¹ B⁻¹ := independent_inv hA hB

theorem kgain_both (hS : (innovCov P H R).det ≠ 0) (hS' : (innovCov Q H' R').det ≠ 0) :
    kgain (diag2 P Q) (diag2 H H') (diag2 R R') = diag2 (kgain P H R) (kgain Q H' R') := by
  rw [kgain, innovCov_both, diag2_inv hS hS', diag2_transpose, diag2_mul, diag2_mul]

theorem kcov_both (hS : (innovCov P H R).det ≠ 0) (hS' : (innovCov Q H' R').det ≠ 0) :
    kcov (diag2 P Q) (diag2 H H') (diag2 R R') = diag2 (kcov P H R) (kcov Q H' R') := by
  rw [kcov, kgain_both hS hS', diag2_mul, diag2_mul, diag2_sub]

theorem innovCov_first : innovCov (diag2 P Q) (onFirst H) R = innovCov P H R := by
  simp only [innovCov, onFirst_mul, onFirst_cross]

theorem innovCov_second : innovCov (diag2 P Q) (onSecond H') R' = innovCov Q H' R' := by
  simp only [innovCov, onSecond_mul, onSecond_cross]

theorem kgain_first : kgain (diag2 P Q) (onFirst H) R = stackM (kgain P H R) 0 := by
  rw [kgain, innovCov_first, diag2_mul_onFirst, stackM_mul, Matrix.zero_mul]

theorem kgain_second : kgain (diag2 P Q) (onSecond H') R' = stackM 0 (kgain Q H' R') := by
  rw [kgain, innovCov_second, diag2_mul_onSecond, stackM_mul, Matrix.zero_mul]

theorem kcov_first : kcov (diag2 P Q) (onFirst H) R = diag2 (kcov P H R) Q := by
  rw [kcov, kgain_first, stackM_mul, Matrix.zero_mul]
  have e : kgain P H R * (onFirst H : Matrix (Fin m) (Fin (n + n')) K) =
      onFirst (kgain P H R * H) := by
    ext i j
    refine Fin.addCases (fun j => ?_) (fun j => ?_) j <;> simp [onFirst, Matrix.mul_apply]
  rw [e, stackM_onFirst, diag2_mul, Matrix.zero_mul, diag2_sub, sub_zero]

theorem kcov_second : kcov (diag2 P Q) (onSecond H') R' = diag2 P (kcov Q H' R') := by
  rw [kcov, kgain_second, stackM_mul, Matrix.zero_mul]
  have e : kgain Q H' R' * (onSecond H' : Matrix (Fin m') (Fin (n + n')) K) =
      onSecond (kgain Q H' R' * H') := by
    ext i j
    refine Fin.addCases (fun j => ?_) (fun j => ?_) j <;> simp [onSecond, Matrix.mul_apply]
  rw [e, stackM_onSecond, diag2_mul, Matrix.zero_mul, diag2_sub, sub_zero]

end equations

variable [IsStrictOrderedRing K]

theorem diag2_psd {P : Matrix (Fin n) (Fin n) K} {Q : Matrix (Fin n') (Fin n') K} (hP : PSD P)
    (hQ : PSD Q) : PSD (diag2 P Q) := by
  refine ⟨by rw [diag2_transpose, hP.1, hQ.1], fun x => ?_⟩
  have hx : x = stackV (fstPart x) (sndPart x) := by
    ext i
    refine Fin.addCases (fun i => ?_) (fun i => ?_) i <;> simp [stackV, fstPart, sndPart]
  rw [hx, diag2_mulVec]
  have h1 := hP.2 (fstPart x)
  have h2 := hQ.2 (sndPart x)
  have e : stackV (fstPart x) (sndPart x) ⬝ᵥ stackV (P *ᵥ fstPart x) (Q *ᵥ sndPart x) =
      fstPart x ⬝ᵥ P *ᵥ fstPart x + sndPart x ⬝ᵥ Q *ᵥ sndPart x := by
    simp [dotProduct, Fin.sum_univ_add, stackV]
  rw [e]
  exact add_nonneg h1 h2

theorem diag2_pd {P : Matrix (Fin n) (Fin n) K} {Q : Matrix (Fin n') (Fin n') K} (hP : PD P)
    (hQ : PD Q) : PD (diag2 P Q) := Spec.PD.independent hP hQ

/-! ## Models -/

theorem evaluates_both {mo : AnalyticModel K n m U} {mo' : AnalyticModel K n' m' U} {s : Option U}
    {x : Fin n → K} {y : Fin n' → K} {Z H R Z' H' R'} (h : mo.Evaluates s x Z H R)
    (h' : mo'.Evaluates s y Z' H' R') :
    (bothModels mo mo').Evaluates s (stackV x y) (stackV Z Z') (diag2 H H') (diag2 R R') := by
  obtain ⟨h1, h2, h3⟩ := h
  obtain ⟨h1', h2', h3'⟩ := h'
  cases mo <;> cases mo' <;> cases s <;>
    simp only [AnalyticModel.predictionGet, AnalyticModel.dfGet, AnalyticModel.covGet,
      Outcome.ok.injEq, reduceCtorEq] at h1 h2 h3 h1' h2' h3' <;>
    subst h1 h2 h3 h1' h2' h3' <;>
    refine ⟨?_, ?_, ?_⟩ <;>
    simp only [bothModels, AnalyticModel.predictionGet, AnalyticModel.dfGet, AnalyticModel.covGet,
      fstPart_stackV, sndPart_stackV]

theorem evaluates_first {mo : AnalyticModel K n m U} {s : Option U} {x : Fin n → K}
    {y : Fin n' → K} {Z H R} (h : mo.Evaluates s x Z H R) :
    (firstModel mo).Evaluates s (stackV x y) Z (onFirst H) R := by
  obtain ⟨h1, h2, h3⟩ := h
  cases mo <;> cases s <;>
    simp only [AnalyticModel.predictionGet, AnalyticModel.dfGet, AnalyticModel.covGet,
      Outcome.ok.injEq, reduceCtorEq] at h1 h2 h3 <;>
    subst h1 h2 h3 <;>
    refine ⟨?_, ?_, ?_⟩ <;>
    simp only [firstModel, AnalyticModel.predictionGet, AnalyticModel.dfGet, AnalyticModel.covGet,
      fstPart_stackV]

theorem evaluates_second {mo : AnalyticModel K n' m U} {s : Option U} {x : Fin n → K}
    {y : Fin n' → K} {Z H R} (h : mo.Evaluates s y Z H R) :
    (secondModel mo).Evaluates s (stackV x y) Z (onSecond H) R := by
  obtain ⟨h1, h2, h3⟩ := h
  cases mo <;> cases s <;>
    simp only [AnalyticModel.predictionGet, AnalyticModel.dfGet, AnalyticModel.covGet,
      Outcome.ok.injEq, reduceCtorEq] at h1 h2 h3 <;>
    subst h1 h2 h3 <;>
    refine ⟨?_, ?_, ?_⟩ <;>
    simp only [secondModel, AnalyticModel.predictionGet, AnalyticModel.dfGet,
      AnalyticModel.covGet, sndPart_stackV]

/-! ## Updates -/

theorem sysUpdate_both (be : Backend) {sys : AnalyticModel K n n U} {sys' : AnalyticModel K n' n' U}
    {u : Option U} {f : KF K n} {f' : KF K n'} {J F Q J' F' Q'} (he : sys.Evaluates u f.mu J F Q)
    (he' : sys'.Evaluates u f'.mu J' F' Q') (hP : PSD f.sigma) (hP' : PSD f'.sigma) (hQ : PSD Q)
    (hQ' : PSD Q') :
    ∃ g g', f.sysUpdate be sys u = .ok g ∧ f'.sysUpdate be sys' u = .ok g' ∧ PSD g.sigma ∧
      PSD g'.sigma ∧
      (bothFilters f f').sysUpdate be (bothModels sys sys') u = .ok (bothFilters g g') := by
  have hp := (hP.congr F).add hQ
  have hp' := (hP'.congr F').add hQ'
  refine ⟨_, _, sysUpdate_eq he, sysUpdate_eq he', ?_, ?_, ?_⟩
  · simp only
    rw [be.toSym_of_symm hp.1]
    exact hp
  · simp only
    rw [be.toSym_of_symm hp'.1]
    exact hp'
  · rw [sysUpdate_eq (f := bothFilters f f') (evaluates_both he he')]
    simp only [bothFilters]
    rw [diag2_mul, diag2_transpose, diag2_mul, diag2_add, be.toSym_of_symm hp.1,
      be.toSym_of_symm hp'.1, be.toSym_of_symm (diag2_psd hp hp').1]

theorem mean_first {P : Matrix (Fin n) (Fin n) K} {Q : Matrix (Fin n') (Fin n') K}
    {H : Matrix (Fin m) (Fin n) K} {R : Matrix (Fin m) (Fin m) K} (x xi : Fin n → K)
    (y : Fin n' → K) (z h : Fin m → K) :
    kgain (diag2 P Q) (onFirst H) R *ᵥ (z - (h + onFirst H *ᵥ (stackV x y - stackV xi y))) +
      stackV x y = stackV (kgain P H R *ᵥ (z - (h + H *ᵥ (x - xi))) + x) y := by
  rw [kgain_first, stackV_sub, onFirst_mulVec, stackM_mulVec, zero_mulVec, stackV_add, zero_add]

theorem mean_second {P : Matrix (Fin n) (Fin n) K} {Q : Matrix (Fin n') (Fin n') K}
    {H : Matrix (Fin m) (Fin n') K} {R : Matrix (Fin m) (Fin m) K} (x : Fin n → K)
    (y yi : Fin n' → K) (z h : Fin m → K) :
    kgain (diag2 P Q) (onSecond H) R *ᵥ (z - (h + onSecond H *ᵥ (stackV x y - stackV x yi))) +
      stackV x y = stackV x (kgain Q H R *ᵥ (z - (h + H *ᵥ (y - yi))) + y) := by
  rw [kgain_second, stackV_sub, onSecond_mulVec, stackM_mulVec, zero_mulVec, stackV_add, zero_add]

theorem mean_both {P : Matrix (Fin n) (Fin n) K} {Q : Matrix (Fin n') (Fin n') K}
    {H : Matrix (Fin m) (Fin n) K} {H' : Matrix (Fin m') (Fin n') K}
    {R : Matrix (Fin m) (Fin m) K} {R' : Matrix (Fin m') (Fin m') K}
    (hS : (innovCov P H R).det ≠ 0) (hS' : (innovCov Q H' R').det ≠ 0) (x xi : Fin n → K)
    (y yi : Fin n' → K) (z h : Fin m → K) (z' h' : Fin m' → K) :
    kgain (diag2 P Q) (diag2 H H') (diag2 R R') *ᵥ (stackV z z' -
        (stackV h h' + diag2 H H' *ᵥ (stackV x y - stackV xi yi))) + stackV x y =
      stackV (kgain P H R *ᵥ (z - (h + H *ᵥ (x - xi))) + x)
        (kgain Q H' R' *ᵥ (z' - (h' + H' *ᵥ (y - yi))) + y) := by
  rw [kgain_both hS hS', stackV_sub, diag2_mulVec, stackV_add, stackV_sub, diag2_mulVec, stackV_add]

/-- The loop for a measurement of the first system. -/
theorem iekfLoop_first (be : Backend) {meas : AnalyticModel K n m U} {s : Option U} {z : Fin m → K}
    {chk : Option ((Fin n → K) → Bool)} {chk2 : Option ((Fin (n + n') → K) → Bool)}
    (hchk : ∀ d, KF.passes chk2 (stackV d 0) = KF.passes chk d) {x : Fin n → K} (y : Fin n' → K)
    {P : Matrix (Fin n) (Fin n) K} (Q : Matrix (Fin n') (Fin n') K) (hP : PSD P)
    (hm : ∀ x, ∃ Z H R, meas.Evaluates s x Z H R ∧ PD R) (k : Nat) :
    ∀ (xi : Fin n → K) buf buf', ∃ xj h H R, meas.Evaluates s xj h H R ∧ PD R ∧
      KF.iekfLoop be meas z s chk x P (k + 1) xi buf = .ok (some (h + H *ᵥ (x - xj), H, R)) ∧
      KF.iekfLoop be (firstModel meas) z s chk2 (stackV x y) (diag2 P Q) (k + 1) (stackV xi y) buf'
        = .ok (some (h + onFirst H *ᵥ (stackV x y - stackV xj y), onFirst H, R)) := by
  have hS' : ∀ {H : Matrix (Fin m) (Fin n) K} {R : Matrix (Fin m) (Fin m) K}, PD R →
      (innovCov (diag2 P Q) (onFirst H) R).det ≠ 0 := fun hR => by
    rw [innovCov_first]; exact (innovCov_pd hP hR).det_ne
  induction k with
  | zero =>
    intro xi buf buf'
    obtain ⟨h, H, R, he, hR⟩ := hm xi
    refine ⟨xi, h, H, R, he, hR, ?_, ?_⟩
    · rw [iekfLoop_step he (innovCov_pd hP hR).det_ne, iekfLoop_stop, ite_self]
    · rw [iekfLoop_step (evaluates_first he) (hS' hR), iekfLoop_stop, ite_self]
  | succ k ih =>
    intro xi buf buf'
    obtain ⟨h, H, R, he, hR⟩ := hm xi
    rw [iekfLoop_step he (innovCov_pd (H := H) hP hR).det_ne,
      iekfLoop_step (evaluates_first he) (hS' hR)]
    rw [add_comm (stackV x y), mean_first, stackV_sub, sub_self, hchk, add_comm _ x]
    split
    · exact ih _ _ _
    · exact ⟨xi, h, H, R, he, hR, rfl, rfl⟩

theorem iekfLoop_second (be : Backend) {meas : AnalyticModel K n' m U} {s : Option U}
    {z : Fin m → K} {chk : Option ((Fin n' → K) → Bool)}
    {chk2 : Option ((Fin (n + n') → K) → Bool)}
    (hchk : ∀ d, KF.passes chk2 (stackV 0 d) = KF.passes chk d) (x : Fin n → K) {y : Fin n' → K}
    (P : Matrix (Fin n) (Fin n) K) {Q : Matrix (Fin n') (Fin n') K} (hQ : PSD Q)
    (hm : ∀ x, ∃ Z H R, meas.Evaluates s x Z H R ∧ PD R) (k : Nat) :
    ∀ (yi : Fin n' → K) buf buf', ∃ yj h H R, meas.Evaluates s yj h H R ∧ PD R ∧
      KF.iekfLoop be meas z s chk y Q (k + 1) yi buf = .ok (some (h + H *ᵥ (y - yj), H, R)) ∧
      KF.iekfLoop be (secondModel meas) z s chk2 (stackV x y) (diag2 P Q) (k + 1) (stackV x yi) buf'
        = .ok (some (h + onSecond H *ᵥ (stackV x y - stackV x yj), onSecond H, R)) := by
  have hS' : ∀ {H : Matrix (Fin m) (Fin n') K} {R : Matrix (Fin m) (Fin m) K}, PD R →
      (innovCov (diag2 P Q) (onSecond H) R).det ≠ 0 := fun hR => by
    rw [innovCov_second]; exact (innovCov_pd hQ hR).det_ne
  induction k with
  | zero =>
    intro yi buf buf'
    obtain ⟨h, H, R, he, hR⟩ := hm yi
    refine ⟨yi, h, H, R, he, hR, ?_, ?_⟩
    · rw [iekfLoop_step he (innovCov_pd hQ hR).det_ne, iekfLoop_stop, ite_self]
    · rw [iekfLoop_step (evaluates_second he) (hS' hR), iekfLoop_stop, ite_self]
  | succ k ih =>
    intro yi buf buf'
    obtain ⟨h, H, R, he, hR⟩ := hm yi
    rw [iekfLoop_step he (innovCov_pd (H := H) hQ hR).det_ne,
      iekfLoop_step (evaluates_second he) (hS' hR)]
    rw [add_comm (stackV x y), mean_second, stackV_sub, sub_self, hchk, add_comm _ y]
    split
    · exact ih _ _ _
    · exact ⟨yi, h, H, R, he, hR, rfl, rfl⟩

/-- The loop for a measurement of both systems, without a check. -/
theorem iekfLoop_both (be : Backend) {meas : AnalyticModel K n m U}
    {meas' : AnalyticModel K n' m' U} {s : Option U} {z : Fin m → K} {z' : Fin m' → K}
    {x : Fin n → K} {y : Fin n' → K} {P : Matrix (Fin n) (Fin n) K}
    {Q : Matrix (Fin n') (Fin n') K} (hP : PSD P) (hQ : PSD Q)
    (hm : ∀ x, ∃ Z H R, meas.Evaluates s x Z H R ∧ PD R)
    (hm' : ∀ x, ∃ Z H R, meas'.Evaluates s x Z H R ∧ PD R) (k : Nat) :
    ∀ (xi : Fin n → K) (yi : Fin n' → K) buf buf' buf2, ∃ xj h H R yj h' H' R',
      meas.Evaluates s xj h H R ∧ PD R ∧ meas'.Evaluates s yj h' H' R' ∧ PD R' ∧
      KF.iekfLoop be meas z s none x P (k + 1) xi buf = .ok (some (h + H *ᵥ (x - xj), H, R)) ∧
      KF.iekfLoop be meas' z' s none y Q (k + 1) yi buf' =
        .ok (some (h' + H' *ᵥ (y - yj), H', R')) ∧
      KF.iekfLoop be (bothModels meas meas') (stackV z z') s none (stackV x y) (diag2 P Q) (k + 1)
          (stackV xi yi) buf2 =
        .ok (some (stackV h h' + diag2 H H' *ᵥ (stackV x y - stackV xj yj), diag2 H H',
          diag2 R R')) := by
  have hS : ∀ {H : Matrix (Fin m) (Fin n) K} {R : Matrix (Fin m) (Fin m) K}
      {H' : Matrix (Fin m') (Fin n') K} {R' : Matrix (Fin m') (Fin m') K}, PD R → PD R' →
      (innovCov (diag2 P Q) (diag2 H H') (diag2 R R')).det ≠ 0 := fun hR hR' =>
    (innovCov_pd (diag2_psd hP hQ) (diag2_pd hR hR')).det_ne
  induction k with
  | zero =>
    intro xi yi buf buf' buf2
    obtain ⟨h, H, R, he, hR⟩ := hm xi
    obtain ⟨h', H', R', he', hR'⟩ := hm' yi
    refine ⟨xi, h, H, R, yi, h', H', R', he, hR, he', hR', ?_, ?_, ?_⟩
    · rw [iekfLoop_step he (innovCov_pd hP hR).det_ne, iekfLoop_stop, ite_self]
    · rw [iekfLoop_step he' (innovCov_pd hQ hR').det_ne, iekfLoop_stop, ite_self]
    · rw [iekfLoop_step (evaluates_both he he') (hS hR hR'), iekfLoop_stop, ite_self]
  | succ k ih =>
    intro xi yi buf buf' buf2
    obtain ⟨h, H, R, he, hR⟩ := hm xi
    obtain ⟨h', H', R', he', hR'⟩ := hm' yi
    have h1 := (innovCov_pd (H := H) hP hR).det_ne
    have h2 := (innovCov_pd (H := H') hQ hR').det_ne
    rw [iekfLoop_step he h1, iekfLoop_step he' h2, iekfLoop_step (evaluates_both he he') (hS hR hR')]
    simp only [KF.passes, if_true]
    rw [add_comm (stackV x y), mean_both h1 h2, add_comm _ x, add_comm _ y]
    exact ih _ _ _ _ _

/-- The filter for the pair treats a measurement of the first system as that system's own filter
does. -/
def FirstKind : KF.Kind K (n + n') → KF.Kind K n → Prop
  | .extended, .extended => True
  | .iterated a c, .iterated b d => 1 ≤ a ∧ a = b ∧ ∀ v, KF.passes c (stackV v 0) = KF.passes d v
  | _, _ => False

def SecondKind : KF.Kind K (n + n') → KF.Kind K n' → Prop
  | .extended, .extended => True
  | .iterated a c, .iterated b d => 1 ≤ a ∧ a = b ∧ ∀ v, KF.passes c (stackV 0 v) = KF.passes d v
  | _, _ => False

/-- The same kind of filter, without a check. -/
def BothKind : KF.Kind K (n + n') → KF.Kind K n → KF.Kind K n' → Prop
  | .extended, .extended, .extended => True
  | .iterated a c, .iterated b d, .iterated e g => 1 ≤ a ∧ a = b ∧ a = e ∧ c = none ∧ d = none ∧
      g = none
  | _, _, _ => False

theorem measUpdate_first (be : Backend) {kind : KF.Kind K (n + n')} {k1 : KF.Kind K n}
    (hk : FirstKind kind k1) {meas : AnalyticModel K n m U} {s : Option U} {f : KF K n}
    {f' : KF K n'} {z : Fin m → K} (hP : PSD f.sigma) (hP' : PSD f'.sigma)
    (hm : ∀ x, ∃ Z H R, meas.Evaluates s x Z H R ∧ PD R) :
    ∃ g, f.measUpdate be k1 meas z s = .ok g ∧ PSD g.sigma ∧
      (bothFilters f f').measUpdate be kind (firstModel meas) z s = .ok (bothFilters g f') := by
  have fin : ∀ {xj : Fin n → K} {h : Fin m → K} {H : Matrix (Fin m) (Fin n) K}
      {R : Matrix (Fin m) (Fin m) K}, PD R →
      (bothFilters f f').calculateMeasUpdate be z
        (h + onFirst H *ᵥ (stackV f.mu f'.mu - stackV xj f'.mu)) (onFirst H) R =
      .ok (bothFilters ⟨kgain f.sigma H R *ᵥ (z - (h + H *ᵥ (f.mu - xj))) + f.mu,
        kcov f.sigma H R, f.timestep⟩ f') := by
    intro xj h H R hR
    rw [calc_valid (f := bothFilters f f') (diag2_psd hP hP') hR]
    simp only [bothFilters]
    rw [mean_first, kcov_first]
  cases kind with
  | extended =>
    cases k1 with
    | iterated _ _ => exact hk.elim
    | extended =>
      obtain ⟨Z, H, R, he, hR⟩ := hm f.mu
      refine ⟨_, (ekf_eq he).trans (calc_valid hP hR), kcov_psd (H := H) hP hR,
        (ekf_eq (f := bothFilters f f') (evaluates_first he)).trans ?_⟩
      have := fin (xj := f.mu) (h := Z) (H := H) hR
      simp only [sub_self, Matrix.mulVec_zero, add_zero] at this
      exact this
  | iterated nr chk =>
    cases k1 with
    | extended => exact hk.elim
    | iterated nr' chk' =>
      obtain ⟨h1, rfl, hc⟩ := hk
      obtain ⟨k, rfl⟩ : ∃ k, nr = k + 1 := ⟨nr - 1, by omega⟩
      obtain ⟨xj, h, H, R, he, hR, e1, e2⟩ := iekfLoop_first be (z := z) hc (x := f.mu) f'.mu
        f'.sigma hP hm k f.mu none none
      have e0 := calc_valid (be := be) (z := z) (Z := h + H *ᵥ (f.mu - xj)) (H := H) hP hR
      refine ⟨_, Eq.trans ?_ e0, kcov_psd (H := H) hP hR, ?_⟩
      · simp only [KF.measUpdate, KF.iekfMeasUpdate]
        rw [e1]
        rfl
      · simp only [KF.measUpdate, KF.iekfMeasUpdate]
        erw [e2]
        exact fin hR

theorem measUpdate_second (be : Backend) {kind : KF.Kind K (n + n')} {k2 : KF.Kind K n'}
    (hk : SecondKind kind k2) {meas : AnalyticModel K n' m U} {s : Option U} {f : KF K n}
    {f' : KF K n'} {z : Fin m → K} (hP : PSD f.sigma) (hP' : PSD f'.sigma)
    (hm : ∀ x, ∃ Z H R, meas.Evaluates s x Z H R ∧ PD R) :
    ∃ g', f'.measUpdate be k2 meas z s = .ok g' ∧ PSD g'.sigma ∧
      (bothFilters f f').measUpdate be kind (secondModel meas) z s = .ok (bothFilters f g') := by
  have fin : ∀ {xj : Fin n' → K} {h : Fin m → K} {H : Matrix (Fin m) (Fin n') K}
      {R : Matrix (Fin m) (Fin m) K}, PD R →
      (bothFilters f f').calculateMeasUpdate be z
        (h + onSecond H *ᵥ (stackV f.mu f'.mu - stackV f.mu xj)) (onSecond H) R =
      .ok (bothFilters f ⟨kgain f'.sigma H R *ᵥ (z - (h + H *ᵥ (f'.mu - xj))) + f'.mu,
        kcov f'.sigma H R, f'.timestep⟩) := by
    intro xj h H R hR
    rw [calc_valid (f := bothFilters f f') (diag2_psd hP hP') hR]
    simp only [bothFilters]
    rw [mean_second, kcov_second]
  cases kind with
  | extended =>
    cases k2 with
    | iterated _ _ => exact hk.elim
    | extended =>
      obtain ⟨Z, H, R, he, hR⟩ := hm f'.mu
      refine ⟨_, (ekf_eq he).trans (calc_valid hP' hR), kcov_psd (H := H) hP' hR,
        (ekf_eq (f := bothFilters f f') (evaluates_second he)).trans ?_⟩
      have := fin (xj := f'.mu) (h := Z) (H := H) hR
      simp only [sub_self, Matrix.mulVec_zero, add_zero] at this
      exact this
  | iterated nr chk =>
    cases k2 with
    | extended => exact hk.elim
    | iterated nr' chk' =>
      obtain ⟨h1, rfl, hc⟩ := hk
      obtain ⟨k, rfl⟩ : ∃ k, nr = k + 1 := ⟨nr - 1, by omega⟩
      obtain ⟨xj, h, H, R, he, hR, e1, e2⟩ := iekfLoop_second be (z := z) hc f.mu (y := f'.mu)
        f.sigma hP' hm k f'.mu none none
      have e0 := calc_valid (be := be) (z := z) (Z := h + H *ᵥ (f'.mu - xj)) (H := H) hP' hR
      refine ⟨_, Eq.trans ?_ e0, kcov_psd (H := H) hP' hR, ?_⟩
      · simp only [KF.measUpdate, KF.iekfMeasUpdate]
        rw [e1]
        rfl
      · simp only [KF.measUpdate, KF.iekfMeasUpdate]
        erw [e2]
        exact fin hR

theorem measUpdate_both (be : Backend) {kind : KF.Kind K (n + n')} {k1 : KF.Kind K n}
    {k2 : KF.Kind K n'} (hk : BothKind kind k1 k2) {meas : AnalyticModel K n m U}
    {meas' : AnalyticModel K n' m' U} {s : Option U} {f : KF K n}
    {f' : KF K n'} {z : Fin m → K} {z' : Fin m' → K} (hP : PSD f.sigma) (hP' : PSD f'.sigma)
    (hm : ∀ x, ∃ Z H R, meas.Evaluates s x Z H R ∧ PD R)
    (hm' : ∀ x, ∃ Z H R, meas'.Evaluates s x Z H R ∧ PD R) :
    ∃ g g', f.measUpdate be k1 meas z s = .ok g ∧ f'.measUpdate be k2 meas' z' s = .ok g' ∧
      PSD g.sigma ∧ PSD g'.sigma ∧
      (bothFilters f f').measUpdate be kind (bothModels meas meas') (stackV z z') s =
        .ok (bothFilters g g') := by
  have fin : ∀ {xj : Fin n → K} {h : Fin m → K} {H : Matrix (Fin m) (Fin n) K}
      {R : Matrix (Fin m) (Fin m) K} {yj : Fin n' → K} {h' : Fin m' → K}
      {H' : Matrix (Fin m') (Fin n') K} {R' : Matrix (Fin m') (Fin m') K}, PD R → PD R' →
      (bothFilters f f').calculateMeasUpdate be (stackV z z')
        (stackV h h' + diag2 H H' *ᵥ (stackV f.mu f'.mu - stackV xj yj)) (diag2 H H') (diag2 R R') =
      .ok (bothFilters ⟨kgain f.sigma H R *ᵥ (z - (h + H *ᵥ (f.mu - xj))) + f.mu,
        kcov f.sigma H R, f.timestep⟩ ⟨kgain f'.sigma H' R' *ᵥ (z' - (h' + H' *ᵥ (f'.mu - yj))) +
          f'.mu, kcov f'.sigma H' R', f'.timestep⟩) := by
    intro xj h H R yj h' H' R' hR hR'
    rw [calc_valid (f := bothFilters f f') (diag2_psd hP hP') (diag2_pd hR hR')]
    simp only [bothFilters]
    have h1 := (innovCov_pd (H := H) hP hR).det_ne
    have h2 := (innovCov_pd (H := H') hP' hR').det_ne
    rw [mean_both h1 h2, kcov_both h1 h2]
  cases kind with
  | extended =>
    cases k1 with
    | iterated _ _ => cases k2 <;> exact hk.elim
    | extended =>
      cases k2 with
      | iterated _ _ => exact hk.elim
      | extended =>
        obtain ⟨Z, H, R, he, hR⟩ := hm f.mu
        obtain ⟨Z', H', R', he', hR'⟩ := hm' f'.mu
        refine ⟨_, _, (ekf_eq he).trans (calc_valid hP hR), (ekf_eq he').trans (calc_valid hP' hR'),
          kcov_psd (H := H) hP hR, kcov_psd (H := H') hP' hR',
          (ekf_eq (f := bothFilters f f') (evaluates_both he he')).trans ?_⟩
        have := fin (xj := f.mu) (h := Z) (H := H) (yj := f'.mu) (h' := Z') (H' := H') hR hR'
        simp only [sub_self, Matrix.mulVec_zero, add_zero] at this
        exact this
  | iterated nr chk =>
    cases k1 with
    | extended => cases k2 <;> exact hk.elim
    | iterated nr' chk' =>
      cases k2 with
      | extended => exact hk.elim
      | iterated nr2 chk2 =>
        obtain ⟨h1, rfl, rfl, rfl, rfl, rfl⟩ := hk
        obtain ⟨k, rfl⟩ : ∃ k, nr = k + 1 := ⟨nr - 1, by omega⟩
        obtain ⟨xj, h, H, R, yj, h', H', R', he, hR, he', hR', e1, e2, e3⟩ := iekfLoop_both be
          (z := z) (z' := z') (x := f.mu) (y := f'.mu) hP hP' hm hm' k f.mu f'.mu none none none
        have e0 := calc_valid (be := be) (z := z) (Z := h + H *ᵥ (f.mu - xj)) (H := H) hP hR
        have e0' := calc_valid (be := be) (z := z') (Z := h' + H' *ᵥ (f'.mu - yj)) (H := H') hP' hR'
        refine ⟨_, _, Eq.trans ?_ e0, Eq.trans ?_ e0', kcov_psd (H := H) hP hR,
          kcov_psd (H := H') hP' hR', ?_⟩
        · simp only [KF.measUpdate, KF.iekfMeasUpdate]
          rw [e1]
          rfl
        · simp only [KF.measUpdate, KF.iekfMeasUpdate]
          rw [e2]
          rfl
        · simp only [KF.measUpdate, KF.iekfMeasUpdate]
          erw [e3]
          exact fin hR hR'

end BFL
