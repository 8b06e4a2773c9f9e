import Verif.Spec.KalmanOrder
import Verif.Lemmas.LinearWorld

set_option linter.unusedSectionVars false

/-! The order of covariances under prediction and correction. -/

namespace BFL

open Matrix Spec MeasureTheory

section order

variable {K : Type} [Field K] [LinearOrder K] [IsStrictOrderedRing K] {n m : Nat} {U : Type}

namespace Spec.AtMost

theorem refl (A : Matrix (Fin n) (Fin n) K) : AtMost A A := by
  refine ⟨by simp, fun x => by simp⟩

theorem trans {A B C : Matrix (Fin n) (Fin n) K} (h : AtMost A B) (h' : AtMost B C) : AtMost A C := by
  have := h.add h'
  rwa [show B - A + (C - B) = C - A by abel] at this

theorem antisymm {A B : Matrix (Fin n) (Fin n) K} (h : AtMost A B) (h' : AtMost B A) : A = B := by
  have hz : ∀ x : Fin n → K, x ⬝ᵥ ((B - A) *ᵥ x) = 0 := by
    intro x
    have h1 := h.2 x
    have h2 := h'.2 x
    have e : A - B = -(B - A) := by abel
    rw [e, neg_mulVec, dotProduct_neg] at h2
    linarith
  have hs : (B - A)ᵀ = B - A := h.1
  obtain ⟨D, hD⟩ : ∃ D, D = B - A := ⟨_, rfl⟩
  rw [← hD] at hz hs
  have : D = 0 := by
    ext i j
    have q : ∀ x y : Fin n → K, x ⬝ᵥ (D *ᵥ y) = 0 := by
      intro x y
      have h1 := hz (x + y)
      have hxy : y ⬝ᵥ (D *ᵥ x) = x ⬝ᵥ (D *ᵥ y) := by
        rw [quad_transpose, hs, dotProduct_comm]
      rw [mulVec_add, dotProduct_add, add_dotProduct, add_dotProduct, hz x, hz y, hxy] at h1
      linarith
    have := q (Pi.single i 1) (Pi.single j 1)
    simpa using this
  rw [this] at hD
  exact (sub_eq_zero.mp hD.symm).symm

theorem psd_right {A B : Matrix (Fin n) (Fin n) K} (h : AtMost A B) (hA : PSD A) : PSD B := by
  have := hA.add h
  rwa [show A + (B - A) = B by abel] at this

theorem pd_right {A B : Matrix (Fin n) (Fin n) K} (h : AtMost A B) (hA : PD A) : PD B := by
  have := Spec.PSD.add_pd h hA
  rwa [show B - A + A = B by abel] at this

theorem congr {A B : Matrix (Fin n) (Fin n) K} (h : AtMost A B) (F : Matrix (Fin m) (Fin n) K) :
    AtMost (F * A * Fᵀ) (F * B * Fᵀ) := by
  have := Spec.PSD.congr h F
  rwa [Matrix.mul_sub, Matrix.sub_mul] at this

theorem add {A B C D : Matrix (Fin n) (Fin n) K} (h : AtMost A B) (h' : AtMost C D) :
    AtMost (A + C) (B + D) := by
  have := Spec.PSD.add h h'
  rwa [show B - A + (D - C) = B + D - (A + C) by abel] at this

end Spec.AtMost

/-- Joseph form for any gain. -/
abbrev joseph (P : Matrix (Fin n) (Fin n) K) (H : Matrix (Fin m) (Fin n) K)
    (R : Matrix (Fin m) (Fin m) K) (G : Matrix (Fin n) (Fin m) K) : Matrix (Fin n) (Fin n) K :=
  (1 - G * H) * P * (1 - G * H)ᵀ + G * R * Gᵀ

theorem joseph_eq {P : Matrix (Fin n) (Fin n) K} {H : Matrix (Fin m) (Fin n) K}
    {R : Matrix (Fin m) (Fin m) K} (hP : Pᵀ = P) (hR : Rᵀ = R) (hS : (innovCov P H R).det ≠ 0)
    (G : Matrix (Fin n) (Fin m) K) :
    joseph P H R G = kcov P H R
      + (G - kgain P H R) * innovCov P H R * (G - kgain P H R)ᵀ := by
  have h := kgain_mul (P := P) (H := H) (R := R) hS
  have hs := innovCov_symm (H := H) hP hR
  rw [kcov]
  generalize kgain P H R = L at *
  have h' : innovCov P H R * Lᵀ = H * P := by
    have := congrArg transpose h
    rwa [transpose_mul, hs, transpose_mul, transpose_transpose, hP] at this
  have e : (G - L) * innovCov P H R * (G - L)ᵀ
      = G * innovCov P H R * Gᵀ - P * Hᵀ * Gᵀ - (G * (H * P) - L * (H * P)) := by
    have h2 : (G - L) * innovCov P H R * Lᵀ = G * (H * P) - L * (H * P) := by
      rw [Matrix.mul_assoc, h', Matrix.sub_mul]
    rw [transpose_sub, Matrix.mul_sub, h2, Matrix.sub_mul, Matrix.sub_mul, h]
  rw [e, joseph, innovCov]
  simp only [transpose_sub, transpose_one, transpose_mul, Matrix.sub_mul, Matrix.mul_sub,
    Matrix.one_mul, Matrix.mul_one, Matrix.mul_add, Matrix.add_mul, Matrix.mul_assoc]
  abel

theorem kcov_le_joseph {P : Matrix (Fin n) (Fin n) K} {H : Matrix (Fin m) (Fin n) K}
    {R : Matrix (Fin m) (Fin m) K} (hP : PSD P) (hR : PD R) (G : Matrix (Fin n) (Fin m) K) :
    AtMost (kcov P H R) (joseph P H R G) := by
  have hS := innovCov_pd (H := H) hP hR
  rw [joseph_eq hP.1 hR.1 hS.det_ne, AtMost, add_sub_cancel_left]
  exact hS.psd.congr _

theorem joseph_mono {P P' : Matrix (Fin n) (Fin n) K} {H : Matrix (Fin m) (Fin n) K}
    {R R' : Matrix (Fin m) (Fin m) K} (hP : AtMost P P') (hR : AtMost R R')
    (G : Matrix (Fin n) (Fin m) K) : AtMost (joseph P H R G) (joseph P' H R' G) :=
  (hP.congr _).add (hR.congr _)

theorem kcov_mono {P P' : Matrix (Fin n) (Fin n) K} {H : Matrix (Fin m) (Fin n) K}
    {R R' : Matrix (Fin m) (Fin m) K} (hP : PSD P) (hR : PD R) (hle : AtMost P P')
    (hRle : AtMost R R') : AtMost (kcov P H R) (kcov P' H R') := by
  have hS := innovCov_pd (H := H) (hle.psd_right hP) (hRle.pd_right hR)
  rw [kcov_joseph hS.det_ne]
  exact (kcov_le_joseph hP hR _).trans (joseph_mono hle hRle _)

theorem kcov_le {P P' : Matrix (Fin n) (Fin n) K} {H : Matrix (Fin m) (Fin n) K}
    {R : Matrix (Fin m) (Fin m) K} (hP : PSD P) (hR : PD R) (hle : AtMost P P') :
    AtMost (kcov P H R) P' :=
  AtMost.trans (sub_kcov_psd hP hR) hle

theorem sysPart_order {be be' : Backend} {a b : Option (AnalyticModel K n n U × Option U)}
    (h : SysLe a b) {f g : KF K n} (hf : PSD f.sigma) (hle : AtMost f.sigma g.sigma) :
    ∃ f' g', f.sysPart be a = .ok f' ∧ g.sysPart be' b = .ok g' ∧ PSD f'.sigma ∧
      AtMost f'.sigma g'.sigma := by
  cases h with
  | none => exact ⟨f, g, rfl, rfl, hf, hle⟩
  | @both a b u v A Q Q' c d ha hb hQ hq =>
    have h1 := (hf.congr A).add hQ
    have h2 := (hle.congr A).add hq
    refine ⟨_, _, sysUpdate_eq (ha _), sysUpdate_eq (hb _), ?_, ?_⟩
    · simp only; rw [be.toSym_of_symm h1.1]; exact h1
    · simp only
      rw [be.toSym_of_symm h1.1, be'.toSym_of_symm (h2.psd_right h1).1]
      exact h2

theorem measPart_order {be be' : Backend} {kind kind' : KF.Kind K n} (hk : kind.Runs)
    (hk' : kind'.Runs) {m k : Nat} {a : Option (AnalyticModel K n m U × (Fin m → K) × Option U)}
    {b : Option (AnalyticModel K n k U × (Fin k → K) × Option U)} (h : MeasLe a b) {f g : KF K n}
    (hf : PSD f.sigma) (hle : AtMost f.sigma g.sigma) :
    ∃ f' g', f.measPart be kind a = .ok f' ∧ g.measPart be' kind' b = .ok g' ∧ PSD f'.sigma ∧
      AtMost f'.sigma g'.sigma := by
  cases h with
  | none => exact ⟨f, g, rfl, rfl, hf, hle⟩
  | extra ha hR =>
    refine ⟨_, g, (measUpdate_linear hk ha).trans (calc_valid hf hR), rfl, kcov_psd hf hR, ?_⟩
    exact kcov_le hf hR hle
  | both ha hb hR hr =>
    exact ⟨_, _, (measUpdate_linear hk ha).trans (calc_valid hf hR),
      (measUpdate_linear hk' hb).trans (calc_valid (hle.psd_right hf) (hr.pd_right hR)),
      kcov_psd hf hR, kcov_mono hf hR hle hr⟩

theorem run_order {be be' : Backend} {kind kind' : KF.Kind K n} (hk : kind.Runs) (hk' : kind'.Runs)
    {as bs : List (Props.KStep K n U)} (h : ToldMore as bs) :
    ∀ {f g : KF K n}, PSD f.sigma → AtMost f.sigma g.sigma →
    ∃ f' g', Props.runAll be kind as f = .ok f' ∧ Props.runAll be' kind' bs g = .ok g' ∧
      PSD f'.sigma ∧ AtMost f'.sigma g'.sigma := by
  induction h with
  | nil => intro f g hf hle; exact ⟨f, g, rfl, rfl, hf, hle⟩
  | @step a b as bs hs hm _ ih =>
    intro f g hf hle
    obtain ⟨f1, g1, e1, e1', hf1, hle1⟩ := sysPart_order (be := be) (be' := be') hs hf hle
    obtain ⟨f2, g2, e2, e2', hf2, hle2⟩ :=
      measPart_order (be := be) (be' := be') hk hk' hm hf1 hle1
    obtain ⟨f3, g3, e3, e3', hf3, hle3⟩ := ih hf2 hle2
    refine ⟨f3, g3, ?_, ?_, hf3, hle3⟩
    · simp only [Props.runAll, KF.update]
      rw [e1]; simp only [Outcome.ok_bind]; rw [e2]; simp only [Outcome.ok_bind, Outcome.pure_eq]
      exact e3
    · simp only [Props.runAll, KF.update]
      rw [e1']; simp only [Outcome.ok_bind]; rw [e2']; simp only [Outcome.ok_bind, Outcome.pure_eq]
      exact e3'
  | @extra a as bs hs hm _ ih =>
    intro f g hf hle
    obtain ⟨f2, g2, e2, e2', hf2, hle2⟩ :=
      measPart_order (be := be) (be' := be') hk hk' hm hf hle
    have : g2 = g := by simpa [KF.measPart] using e2'.symm
    subst this
    obtain ⟨f3, g3, e3, e3', hf3, hle3⟩ := ih hf2 hle2
    refine ⟨f3, g3, ?_, e3', hf3, hle3⟩
    simp only [Props.runAll, KF.update]
    rw [hs]; simp only [KF.sysPart, Outcome.ok_bind]
    rw [e2]; simp only [Outcome.ok_bind, Outcome.pure_eq]
    exact e3

theorem told_same {as bs : List (Props.KStep K n U)}
    (hl : ∀ a ∈ as, LinearCall a) (h : List.Forall₂ (fun a b => ∃ z, b = reread a z) as bs) :
    ToldMore as bs ∧ ToldMore bs as := by
  induction h with
  | nil => exact ⟨.nil, .nil⟩
  | @cons a b as bs hab _ ih =>
    obtain ⟨h1, h2⟩ := ih fun a ha => hl a (by simp [ha])
    obtain ⟨z, rfl⟩ := hab
    have hla := hl a (by simp)
    have hs : SysLe a.sys a.sys := by
      rcases hc : a.sys with _ | ⟨sy, u⟩
      · exact .none
      · obtain ⟨A, b, Q, hlin, hQ⟩ := hla.1 sy u hc
        exact .both hlin hlin hQ (AtMost.refl _)
    have hm : MeasLe a.meas (reread a z).meas ∧ MeasLe (reread a z).meas a.meas := by
      rcases hc : a.meas with _ | ⟨me, y, s⟩
      · simp only [reread, hc, Option.map_none]; exact ⟨.none, .none⟩
      · obtain ⟨H, c, R, hlin, hR⟩ := hla.2 me y s hc
        simp only [reread, hc, Option.map_some]
        exact ⟨.both hlin hlin hR (AtMost.refl _), .both hlin hlin hR (AtMost.refl _)⟩
    exact ⟨.step hs hm.1 h1, .step hs hm.2 h2⟩

end order

section pessimism

variable {Ω : Type} [MeasurableSpace Ω] {n m : Nat} {U : Type} {μ : Measure Ω}

open Moment

/-- The filter between two events; the reported covariance `P` bounds the error. -/
structure Bounds (μ : Measure Ω) (X : Ω → Fin n → ℝ) (f : Ω → KF ℝ n)
    (P : Matrix (Fin n) (Fin n) ℝ) : Prop where
  sigma : ∀ ω, (f ω).sigma = P
  square : Square μ (fun ω => X ω - (f ω).mu)
  bound : AtMost (moment μ (fun ω => X ω - (f ω).mu) (fun ω => X ω - (f ω).mu)) P

/-- A noise not correlated with the present error. -/
structure Apart1 (μ : Measure Ω) (X : Ω → Fin n → ℝ) (f : Ω → KF ℝ n) (w : Ω → Fin m → ℝ) : Prop where
  square : Square μ w
  error : moment μ (fun ω => X ω - (f ω).mu) w = 0

/-- An error that becomes `A e + B w`. -/
theorem error_step {E : Ω → Fin n → ℝ} {E' : Ω → Fin n → ℝ} {w : Ω → Fin m → ℝ}
    {A : Matrix (Fin n) (Fin n) ℝ} {B : Matrix (Fin n) (Fin m) ℝ}
    (e : E' = fun ω => A *ᵥ E ω + B *ᵥ w ω) (hE : Square μ E) (hw : Square μ w)
    (h0 : moment μ E w = 0) :
    Square μ E' ∧ moment μ E' E' = A * moment μ E E * Aᵀ + B * moment μ w w * Bᵀ ∧
    ∀ {k : Nat} {v : Ω → Fin k → ℝ}, Square μ v → moment μ E v = 0 → moment μ w v = 0 →
      moment μ E' v = 0 := by
  have hAE := square_mulVec A hE
  have hBw := square_mulVec B hw
  have hE' := square_add hAE hBw
  have h0' : moment μ w E = 0 := by rw [swap, h0, transpose_zero]
  subst e
  refine ⟨hE', ?_, fun hv h1 h2 => ?_⟩
  · rw [add_left hAE hBw hE', add_right hAE hBw hAE, add_right hAE hBw hBw, mulVec_left A hE hAE,
      mulVec_left A hE hBw, mulVec_left B hw hAE, mulVec_left B hw hBw, mulVec_right A hE hE,
      mulVec_right B hw hE, mulVec_right A hE hw, mulVec_right B hw hw, h0, h0']
    simp [Matrix.mul_assoc]
  · rw [add_left hAE hBw hv, mulVec_left A hE hv, mulVec_left B hw hv, h1, h2]
    simp

theorem run_bounds [IsProbabilityMeasure μ] (be : Backend) {kind : KF.Kind ℝ n} (hk : kind.Runs)
    (es : List (Event Ω n U)) : ∀ {X : Ω → Fin n → ℝ} {f : Ω → KF ℝ n}
    {P : Matrix (Fin n) (Fin n) ℝ}, Bounds μ X f P → (∀ e ∈ es, ToldAtLeast μ e) →
    (∀ e ∈ es, Apart1 μ X f e.noise) → Apart μ es →
    ∃ f' P', (∀ ω, Props.runAll be kind (calls es X ω) (f ω) = .ok (f' ω)) ∧
      Bounds μ (lastState es X) f' P' := by
  induction es with
  | nil =>
    intro X f P h _ _ _
    exact ⟨f, P, fun ω => rfl, h⟩
  | cons e es ih =>
    intro X f P h ht hf ha
    have hM : PSD (moment μ (fun ω => X ω - (f ω).mu) (fun ω => X ω - (f ω).mu)) := psd h.square
    have hP : PSD P := h.bound.psd_right hM
    have hfe := hf e (by simp)
    have hte := ht e (by simp)
    obtain ⟨ha1, ha2⟩ := List.pairwise_cons.1 ha
    have step : ∃ f1 P1, (∀ ω, (f ω).update be kind (e.call X ω).sys (e.call X ω).meas
          = .ok (true, f1 ω)) ∧ Bounds μ (e.next X) f1 P1 ∧
        ∀ {k : Nat} {w : Ω → Fin k → ℝ}, Apart1 μ X f w → moment μ e.noise w = 0 →
          Apart1 μ (e.next X) f1 w := by
      cases e with
      | move model u A b Q w =>
        obtain ⟨hl, hw, hQ⟩ := hte
        have hQ' : PSD Q := hQ.psd_right (psd hw)
        have hp := (hP.congr A).add hQ'
        have := error_step (A := A) (B := 1) (E := fun ω => X ω - (f ω).mu) (w := w)
          (E' := fun ω => A *ᵥ X ω + b + w ω - (A *ᵥ (f ω).mu + b)) (by
            funext ω; rw [mulVec_sub, one_mulVec]; abel) h.square hw hfe.error
        rw [Matrix.one_mul, transpose_one, Matrix.mul_one] at this
        refine ⟨fun ω => ⟨A *ᵥ (f ω).mu + b, A * P * Aᵀ + Q, (f ω).timestep⟩, A * P * Aᵀ + Q,
          fun ω => ?_, ⟨fun ω => rfl, this.1, ?_⟩, fun hv hwv => ⟨hv.square, ?_⟩⟩
        · simp only [KF.update, Event.call, KF.sysPart]
          rw [sysUpdate_eq (hl _), h.sigma ω, be.toSym_of_symm hp.1]
          rfl
        · simp only [Event.next]
          rw [this.2.1]
          exact (h.bound.congr A).add hQ
        · exact this.2.2 hv.square hv.error hwv
      | read m model s H c R v =>
        obtain ⟨hl, hv, hR, hpd⟩ := hte
        have hS := innovCov_pd (H := H) hP hpd
        have := error_step (A := 1 - kgain P H R * H) (B := -kgain P H R)
          (E := fun ω => X ω - (f ω).mu) (w := v)
          (E' := fun ω => X ω - (kgain P H R *ᵥ (H *ᵥ X ω + c + v ω - (H *ᵥ (f ω).mu + c)) + (f ω).mu))
          (by
            funext ω
            have : H *ᵥ X ω + c + v ω - (H *ᵥ (f ω).mu + c) = H *ᵥ (X ω - (f ω).mu) + v ω := by
              rw [mulVec_sub]; abel
            rw [this, sub_mulVec, one_mulVec, neg_mulVec, mulVec_add, mulVec_mulVec]
            abel) h.square hv hfe.error
        refine ⟨fun ω => ⟨kgain P H R *ᵥ (H *ᵥ X ω + c + v ω - (H *ᵥ (f ω).mu + c)) + (f ω).mu,
            kcov P H R, (f ω).timestep⟩, kcov P H R,
          fun ω => ?_, ⟨fun ω => rfl, this.1, ?_⟩, fun hw hvw => ⟨hw.square, ?_⟩⟩
        · simp only [KF.update, Event.call, KF.sysPart, KF.measPart, Outcome.ok_bind]
          rw [measUpdate_linear hk hl, calc_valid (by rw [h.sigma ω]; exact hP) hpd, h.sigma ω]
          rfl
        · simp only [Event.next]
          rw [this.2.1, kcov_joseph hS.det_ne]
          have e : -kgain P H R * moment μ v v * (-kgain P H R)ᵀ
              = kgain P H R * moment μ v v * (kgain P H R)ᵀ := by
            rw [transpose_neg, Matrix.neg_mul, Matrix.neg_mul, Matrix.mul_neg, neg_neg]
          rw [e]
          exact joseph_mono h.bound hR _
        · exact this.2.2 hw.square hw.error hvw
    obtain ⟨f1, P1, e1, t1, fr1⟩ := step
    obtain ⟨f2, P2, e2, t2⟩ := ih t1 (fun a h => ht a (by simp [h]))
      (fun a h => fr1 (hf a (by simp [h])) (ha1 a h)) ha2
    refine ⟨f2, P2, fun ω => ?_, t2⟩
    simp only [calls, Props.runAll]
    rw [e1 ω]
    exact e2 ω

theorem ToldAtLeast.square {e : Event Ω n U} (h : ToldAtLeast μ e) : Square μ e.noise := by
  cases e with
  | move => exact h.2.1
  | read => exact h.2.1

end pessimism

end BFL
