import Verif.Lemmas.Coordinates
import Verif.Props.Kalman

set_option linter.unusedSectionVars false

/-!
# C63: the Kalman filters do not depend on units, axes or origin

`c.filter f` is the filter state `f` written in the coordinates `c`, and likewise for models, steps
and points (`Verif.Spec.Coordinates`).
-/

namespace BFL.Props

open Matrix Spec

variable {K : Type} [Field K] [LinearOrder K] [IsStrictOrderedRing K] {n m : Nat} {U : Type}

/-- C63. One call of `Update`. -/
theorem C63_update (be : Backend) (kind : KF.Kind K n) (hk : kind.Runs) (c : Coord K n)
    (st : KStep K n U) (d : Coord K st.m) (hv : st.Valid) (f : KF K n) (hP : PSD f.sigma) :
    ∃ f', f.update be kind st.sys st.meas = .ok (true, f') ∧ PSD f'.sigma ∧
      (c.filter f).update be (c.kind kind) (c.step st d).sys (c.step st d).meas
        = .ok (true, c.filter f') := by
  obtain ⟨m, sys, meas⟩ := st
  have h1 : ∃ f1, f.sysPart be sys = .ok f1 ∧ PSD f1.sigma ∧
      (c.filter f).sysPart be (sys.map fun a => (c.model c a.1, a.2)) = .ok (c.filter f1) := by
    rcases sys with _ | ⟨sy, u⟩
    · exact ⟨f, rfl, hP, rfl⟩
    · obtain ⟨J, F, Q, he, hQ⟩ := hv.1 sy u rfl f.mu
      exact BFL.Coord.sysUpdate_eq' c be he hP hQ
  obtain ⟨f1, e1, hP1, g1⟩ := h1
  have h2 : ∃ f2, f1.measPart be kind meas = .ok f2 ∧ PSD f2.sigma ∧
      (c.filter f1).measPart be (c.kind kind) (meas.map fun a => (c.model d a.1, d.vec a.2.1, a.2.2))
        = .ok (c.filter f2) := by
    rcases meas with _ | ⟨me, z, s⟩
    · exact ⟨f1, rfl, hP1, rfl⟩
    · exact BFL.Coord.measUpdate_eq c d be hk hP1 (hv.2 me z s rfl)
  obtain ⟨f2, e2, hP2, g2⟩ := h2
  refine ⟨f2, ?_, hP2, ?_⟩
  · simp only [KF.update]
    rw [e1]; simp only [Outcome.ok_bind]; rw [e2]; rfl
  · simp only [KF.update, Coord.step]
    rw [g1]; simp only [Outcome.ok_bind]; rw [g2]; rfl

/-- C63. Any history: rewriting the prior, all models and all measurements in other coordinates
(state coordinates `c`, and separate coordinates for each measurement) gives the same estimate
rewritten in those coordinates. -/
theorem C63_run (be : Backend) (kind : KF.Kind K n) (hk : kind.Runs) (c : Coord K n)
    (steps : List ((st : KStep K n U) × Coord K st.m)) (hv : ∀ p ∈ steps, p.1.Valid) (f : KF K n)
    (hP : PSD f.sigma) :
    ∃ f', runAll be kind (steps.map (·.1)) f = .ok f' ∧
      runAll be (c.kind kind) (steps.map fun p => c.step p.1 p.2) (c.filter f)
        = .ok (c.filter f') := by
  induction steps generalizing f with
  | nil => exact ⟨f, rfl, rfl⟩
  | cons p rest ih =>
    obtain ⟨f1, e1, hP1, g1⟩ := C63_update be kind hk c p.1 p.2 (hv p (by simp)) f hP
    obtain ⟨f2, e2, g2⟩ := ih (fun s hs => hv s (by simp [hs])) f1 hP1
    refine ⟨f2, ?_, ?_⟩
    · simp only [List.map_cons, runAll]
      rw [e1]; exact e2
    · simp only [List.map_cons, runAll]
      rw [g1]; exact g2

/-- C63. The normalised innovation squared is the same number in all coordinates. -/
theorem C63_nis (be : Backend) (c : Coord K n) (d : Coord K m) (meas : AnalyticModel K n m U)
    (z Z : Fin m → K) (H : Matrix (Fin m) (Fin n) K) (R : Matrix (Fin m) (Fin m) K) (f : KF K n)
    (he : meas.Evaluates none f.mu Z H R) (hP : PSD f.sigma) (hR : PD R) :
    ∃ v, f.nisGet be meas z = .ok (v, f) ∧
      (c.filter f).nisGet be (c.model d meas) (d.vec z) = .ok (v, c.filter f) := by
  have hS := innovCov_pd (H := H) hP hR
  have hS' := innovCov_pd (H := c.jac d H) (BFL.Coord.cov_psd c hP) (BFL.Coord.cov_pd d hR)
  refine ⟨quad (innovCov f.sigma H R)⁻¹ (z - Z), ?_, ?_⟩
  · simp only [KF.nisGet]
    rw [he.1, he.2.1, he.2.2]
    exact calculateNis_ok be f z Z H R hS.det_ne
  · have he' := BFL.Coord.evaluates c d he
    simp only [KF.nisGet]
    erw [he'.1, he'.2.1, he'.2.2]
    refine (calculateNis_ok be (c.filter f) (d.vec z) (d.vec Z) (c.jac d H) (d.cov R)
      hS'.det_ne).trans ?_
    show Outcome.ok (quad (innovCov (c.cov f.sigma) (c.jac d H) (d.cov R))⁻¹ _, _) = _
    rw [BFL.Coord.innovCov_eq, BFL.Coord.inv_congr d hS.det_ne, BFL.Coord.vec_sub]
    congr 2
    simp only [quad]
    rw [← Matrix.mulVec_mulVec, ← Matrix.mulVec_mulVec, Matrix.mulVec_mulVec (M := d.inv), d.inv_mul,
      Matrix.one_mulVec, Matrix.dotProduct_mulVec, Matrix.vecMul_transpose, Matrix.mulVec_mulVec,
      d.inv_mul, Matrix.one_mulVec]

/-! A rotated, scaled and shifted state, and a measurement in other units. -/

namespace CoordFixture

def state : Coord ℚ 2 where
  T := !![0, 2; -1, 0]
  inv := !![0, -1; 1/2, 0]
  t := ![5, 7]
  inv_mul := by decide +kernel
  mul_inv := by decide +kernel

def metre : Coord ℚ 1 where
  T := !![1000]
  inv := !![1/1000]
  t := ![3]
  inv_mul := by decide +kernel
  mul_inv := by decide +kernel

end CoordFixture

example : ∃ f', runAll .eigen (.iterated 3 (some (KF.innovationCheck 1))) exampleRun KFixture.start
      = .ok f' ∧
    runAll .eigen (CoordFixture.state.kind (.iterated 3 (some (KF.innovationCheck 1))))
      [CoordFixture.state.step ⟨1, some (KFixture.sys, none), some (KFixture.square, ![3], none)⟩
          CoordFixture.metre,
        CoordFixture.state.step ⟨1, none, some (KFixture.square, ![5], none)⟩ CoordFixture.metre,
        CoordFixture.state.step ⟨1, some (KFixture.sys, none), none⟩ CoordFixture.metre]
      (CoordFixture.state.filter KFixture.start) = .ok (CoordFixture.state.filter f') := by
  refine C63_run (U := Unit) .eigen (.iterated 3 (some (KF.innovationCheck 1)))
    (by simp [KF.Kind.Runs]) CoordFixture.state
    [⟨⟨1, some (KFixture.sys, none), some (KFixture.square, ![3], none)⟩, CoordFixture.metre⟩,
      ⟨⟨1, none, some (KFixture.square, ![5], none)⟩, CoordFixture.metre⟩,
      ⟨⟨1, some (KFixture.sys, none), none⟩, CoordFixture.metre⟩] ?_ KFixture.start
    KFixture.P_pd.psd
  intro p hp
  apply exampleRun_valid
  simp only [List.mem_cons, List.not_mem_nil, or_false] at hp
  rcases hp with rfl | rfl | rfl <;> simp [exampleRun]

/-! ## The library's own convergence check -/

namespace UnitsFixture

def double : Coord ℚ 1 where
  T := !![2]
  inv := !![1/2]
  t := ![0]
  inv_mul := by decide +kernel
  mul_inv := by decide +kernel

def same : Coord ℚ 1 where
  T := !![1]
  inv := !![1]
  t := ![0]
  inv_mul := by decide +kernel
  mul_inv := by decide +kernel

def square : AnalyticModel ℚ 1 1 Unit :=
  .noInput (fun x => ![x 0 * x 0]) (fun x => !![2 * x 0]) (fun _ => !![1])

def start : KF ℚ 1 := ⟨![1], !![1], 0⟩

theorem pd (a : ℚ) (h : 0 < a) : PD (!![a] : Matrix (Fin 1) (Fin 1) ℚ) := by
  refine ⟨by ext i j; fin_cases i; fin_cases j; rfl, fun x hx => ?_⟩
  have h0 : x 0 ≠ 0 := by
    intro h; apply hx; ext i; fin_cases i; exact h
  have := mul_self_pos.mpr h0
  simp only [dotProduct, mulVec, Finset.univ_unique, Fin.default_eq_zero, Fin.isValue,
    Matrix.of_apply, Matrix.cons_val_zero, Finset.sum_singleton]
  simp
  nlinarith

theorem ev (x : Fin 1 → ℚ) : square.Evaluates none x ![x 0 * x 0] !![2 * x 0] !![1] := ⟨rfl, rfl, rfl⟩

end UnitsFixture

/-- C63, negation for the check the library ships: `InnovationCheck` compares the squared length of
the step with a fixed number, so the iterated filter in other units (here: halves) may stop after
another number of iterations and end with another estimate. -/
theorem C63_library_check_false (be : Backend) :
    ∃ f1 f2, UnitsFixture.start.measUpdate be (.iterated 2 (some (KF.innovationCheck (1/2))))
        UnitsFixture.square ![9/4] none = .ok f1 ∧
      (UnitsFixture.double.filter UnitsFixture.start).measUpdate be
        (.iterated 2 (some (KF.innovationCheck (1/2))))
        (UnitsFixture.double.model UnitsFixture.same UnitsFixture.square)
        (UnitsFixture.same.vec ![9/4]) none = .ok f2 ∧
      f2 ≠ UnitsFixture.double.filter f1 := by
  have hP : PSD UnitsFixture.start.sigma := (UnitsFixture.pd 1 one_pos).psd
  have hm : ∀ x, ∃ Z H R, UnitsFixture.square.Evaluates none x Z H R ∧ PD R :=
    fun x => ⟨_, _, _, UnitsFixture.ev x, UnitsFixture.pd 1 one_pos⟩
  obtain ⟨g, e1, _, e2⟩ := BFL.Coord.measUpdate_eq UnitsFixture.double UnitsFixture.same be
    (kind := .iterated 2 (some fun v => KF.innovationCheck (1/2) (UnitsFixture.double.T *ᵥ v)))
    (by simp [KF.Kind.Runs]) (z := ![9/4]) hP hm
  have hkind : UnitsFixture.double.kind
      (.iterated 2 (some fun v => KF.innovationCheck (1/2) (UnitsFixture.double.T *ᵥ v)))
      = .iterated 2 (some (KF.innovationCheck (1/2))) := by
    simp only [Coord.kind, Option.map_some]
    congr 2
    funext v
    rw [Matrix.mulVec_mulVec, UnitsFixture.double.mul_inv, Matrix.one_mulVec]
  rw [hkind] at e2
  have hd : ∀ x : Fin 1 → ℚ, (innovCov UnitsFixture.start.sigma !![2 * x 0] !![1]).det ≠ 0 :=
    fun x => (innovCov_pd (H := !![2 * x 0]) hP (UnitsFixture.pd 1 one_pos)).det_ne
  have k1 : kgain UnitsFixture.start.sigma !![2 * UnitsFixture.start.mu 0] !![1] = !![2/5] := by
    show kgain !![(1:ℚ)] !![2 * 1] !![1] = _
    rw [one_kgain (by norm_num)]; norm_num
  have s1 : UnitsFixture.start.mu + kgain UnitsFixture.start.sigma !![2 * UnitsFixture.start.mu 0] !![1]
      *ᵥ (![9/4] - (![UnitsFixture.start.mu 0 * UnitsFixture.start.mu 0] +
        !![2 * UnitsFixture.start.mu 0] *ᵥ (UnitsFixture.start.mu - UnitsFixture.start.mu))) = ![3/2] := by
    rw [k1, sub_self, Matrix.mulVec_zero, add_zero]
    decide +kernel
  have l1 : KF.iekfLoop be UnitsFixture.square ![9/4] none (some (KF.innovationCheck (1/2)))
      UnitsFixture.start.mu UnitsFixture.start.sigma 2 UnitsFixture.start.mu none
      = .ok (some (![1], !![2], !![1])) := by
    rw [iekfLoop_step (UnitsFixture.ev _) (hd _), s1, if_neg (by decide +kernel), sub_self,
      Matrix.mulVec_zero, add_zero]
    congr 4
    · decide +kernel
    · decide +kernel
  have l2 : KF.iekfLoop be UnitsFixture.square ![9/4] none
      (some fun v => KF.innovationCheck (1/2) (UnitsFixture.double.T *ᵥ v))
      UnitsFixture.start.mu UnitsFixture.start.sigma 2 UnitsFixture.start.mu none
      = .ok (some (![3/4], !![3], !![1])) := by
    rw [iekfLoop_step (UnitsFixture.ev _) (hd _), s1, if_pos (by decide +kernel),
      iekfLoop_step (UnitsFixture.ev _) (hd _), iekfLoop_stop, ite_self]
    congr 4
    · decide +kernel
    · decide +kernel
  have r1 : UnitsFixture.start.measUpdate be (.iterated 2 (some (KF.innovationCheck (1/2))))
      UnitsFixture.square ![9/4] none
      = UnitsFixture.start.calculateMeasUpdate be ![9/4] ![1] !![2] !![1] := by
    simp only [KF.measUpdate, KF.iekfMeasUpdate]
    rw [l1]
    rfl
  replace r1 := r1.trans (one_calc be (p := 1) (h := 2) (r := 1) (by norm_num) 1 (9/4) 1 0)
  have r2 : UnitsFixture.start.measUpdate be
      (.iterated 2 (some fun v => KF.innovationCheck (1/2) (UnitsFixture.double.T *ᵥ v)))
      UnitsFixture.square ![9/4] none
      = UnitsFixture.start.calculateMeasUpdate be ![9/4] ![3/4] !![3] !![1] := by
    simp only [KF.measUpdate, KF.iekfMeasUpdate]
    rw [l2]
    rfl
  replace r2 := r2.trans (one_calc be (p := 1) (h := 3) (r := 1) (by norm_num) 1 (9/4) (3/4) 0)
  refine ⟨_, _, r1, e2, ?_⟩
  rw [r2, Outcome.ok.injEq] at e1
  subst e1
  intro h
  exact absurd (congrFun (congrArg KF.mu h) 0) (by decide +kernel)

end BFL.Props
