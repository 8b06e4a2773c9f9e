import Verif.Spec.CompareFilters
import Verif.Props.ExamplePdfs
import Verif.Props.EKParticleFilter
import Verif.Props.KalmanSetup
import Verif.Props.LinearConditional
import Verif.Lemmas.KalmanOrder

set_option linter.unusedSectionVars false
set_option linter.unusedSimpArgs false

/-!
# C117: the example program that compares filters, and the one for the nonlinear Kalman filter

The program offers five filters. Two of them do not run, the other three do not use the readings as the program is
shipped, and two of these three are the same.
-/

namespace BFL.Props

open Matrix Spec ExamplePdfs CompareFilters

theorem compare_measParticle (c : Settings) (be : Backend) : ∃ m, c.measParticle be = .ok m := by
  obtain ⟨p, hp⟩ := C44_make [⟨1, 3, c.h⟩] c.measMu c.r
  have hn : p.numArgs = 1 := (LinCond.make_wf hp).2.1
  have hm : LinModel.make p = .ok ⟨p, true⟩ := by simp [LinModel.make, hn]
  exact ⟨_, by simp only [Settings.measParticle, hp, Outcome.ok_bind, hm]; rfl⟩

theorem compare_prior (c : Settings) (zs : List (Fin 3 → ℝ)) :
    ∃ p, c.priorDiscrete zs = .ok p ∧ p.numSamples = zs.length ∧ (zs ≠ [] → Assigned 0 p) := by
  obtain ⟨p, hp, hn, -⟩ := C07_set_unweighted (K := ℝ) (dflt := (0 : Fin 3 → ℝ)) (q := MCPdf.make zs.length 0)
    ⟨zs.length, [], rfl⟩ (zs.map fun z => (cholesky Real.sqrt machEps c.priorSigma).2 *ᵥ z + c.priorMu)
  refine ⟨p, ?_, by simpa using hn, fun hz => ?_⟩
  · simp only [Settings.priorDiscrete]
    show (do
      let (_, p) ← (MCPdf.make (K := ℝ) zs.length (0 : Fin 3 → ℝ)).listSetU 0
        (zs.map fun z => (cholesky Real.sqrt machEps c.priorSigma).2 *ᵥ z + c.priorMu)
      return p) = _
    rw [hp]
    rfl
  · exact ⟨_, .setU _, ⟨zs.length, [], rfl⟩, by simpa [Assigns] using hz, hp⟩


section usage

variable (c : Settings) (be : Backend) (root : Nat → ℝ → ℝ) (use : Bool) (robot : Robot) (u : Fin 2 → ℝ)
  (own : Settings.FilterDraws)

/-- **C117 fails for the auxiliary particle filter:** the program offers `ASIR_filter` and then does not recognise
it. -/
theorem C117_asir (ds : List Draws) :
    c.program be root use robot u own ds ["ASIR_filter"] = .ok .notRecognised := by
  obtain ⟨m, hm⟩ := compare_measParticle c be
  obtain ⟨p, hp, -⟩ := compare_prior c own.prior
  simp only [Settings.program, parse, hm, hp, Outcome.ok_bind]

/-- **C117 fails for the EK particle filter:** no run with a step or more completes, with or without readings. -/
theorem C117_ek (ds : List Draws) (hds : ds ≠ []) (hz : own.prior ≠ []) (e : Ending) :
    c.program be root use robot u own ds ["EK_particle_filter"] ≠ .ok e := by
  obtain ⟨m, hm⟩ := compare_measParticle c be
  obtain ⟨p, hp, -, ha⟩ := compare_prior c own.prior
  intro h
  simp only [Settings.program, parse, hm, hp, Outcome.ok_bind, Outcome.bind_eq_ok, estimate] at h
  obtain ⟨⟨h1, f⟩, hf, r, hr, -⟩ := h
  obtain ⟨d, ds, rfl⟩ := List.exists_cons_of_ne_nil hds
  simp only [loop, Outcome.bind_eq_ok] at hr
  obtain ⟨w, -, q, -, z, -, g, hg, -⟩ := hr
  have key : ∀ call, Prod.snd <$> f.update be root (own.ek 0) call h1 ≠ Outcome.ok g := by
    intro call hc
    cases hu : f.update be root (own.ek 0) call h1 with
    | ok r => exact C61_update_false (ha hz) hf (by norm_num) be root (own.ek 0) call r hu
    | abort => rw [hu] at hc; cases hc
    | ub => rw [hu] at hc; cases hc
  cases use
  · exact key _ hg
  · exact key _ hg

/-- The EK particle filter stops at an assertion in its first update, as the program is shipped. -/
theorem C117_ek_assertion (zs : List (Fin 3 → ℝ)) (hz : zs ≠ []) {prior : MCPdf ℝ (Fin 3 → ℝ)}
    (hp : c.priorDiscrete zs = .ok prior) {f : GaussHeap ℝ 3 × EKFilter 3 1 (Fin 2 → ℝ)}
    (hf : EKFilter.make Heap.empty prior 0 c.threshold = .ok f) (noise : Nat → EKNoise 3) (k : Nat) :
    (c.ekParticle be root noise u).predict k f = .abort := by
  obtain ⟨p, hp', -, ha⟩ := compare_prior c zs
  rw [hp] at hp'
  cases hp'
  show Prod.snd <$> f.2.update be root (noise k) ⟨some c.mobile.model, some u, none, 0, none⟩ f.1 = _
  rw [C61_null (ha hz) hf be root (noise k) _ (Or.inr rfl)]
  rfl

/-- Any other command line gets the list of the possible arguments. -/
theorem C117_usage (ds : List Draws) (args : List String)
    (h : args ∉ [["kalman_filter"], ["IE_kalman_filter"], ["bootstrap_filter"], ["EK_particle_filter"],
      ["ASIR_filter"]]) : c.program be root use robot u own ds args = .ok .usage := by
  have : parse args = none := by
    unfold parse
    split <;> simp_all
  simp only [Settings.program, this]

end usage

section blind

/-- A run without readings and without a robot. -/
def blindRun {F : Type} (M : Method F) : Nat → Nat → F → Outcome (List ((Fin 3 → ℝ) × Matrix (Fin 3) (Fin 3) ℝ) × F)
  | _, 0, f => .ok ([], f)
  | k, n + 1, f => do
    let r ← M.report f
    let f' ← M.predict k f
    let rest ← blindRun M (k + 1) n f'
    return (r :: rest.1, rest.2)

theorem loop_blind {F : Type} (M : Method F) (u : Fin 2 → ℝ) : ∀ (ds : List Draws) (k : Nat)
    (robot : Robot) (f : F),
    (do let p ← loop M false u k ds robot f
        pure (p.1.map estimateOf, p.2)) = blindRun M k ds.length f := by
  intro ds
  induction ds with
  | nil => intro k robot f; rfl
  | cons d ds ih =>
    intro k robot f
    obtain ⟨w, hw⟩ : ∃ w, robot.measure d.recorded = .ok w := ⟨_, measure_eq _ _⟩
    obtain ⟨z, hz⟩ : ∃ z, (robot.move u d.move).measure d.reading = .ok z := ⟨_, measure_eq _ _⟩
    simp only [loop, hw, hz, Outcome.ok_bind, Method.step, Bool.false_eq_true, if_false, List.length_cons, blindRun,
      bind_assoc, pure_bind, List.map_cons]
    congr 1
    funext r
    congr 1
    funext f'
    rw [← ih (k + 1) (robot.move u d.move) f', bind_assoc]
    simp only [pure_bind, estimateOf]

theorem estimate_blind {F : Type} (M : Method F) (u : Fin 2 → ℝ) (ds : List Draws) (robot : Robot) (f : F) :
    estimates <$> estimate M false u ds robot f = (do
      let p ← blindRun M 0 ds.length f
      let r ← M.report p.2
      pure (p.1 ++ [r])) := by
  rw [← loop_blind M u ds 0 robot f]
  simp only [estimate, map_eq_pure_bind, bind_assoc, pure_bind, estimates]

/-- **C117 fails as the program is shipped** (`USE_MEASUREMENTS` is 0): whatever the filter, the estimates written
and printed are the same for every robot and every reading; nothing that the robot does or measures has any
influence. -/
theorem C117_blind (c : Settings) (be : Backend) (root : Nat → ℝ → ℝ) (robot robot' : Robot) (u : Fin 2 → ℝ)
    (own : Settings.FilterDraws) (ds ds' : List Draws) (h : ds.length = ds'.length) (args : List String) :
    estimates <$> c.program be root false robot u own ds args =
      estimates <$> c.program be root false robot' u own ds' args := by
  obtain ⟨m, hm⟩ := compare_measParticle c be
  obtain ⟨p, hp, -⟩ := compare_prior c own.prior
  simp only [Settings.program, hm, hp, Outcome.ok_bind]
  cases parse args with
  | none => rfl
  | some choice =>
    cases choice with
    | kalman => rw [estimate_blind, estimate_blind, h]
    | ieKalman => rw [estimate_blind, estimate_blind, h]
    | asir => rfl
    | bootstrap =>
      simp only [map_bind]
      congr 1
      funext f
      rw [estimate_blind, estimate_blind, h]
    | ekParticle =>
      simp only [map_bind]
      congr 1
      funext f
      rw [estimate_blind, estimate_blind, h]

end blind

/-- **C117.** The extended and the iterated extended Kalman filter do exactly the same in this program, with and
without readings: the sensor is linear. -/
theorem C117_same (c : Settings) (be : Backend) (root : Nat → ℝ → ℝ) (use : Bool) (robot : Robot) (u : Fin 2 → ℝ)
    (own : Settings.FilterDraws) (ds : List Draws) (hi : 1 ≤ c.iterations) :
    c.program be root use robot u own ds ["IE_kalman_filter"] =
      c.program be root use robot u own ds ["kalman_filter"] := by
  obtain ⟨m, hm⟩ := compare_measParticle c be
  obtain ⟨p, hp, -⟩ := compare_prior c own.prior
  have : c.kalman be (.iterated c.iterations none) u = c.kalman be .extended u := by
    simp only [Settings.kalman, Method.mk.injEq, true_and]
    refine ⟨rfl, ?_⟩
    funext k z f
    have hl : c.measModel.IsLinear none c.h c.measMu c.r := fun x => ⟨rfl, rfl, rfl⟩
    congr 1
    simp only [KF.update]
    cases f.sysPart be (some (c.mobile.model, some u)) with
    | abort => rfl
    | ub => rfl
    | ok g =>
      simp only [Outcome.ok_bind, KF.measPart]
      rw [measUpdate_linear (kind := .iterated c.iterations none) hi hl,
        measUpdate_linear (kind := .extended) trivial hl]
  simp only [Settings.program, parse, hm, hp, Outcome.ok_bind, this]

section covariance

/-- The covariance that knows `θ` exactly. -/
def positionCov (a b : ℝ) : Matrix (Fin 3) (Fin 3) ℝ := !![a, 0, 0; 0, b, 0; 0, 0, 0]

theorem positionCov_psd {a b : ℝ} (ha : 0 ≤ a) (hb : 0 ≤ b) : PSD (positionCov a b) := by
  refine ⟨by ext i j; fin_cases i <;> fin_cases j <;> rfl, fun x => ?_⟩
  have : x ⬝ᵥ (positionCov a b).mulVec x = a * x 0 ^ 2 + b * x 1 ^ 2 := by
    simp [positionCov, Matrix.mulVec, dotProduct, Fin.sum_univ_three]
    ring
  rw [this]
  positivity

theorem diag_psd {a b d : ℝ} (ha : 0 ≤ a) (hb : 0 ≤ b) (hd : 0 ≤ d) :
    PSD (!![a, 0, 0; 0, b, 0; 0, 0, d] : Matrix (Fin 3) (Fin 3) ℝ) := by
  refine ⟨by ext i j; fin_cases i <;> fin_cases j <;> rfl, fun x => ?_⟩
  have : x ⬝ᵥ (!![a, 0, 0; 0, b, 0; 0, 0, d] : Matrix (Fin 3) (Fin 3) ℝ).mulVec x =
      a * x 0 ^ 2 + b * x 1 ^ 2 + d * x 2 ^ 2 := by
    simp [Matrix.mulVec, dotProduct, Fin.sum_univ_three]
    ring
  rw [this]
  positivity

theorem diag_le {a b d : ℝ} (hd : 0 ≤ d) :
    AtMost (positionCov a b) (!![a, 0, 0; 0, b, 0; 0, 0, d] : Matrix (Fin 3) (Fin 3) ℝ) := by
  have : (!![a, 0, 0; 0, b, 0; 0, 0, d] : Matrix (Fin 3) (Fin 3) ℝ) - positionCov a b =
      !![0, 0, 0; 0, 0, 0; 0, 0, d] := by
    ext i j
    fin_cases i <;> fin_cases j <;> simp [positionCov]
  rw [AtMost, this]
  exact diag_psd le_rfl le_rfl hd

theorem diag_entry {A B : Matrix (Fin 3) (Fin 3) ℝ} (h : AtMost A B) (i : Fin 3) : A i i ≤ B i i := by
  have := h.2 (Pi.single i 1)
  simp only [mulVec_single_one, single_one_dotProduct, col_apply, Matrix.sub_apply] at this
  linarith

variable (c : Settings)

/-- What is known about the covariance after `n` steps. -/
def KnownCov (use : Bool) (n : Nat) (f : KF ℝ 3) : Prop :=
  PSD f.sigma ∧
  AtMost (positionCov (c.priorX + n * c.sysX) (if use then 0 else c.priorY + n * c.sysY)) f.sigma ∧
  (use = true → 0 < n → f.sigma 1 1 ≤ c.measVar / 4)

theorem known_predict (be : Backend) (hx : 0 ≤ c.sysX) (hy : 0 ≤ c.sysY) (ht : 0 ≤ c.sysTheta) (u : Fin 2 → ℝ)
    (f : KF ℝ 3) {a b : ℝ} (hf : PSD f.sigma) (hle : AtMost (positionCov a b) f.sigma) :
    ∃ g, f.sysPart be (some (c.mobile.model, some u)) = .ok g ∧ PSD g.sigma ∧
      AtMost (positionCov (a + c.sysX) (b + c.sysY)) g.sigma := by
  obtain ⟨F, hF⟩ : ∃ F : Matrix (Fin 3) (Fin 3) ℝ, F = !![1, 0, -u 0 * Real.sin (f.mu 2);
                     0, 1, u 0 * Real.cos (f.mu 2); 0, 0, 1] := ⟨_, rfl⟩
  have hQ : PSD c.q := diag_psd hx hy ht
  have hP : PSD (F * f.sigma * Fᵀ + c.q) := (hf.congr F).add hQ
  refine ⟨_, sysUpdate_eq (J := c.mobile.expectedValue u f.mu) (F := F) (Q := c.q)
    ⟨rfl, by rw [hF]; rfl, rfl⟩, ?_, ?_⟩
  · show PSD (be.toSym _)
    rw [be.toSym_of_symm hP.1]
    exact hP
  · show AtMost _ (be.toSym _)
    rw [be.toSym_of_symm hP.1]
    have e1 : F * positionCov a b * Fᵀ = positionCov a b := by
      rw [hF]
      ext i j
      fin_cases i <;> fin_cases j <;> simp [positionCov, Matrix.mul_apply, Fin.sum_univ_three]
    have e2 : positionCov (a + c.sysX) (b + c.sysY) = positionCov a b + positionCov c.sysX c.sysY := by
      ext i j
      fin_cases i <;> fin_cases j <;> simp [positionCov]
    have := (hle.congr F).add (diag_le (a := c.sysX) (b := c.sysY) ht)
    rw [e1] at this
    rw [e2]
    exact this

theorem known_correct (be : Backend) {kind : KF.Kind ℝ 3} (hk : kind.Runs) (hw : c.rico = 0) (hr : 0 < c.measVar)
    (f : KF ℝ 3) (z : Fin 1 → ℝ) {a : ℝ} (hf : PSD f.sigma) (hle : AtMost (positionCov a 0) f.sigma) :
    ∃ g, f.measPart be kind (some (c.measModel, z, none)) = .ok g ∧ PSD g.sigma ∧
      AtMost (positionCov a 0) g.sigma ∧ g.sigma 1 1 ≤ c.measVar / 4 := by
  have hh : c.h = !![0, -2, 0] := by
    simp [Settings.h, hw]
  have hR : PD c.r := by
    refine ⟨by ext i j; fin_cases i; fin_cases j; rfl, fun x hx => ?_⟩
    have h0 : x 0 ≠ 0 := by
      intro h
      apply hx
      ext i
      fin_cases i
      exact h
    have : x ⬝ᵥ c.r.mulVec x = c.measVar * x 0 ^ 2 := by
      simp [Settings.r, Matrix.mulVec, dotProduct]
      ring
    rw [this]
    positivity
  have hS := innovCov_pd (H := c.h) hf hR
  have hP := kcov_psd (H := c.h) hf hR
  refine ⟨_, by
    show f.measUpdate be kind c.measModel z none = _
    rw [measUpdate_linear hk (fun x => ⟨rfl, rfl, rfl⟩ : c.measModel.IsLinear none c.h c.measMu c.r),
      calculateMeasUpdate_ok be _ _ _ _ _ hS.det_ne], ?_, ?_, ?_⟩
  · show PSD (be.toSym _)
    rw [be.toSym_of_symm hP.1]
    exact hP
  · show AtMost _ (be.toSym _)
    rw [be.toSym_of_symm hP.1, kcov_joseph hS.det_ne]
    generalize kgain f.sigma c.h c.r = G
    have e1 : (1 - G * c.h) * positionCov a 0 * (1 - G * c.h)ᵀ = positionCov a 0 := by
      have e : (1 - G * c.h) * positionCov a 0 = positionCov a 0 := by
        rw [Matrix.sub_mul, Matrix.one_mul, Matrix.mul_assoc]
        have : c.h * positionCov a 0 = 0 := by
          rw [hh]
          ext i j
          fin_cases i
          fin_cases j <;> simp [positionCov, Matrix.mul_apply, Fin.sum_univ_three]
        rw [this, Matrix.mul_zero, sub_zero]
      have e' := congrArg transpose e
      have hs : (positionCov a 0)ᵀ = positionCov a 0 := by
        ext i j; fin_cases i <;> fin_cases j <;> rfl
      rw [transpose_mul, hs] at e'
      rw [e, e']
    have := (hle.congr (1 - G * c.h)).add (C := 0) (D := G * c.r * Gᵀ) (by
      rw [AtMost, sub_zero]
      exact hR.psd.congr G)
    rwa [e1, add_zero] at this
  · show be.toSym _ 1 1 ≤ _
    rw [be.toSym_of_symm hP.1]
    have := diag_entry (kcov_le_joseph (H := c.h) hf hR !![0; -1 / 2; 0]) 1
    refine this.trans (le_of_eq ?_)
    have e1 : ((1 : Matrix (Fin 3) (Fin 3) ℝ) - (!![0; -1 / 2; 0] : Matrix (Fin 3) (Fin 1) ℝ) * c.h) = !![1, 0, 0; 0, 0, 0; 0, 0, 1] := by
      rw [hh]
      ext i j
      fin_cases i <;> fin_cases j <;> simp [Matrix.mul_apply]
    rw [joseph, e1]
    simp [Settings.r, Matrix.mul_apply, Fin.sum_univ_three, Matrix.vecMul, dotProduct]
    ring

theorem known_step (be : Backend) {kind : KF.Kind ℝ 3} (hk : kind.Runs) (use : Bool)
    (hu : use = true → c.rico = 0 ∧ 0 < c.measVar) (hx : 0 ≤ c.sysX) (hy : 0 ≤ c.sysY) (ht : 0 ≤ c.sysTheta)
    (u : Fin 2 → ℝ) (n k : Nat) (z : Fin 1 → ℝ) (f : KF ℝ 3) (h : KnownCov c use n f) :
    ∃ g, (c.kalman be kind u).step use k z f = .ok g ∧ KnownCov c use (n + 1) g := by
  obtain ⟨h1, h2, -⟩ := h
  have e : c.priorX + ((n + 1 : Nat) : ℝ) * c.sysX = c.priorX + n * c.sysX + c.sysX := by
    push_cast
    ring
  have e' : c.priorY + ((n + 1 : Nat) : ℝ) * c.sysY = c.priorY + n * c.sysY + c.sysY := by
    push_cast
    ring
  obtain ⟨g, g1, g2, g3⟩ := known_predict c be hx hy ht u f h1 h2
  cases use with
  | false =>
    refine ⟨g, ?_, g2, ?_, by simp⟩
    · show Prod.snd <$> f.update be kind _ none = _
      simp only [KF.update, g1, Outcome.ok_bind, KF.measPart]
      rfl
    · rw [e, if_neg (by simp), e']
      simpa using g3
  | true =>
    have g3' : AtMost (positionCov (c.priorX + n * c.sysX + c.sysX) 0) g.sigma := by
      refine AtMost.trans ?_ g3
      simp only [if_true, zero_add]
      have : positionCov (c.priorX + n * c.sysX + c.sysX) c.sysY -
          positionCov (c.priorX + n * c.sysX + c.sysX) 0 = positionCov 0 c.sysY := by
        ext i j
        fin_cases i <;> fin_cases j <;> simp [positionCov]
      rw [AtMost, this]
      exact positionCov_psd le_rfl hy
    obtain ⟨g', k1, k2, k3, k4⟩ := known_correct c be hk (hu rfl).1 (hu rfl).2 g z g2 g3'
    refine ⟨g', ?_, k2, ?_, fun _ _ => k4⟩
    · show Prod.snd <$> f.update be kind _ _ = _
      simp only [KF.update, g1, Outcome.ok_bind, k1]
      rfl
    · rw [e]
      simpa using k3

theorem loop_invariant {F : Type} (M : Method F) (use : Bool) (u : Fin 2 → ℝ) (I : Nat → F → Prop)
    (hr : ∀ n f, I n f → ∃ r, M.report f = .ok r)
    (hs : ∀ n k z f, I n f → ∃ g, M.step use k z f = .ok g ∧ I (n + 1) g) :
    ∀ (ds : List Draws) (n k : Nat) (robot : Robot) (f : F), I n f →
    ∃ recs g, loop M use u k ds robot f = .ok (recs, g) ∧ recs.length = ds.length ∧ I (n + ds.length) g ∧
      ∀ i r, recs[i]? = some r → ∃ f', I (n + i) f' ∧ M.report f' = .ok (r.mean, r.cov) := by
  intro ds
  induction ds with
  | nil => intro n k robot f h; exact ⟨[], f, rfl, rfl, h, by simp⟩
  | cons d ds ih =>
    intro n k robot f h
    obtain ⟨r, h1⟩ := hr n f h
    simp only [loop, measure_eq, Outcome.ok_bind, h1]
    obtain ⟨f', h2, h3⟩ := hs n k (ConditionalGaussian.sampleOne (wallMatrix (robot.move u d.move).rico *ᵥ
      (robot.move u d.move).state + (robot.move u d.move).measMu) (robot.move u d.move).measSigma .default 0
      d.reading).2 f h
    obtain ⟨recs, g, k1, k2, k3, k4⟩ := ih (n + 1) (k + 1) (robot.move u d.move) f' h3
    rw [h2, Outcome.ok_bind, k1]
    refine ⟨_, g, rfl, by simp [k2], ?_, fun i r' hi => ?_⟩
    · rw [List.length_cons, ← add_assoc, add_right_comm]
      exact k3
    · cases i with
      | zero =>
        simp only [List.getElem?_cons_zero, Option.some.injEq] at hi
        subst hi
        exact ⟨f, h, h1⟩
      | succ i =>
        obtain ⟨f'', q1, q2⟩ := k4 i r' (by simpa using hi)
        exact ⟨f'', by rwa [← add_assoc, add_right_comm] , q2⟩

theorem known_prior (hx : 0 ≤ c.priorX) (hy : 0 ≤ c.priorY) (ht : 0 ≤ c.priorTheta) (use : Bool) :
    KnownCov c use 0 (KF.make c.priorMu c.priorSigma) := by
  refine ⟨diag_psd hx hy ht, ?_, fun _ h => absurd h (lt_irrefl 0)⟩
  show AtMost _ c.priorSigma
  cases use with
  | false =>
    simp only [Bool.false_eq_true, if_false, Nat.cast_zero, zero_mul, add_zero]
    exact diag_le ht
  | true =>
    refine AtMost.trans (B := positionCov c.priorX c.priorY) ?_ (diag_le ht)
    have : positionCov c.priorX c.priorY - positionCov c.priorX 0 = positionCov 0 c.priorY := by
      ext i j
      fin_cases i <;> fin_cases j <;> simp [positionCov]
    simpa [AtMost, this] using positionCov_psd le_rfl hy

variable (be : Backend) (root : Nat → ℝ → ℝ) (robot : Robot) (u : Fin 2 → ℝ) (own : Settings.FilterDraws)

theorem compare_kalman (use : Bool) (hu : use = true → c.rico = 0 ∧ 0 < c.measVar) (hx : 0 ≤ c.sysX) (hy : 0 ≤ c.sysY)
    (ht : 0 ≤ c.sysTheta) (hpx : 0 ≤ c.priorX) (hpy : 0 ≤ c.priorY) (hpt : 0 ≤ c.priorTheta) (ds : List Draws) :
    ∃ r, c.program be root use robot u own ds ["kalman_filter"] = .ok (.done r) ∧ r.printed = ds.length + 1 ∧
      (estimates (.done r)).length = ds.length + 1 ∧
      ∀ (n : Nat) m P, (estimates (.done r))[n]? = some (m, P) → PSD P ∧
        AtMost (positionCov (c.priorX + n * c.sysX) (if use then 0 else c.priorY + n * c.sysY)) P ∧
        (use = true → 0 < n → P 1 1 ≤ c.measVar / 4) := by
  obtain ⟨m, hm⟩ := compare_measParticle c be
  obtain ⟨p, hp, -⟩ := compare_prior c own.prior
  obtain ⟨recs, g, k1, k2, k3, k4⟩ := loop_invariant (c.kalman be .extended u) use u (KnownCov c use)
    (fun n f _ => ⟨_, rfl⟩) (fun n k z f h => known_step c be (kind := .extended) trivial use hu hx hy ht u n k z f h) ds 0 0 robot
    (KF.make c.priorMu c.priorSigma) (known_prior c hpx hpy hpt use)
  refine ⟨⟨recs, ds.length + 1, g.mu, g.sigma⟩, ?_, rfl, by simp [estimates, k2], ?_⟩
  · simp only [Settings.program, parse, hm, hp, Outcome.ok_bind, estimate, k1]
    rfl
  · intro n m P hn
    simp only [estimates] at hn
    by_cases hlt : n < recs.length
    · rw [List.getElem?_append_left (by simpa using hlt), List.getElem?_map, Option.map_eq_some_iff] at hn
      obtain ⟨r, r1, r2⟩ := hn
      obtain ⟨f', q1, q2⟩ := k4 n r r1
      rw [zero_add] at q1
      have e : (f'.mu, f'.sigma) = (r.mean, r.cov) := Outcome.ok.inj q2
      simp only [estimateOf, Prod.mk.injEq] at r2 e
      rw [← r2.2, ← e.2]
      exact q1
    · rw [List.getElem?_append_right (by simpa using hlt)] at hn
      have h0 : n = ds.length := by
        have := (List.getElem?_eq_some_iff.1 hn).1
        simp only [List.length_map, List.length_singleton] at this
        omega
      subst h0
      simp only [List.length_map, k2, Nat.sub_self, List.getElem?_cons_zero, Option.some.injEq, Prod.mk.injEq] at hn
      rw [← hn.2]
      simpa [KnownCov] using k3

/-- **C117.** As the program is shipped, the run with a Kalman filter completes, and the reported variances of the
position grow without bound: after `n` steps they are at least those of the prior and of the noise of `n` moves. -/
theorem C117_grows (hx : 0 ≤ c.sysX) (hy : 0 ≤ c.sysY) (ht : 0 ≤ c.sysTheta) (hpx : 0 ≤ c.priorX) (hpy : 0 ≤ c.priorY)
    (hpt : 0 ≤ c.priorTheta) (ds : List Draws) :
    ∃ r, c.program be root false robot u own ds ["kalman_filter"] = .ok (.done r) ∧
      (estimates (.done r)).length = ds.length + 1 ∧
      ∀ (n : Nat) m P, (estimates (.done r))[n]? = some (m, P) → PSD P ∧
        c.priorX + n * c.sysX ≤ P 0 0 ∧ c.priorY + n * c.sysY ≤ P 1 1 := by
  obtain ⟨r, h1, -, h2, h3⟩ := compare_kalman c be root robot u own false (by simp) hx hy ht hpx hpy hpt ds
  refine ⟨r, h1, h2, fun n m P hn => ?_⟩
  obtain ⟨q1, q2, -⟩ := h3 n m P hn
  refine ⟨q1, ?_, ?_⟩
  · simpa [positionCov] using diag_entry q2 0
  · simpa [positionCov] using diag_entry q2 1

/-- **C117, what holds if the readings are used.** The run with a Kalman filter completes, the reported variance
of the distance to the wall is at most a quarter of that of a reading from the first step on, and the filter does
not pretend to know the position along the wall, about which the sensor tells nothing. (Missing: the readings are
not used as the program is shipped, see `C117_blind`; the other filters.) -/
theorem C117_measured_partial (hw : c.rico = 0) (hr : 0 < c.measVar) (hx : 0 ≤ c.sysX) (hy : 0 ≤ c.sysY)
    (ht : 0 ≤ c.sysTheta) (hpx : 0 ≤ c.priorX) (hpy : 0 ≤ c.priorY) (hpt : 0 ≤ c.priorTheta) (ds : List Draws) :
    ∃ r, c.program be root true robot u own ds ["kalman_filter"] = .ok (.done r) ∧
      (estimates (.done r)).length = ds.length + 1 ∧
      ∀ (n : Nat) m P, (estimates (.done r))[n]? = some (m, P) → PSD P ∧
        c.priorX + n * c.sysX ≤ P 0 0 ∧ (0 < n → P 1 1 ≤ c.measVar / 4) := by
  obtain ⟨r, h1, -, h2, h3⟩ := compare_kalman c be root robot u own true (fun _ => ⟨hw, hr⟩) hx hy ht hpx hpy hpt ds
  refine ⟨r, h1, h2, fun n m P hn => ?_⟩
  obtain ⟨q1, q2, q3⟩ := h3 n m P hn
  refine ⟨q1, ?_, q3 rfl⟩
  simpa [positionCov] using diag_entry q2 0

/-- **C117.** The number of steps that the program prints is one too large. -/
theorem C117_printed (use : Bool) {ds : List Draws} {args : List String} {r : Result}
    (h : c.program be root use robot u own ds args = .ok (.done r)) : r.printed = ds.length + 1 := by
  have key : ∀ {F : Type} (M : Method F) (f : F), estimate M use u ds robot f = .ok (.done r) →
      r.printed = ds.length + 1 := by
    intro F M f he
    simp only [estimate, Outcome.bind_eq_ok, Outcome.pure_eq, Outcome.ok.injEq, Ending.done.injEq] at he
    obtain ⟨_, _, _, _, rfl⟩ := he
    rfl
  obtain ⟨m, hm⟩ := compare_measParticle c be
  obtain ⟨p, hp, -⟩ := compare_prior c own.prior
  simp only [Settings.program, hm, hp, Outcome.ok_bind] at h
  cases hc : parse args with
  | none => rw [hc] at h; simp at h
  | some choice =>
    rw [hc] at h
    cases choice with
    | kalman => exact key _ _ h
    | ieKalman => exact key _ _ h
    | asir => simp at h
    | bootstrap =>
      simp only [Outcome.bind_eq_ok] at h
      obtain ⟨f, -, h⟩ := h
      exact key _ _ h
    | ekParticle =>
      simp only [Outcome.bind_eq_ok] at h
      obtain ⟨f, -, h⟩ := h
      exact key _ _ h

theorem nonlinear_run (hw : c.rico = 0) (hr : 0 < c.measVar) (hx : 0 ≤ c.sysX) (hy : 0 ≤ c.sysY)
    (ht : 0 ≤ c.sysTheta) (ds : List ((Fin 3 → ℝ) × (Fin 1 → ℝ))) : ∀ (n k : Nat) (robot : Robot) (f : KF ℝ 3),
    KnownCov c true n f → ∃ g, c.nonlinearKalman be u ds k robot f = .ok (g, k + ds.length + 1) ∧
      KnownCov c true (n + ds.length) g := by
  induction ds with
  | nil => intro n k robot f h; exact ⟨f, rfl, h⟩
  | cons d ds ih =>
    intro n k robot f h
    simp only [Settings.nonlinearKalman, measure_eq, Outcome.ok_bind]
    generalize (ConditionalGaussian.sampleOne _ _ SampleMthd.default 0 d.2).2 = z
    obtain ⟨f', h2, h3⟩ := known_step c be (kind := .extended) trivial true (fun _ => ⟨hw, hr⟩) hx hy ht u n k z f h
    have h2' : Prod.snd <$> f.update be .extended (some (c.mobile.model, some u)) (some (c.measModel, z, none)) =
      .ok f' := h2
    cases hu : f.update be .extended (some (c.mobile.model, some u)) (some (c.measModel, z, none)) with
    | abort => rw [hu] at h2'; cases h2'
    | ub => rw [hu] at h2'; cases h2'
    | ok r =>
      rw [hu] at h2'
      have e : r.2 = f' := Outcome.ok.inj h2'
      obtain ⟨g, g1, g2⟩ := ih (n + 1) (k + 1) (robot.move u d.1) f' h3
      refine ⟨g, ?_, ?_⟩
      · rw [Outcome.ok_bind]
        simp only [e]
        rw [g1, List.length_cons]
        congr 2
        omega
      · rw [List.length_cons, ← add_assoc, add_right_comm]
        exact g2

/-- **C117.** The program for the nonlinear Kalman filter completes whatever the robot does, and its report is
honest about what the sensor can tell: the variance of the distance to the wall is at most a quarter of that of a
reading, that of the position along the wall at least that of the prior and of all moves. The number of steps that
it prints is one too large. -/
theorem C117_nonlinear_kalman (hw : c.rico = 0) (hr : 0 < c.measVar) (hx : 0 ≤ c.sysX) (hy : 0 ≤ c.sysY)
    (ht : 0 ≤ c.sysTheta) (hpx : 0 ≤ c.priorX) (hpy : 0 ≤ c.priorY) (hpt : 0 ≤ c.priorTheta)
    (ds : List ((Fin 3 → ℝ) × (Fin 1 → ℝ))) :
    ∃ f, c.nonlinearKalman be u ds 0 robot (KF.make c.priorMu c.priorSigma) = .ok (f, ds.length + 1) ∧
      PSD f.sigma ∧ c.priorX + ds.length * c.sysX ≤ f.sigma 0 0 ∧ (ds ≠ [] → f.sigma 1 1 ≤ c.measVar / 4) := by
  obtain ⟨f, h1, h2, h3, h4⟩ := nonlinear_run c be u hw hr hx hy ht ds 0 0 robot _ (known_prior c hpx hpy hpt true)
  rw [zero_add] at h1 h3 h4
  refine ⟨f, h1, h2, ?_, fun h => h4 rfl (List.length_pos_iff.2 h)⟩
  simpa [positionCov] using diag_entry h3 0

end covariance

namespace CompareFixture

/-- The constants of `mobile_robot_wall_cts.h`. -/
noncomputable def cts : Settings where
  rico := 0
  sysMu := 0
  sysX := (1 / 100) ^ 2
  sysY := (1 / 100) ^ 2
  sysTheta := (2 * Real.pi / 180) ^ 2
  measMu := 0
  measVar := (1 / 20) ^ 2
  priorMu := ![-1 / 10, 1 / 10, Real.pi / 4]
  priorX := (1 / 5) ^ 2
  priorY := (1 / 5) ^ 2
  priorTheta := (Real.pi / 8) ^ 2
  iterations := 3
  threshold := 250

/-- Random numbers that are all zero. -/
noncomputable def own : Settings.FilterDraws :=
  ⟨List.replicate 1000 0, fun _ => ⟨fun _ => 0, fun _ => 0, fun _ => 0⟩, fun _ => ⟨fun _ => 0, fun _ => 0, fun _ => 0⟩⟩

/-- Two robots in different places. -/
noncomputable def robot (x y : ℝ) : Robot :=
  ⟨0, ⟨0, Matrix.diagonal ![(1 / 1000) ^ 2, (1 / 1000) ^ 2, (Real.pi / 1800) ^ 2]⟩, 0, !![(1 / 20) ^ 2],
    ![x, y, Real.pi / 4]⟩

/-- A step without noise. -/
def quiet : Draws := ⟨0, 0, 0⟩

end CompareFixture

open CompareFixture

/-- A robot at the origin and one a thousand away lead to the same estimates. -/
example (root : Nat → ℝ → ℝ) (args : List String) :
    estimates <$> cts.program .eigen root false (robot 0 0) ![1 / 10, 0] own (List.replicate 100 quiet) args =
      estimates <$> cts.program .eigen root false (robot 0 1000) ![1 / 10, 0] own (List.replicate 100 quiet) args :=
  C117_blind _ _ _ _ _ _ _ _ _ rfl _

example (root : Nat → ℝ → ℝ) (e : Ending) :
    cts.program .eigen root true (robot 0 0) ![1 / 10, 0] own [quiet] ["EK_particle_filter"] ≠ .ok e :=
  C117_ek _ _ _ _ _ _ _ _ (by simp) (List.cons_ne_nil _ _) e

example (root : Nat → ℝ → ℝ) :
    cts.program .eigen root true (robot 0 0) ![1 / 10, 0] own [quiet] ["IE_kalman_filter"] =
      cts.program .eigen root true (robot 0 0) ![1 / 10, 0] own [quiet] ["kalman_filter"] :=
  C117_same _ _ _ _ _ _ _ _ (by simp [cts])

example (root : Nat → ℝ → ℝ) : cts.program .eigen root true (robot 0 0) ![1 / 10, 0] own [quiet] ["kalman"] =
    .ok .usage :=
  C117_usage _ _ _ _ _ _ _ _ _ (by decide)

/-- The last of the 101 reports of a run as shipped: the variance of `y` has grown from 0.04 to at least 0.05. -/
example (root : Nat → ℝ → ℝ) : ∃ r m P,
    cts.program .eigen root false (robot 0 0) ![1 / 10, 0] own (List.replicate 100 quiet) ["kalman_filter"] =
      .ok (.done r) ∧ (estimates (.done r))[100]? = some (m, P) ∧ 5 / 100 ≤ P 1 1 := by
  obtain ⟨r, h1, h2, h3⟩ := C117_grows cts .eigen root (robot 0 0) ![1 / 10, 0] own (by norm_num [cts])
    (by norm_num [cts]) (sq_nonneg _) (by norm_num [cts]) (by norm_num [cts]) (sq_nonneg _) (List.replicate 100 quiet)
  obtain ⟨⟨m, P⟩, hp⟩ : ∃ p, (estimates (.done r))[100]? = some p :=
    ⟨_, List.getElem?_eq_getElem (by rw [h2, List.length_replicate]; norm_num)⟩
  refine ⟨r, m, P, h1, hp, le_trans ?_ (h3 100 m P hp).2.2⟩
  norm_num [cts]

/-- With the readings it is at most 0.000625. -/
example (root : Nat → ℝ → ℝ) : ∃ r m P,
    cts.program .eigen root true (robot 0 0) ![1 / 10, 0] own (List.replicate 100 quiet) ["kalman_filter"] =
      .ok (.done r) ∧ (estimates (.done r))[100]? = some (m, P) ∧ P 1 1 ≤ 625 / 1000000 := by
  obtain ⟨r, h1, h2, h3⟩ := C117_measured_partial cts .eigen root (robot 0 0) ![1 / 10, 0] own rfl
    (by norm_num [cts]) (by norm_num [cts])
    (by norm_num [cts]) (sq_nonneg _) (by norm_num [cts]) (by norm_num [cts]) (sq_nonneg _) (List.replicate 100 quiet)
  obtain ⟨⟨m, P⟩, hp⟩ : ∃ p, (estimates (.done r))[100]? = some p :=
    ⟨_, List.getElem?_eq_getElem (by rw [h2, List.length_replicate]; norm_num)⟩
  refine ⟨r, m, P, h1, hp, ((h3 100 m P hp).2.2 (by norm_num)).trans ?_⟩
  norm_num [cts]

example : ∃ f, cts.nonlinearKalman .boost ![1 / 10, 0] [(0, 0), (1, -1)] 0 (robot 0 0)
    (KF.make cts.priorMu cts.priorSigma) = .ok (f, 3) ∧ f.sigma 1 1 ≤ 625 / 1000000 := by
  obtain ⟨f, h1, -, -, h4⟩ := C117_nonlinear_kalman cts .boost (robot 0 0) ![1 / 10, 0] rfl
    (by norm_num [cts]) (by norm_num [cts])
    (by norm_num [cts]) (sq_nonneg _) (by norm_num [cts]) (by norm_num [cts]) (sq_nonneg _) [(0, 0), (1, -1)]
  exact ⟨f, h1, (h4 (by simp)).trans (by norm_num [cts])⟩

end BFL.Props
