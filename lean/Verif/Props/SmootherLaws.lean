import Verif.Spec.SmootherLaws
import Verif.Lemmas.Coordinates
import Verif.Lemmas.Smoothing
import Verif.Props.SmoothWorldSetup
import Verif.Props.Coordinates
import Verif.Props.Superposition
import Verif.Props.Smoothing

set_option linter.unusedSectionVars false

/-!
# C113: units, superposition and covariances computed in advance, for the smoother

`smoothCalls` (`Verif.Props.SmoothWorldSetup`) filters forward over any sequence of predictions and
corrections and then smooths backward.
-/

namespace BFL.Props

open Matrix Spec

variable {K : Type} [Field K] [LinearOrder K] [IsStrictOrderedRing K] {n : Nat} {U ι : Type}

theorem det_of_noise {P F Q : Matrix (Fin n) (Fin n) K} (hP : PSD P) (hQ : PD Q) :
    (F * P * Fᵀ + Q).det ≠ 0 := (innovCov_pd (H := F) hP hQ).det_ne

/-- One step backward succeeds and gives a valid covariance. -/
theorem backward_ok (be : Backend) {sys : AnalyticModel K n n U} {u : Option U}
    {f : KF K n} {g : RTS K n} {J : Fin n → K} {F Q : Matrix (Fin n) (Fin n) K}
    (he : sys.Evaluates u g.mu J F Q) (hQ : PD Q) {xp : Fin n → K} (hx : sys.predictionGet u f.mu = .ok xp)
    (hP : PSD f.sigma) (hS : PSD g.sigma) :
    backward be (some (sys, u)) f g =
        .ok ⟨smoothedMean f.mu f.sigma F Q xp g.mu, smoothedCov f.sigma F Q g.sigma, g.timestep⟩ ∧
      PSD (smoothedCov f.sigma F Q g.sigma) := by
  have hd := det_of_noise (F := F) hP hQ
  have e := RTS.sysUpdate_ok be he.2.1 he.2.2 hx (Pf := f.sigma) (f := g) hd
  have hsym := smoothedCov_symm (F := F) hP.1 hQ.psd.1 hS.1
  rw [be.toSym_of_symm hsym] at e
  refine ⟨?_, ?_⟩
  · simp only [backward, RTS.update]
    rw [e]
    rfl
  · rw [smoothedCov_split hP.1 hQ.psd.1 hd, kcov_joseph hd]
    exact ((hP.congr _).add (hQ.psd.congr _)).add (hS.congr _)

theorem smoother_gain_coord (c : Coord K n) {P F Q : Matrix (Fin n) (Fin n) K}
    (hd : (F * P * Fᵀ + Q).det ≠ 0) :
    smootherGain (c.cov P) (c.jac c F) (c.cov Q) = c.T * smootherGain P F Q * c.inv :=
  BFL.Coord.kgain_eq' c c (P := P) (H := F) (R := Q) hd

theorem smoothed_mean_coord (c : Coord K n) {P F Q : Matrix (Fin n) (Fin n) K}
    (hd : (F * P * Fᵀ + Q).det ≠ 0) (x xp y : Fin n → K) :
    smoothedMean (c.vec x) (c.cov P) (c.jac c F) (c.cov Q) (c.vec xp) (c.vec y) =
      c.vec (smoothedMean x P F Q xp y) := by
  unfold smoothedMean
  rw [smoother_gain_coord c hd, BFL.Coord.vec_sub, Matrix.mulVec_mulVec, Matrix.mul_assoc, c.inv_mul,
    Matrix.mul_one]
  simp only [Spec.Coord.vec, Matrix.mulVec_add, Matrix.mulVec_mulVec]
  abel

theorem smoothed_cov_coord (c : Coord K n) {P F Q S : Matrix (Fin n) (Fin n) K}
    (hd : (F * P * Fᵀ + Q).det ≠ 0) :
    smoothedCov (c.cov P) (c.jac c F) (c.cov Q) (c.cov S) = c.cov (smoothedCov P F Q S) := by
  unfold smoothedCov
  rw [smoother_gain_coord c hd, BFL.Coord.predict_cov]
  generalize smootherGain P F Q = G
  generalize F * P * Fᵀ + Q = M
  have e : c.T * G * c.inv * (c.cov S - c.cov M) * (c.T * G * c.inv)ᵀ = c.cov (G * (S - M) * Gᵀ) := by
    have e1 : c.cov S - c.cov M = c.T * (S - M) * c.Tᵀ := by
      simp only [Spec.Coord.cov, Matrix.mul_sub, Matrix.sub_mul]
    rw [e1]
    simp only [Spec.Coord.cov, Matrix.transpose_mul]
    calc c.T * G * c.inv * (c.T * (S - M) * c.Tᵀ) * (c.invᵀ * (Gᵀ * c.Tᵀ))
        = c.T * G * (c.inv * c.T) * (S - M) * (c.Tᵀ * c.invᵀ) * Gᵀ * c.Tᵀ := by
          simp only [Matrix.mul_assoc]
      _ = _ := by rw [c.inv_mul, BFL.Coord.tmul_inv]; simp only [Matrix.mul_assoc, Matrix.mul_one]
  rw [e]
  simp only [Spec.Coord.cov, Matrix.mul_add, Matrix.add_mul]

/-- **C113, units, axes and origin.** Rewriting the prior, all models and all measurements in other
coordinates (state coordinates `c`, and separate coordinates for each measurement) gives the same smoothed
estimates, rewritten in those coordinates. The models need not be linear. -/
theorem C113_coordinates (be : Backend) (kind : KF.Kind K n) (hk : kind.Runs) (c : Coord K n)
    (steps : List ((st : KStep K n U) × Coord K st.m)) (hv : ∀ p ∈ steps, p.1.Valid)
    (hn : ∀ p ∈ steps, NoisyMove p.1) (f : KF K n) (hP : PSD f.sigma) :
    ∃ g l, smoothCalls be kind (steps.map (·.1)) f = .ok (g, l) ∧ PSD g.sigma ∧
      smoothCalls be (c.kind kind) (steps.map fun p => c.step p.1 p.2) (c.filter f) =
        .ok (c.smoother g, l.map c.smoother) := by
  induction steps generalizing f with
  | nil => exact ⟨RTS.make f.mu f.sigma, [], rfl, hP, rfl⟩
  | cons p rest ih =>
    obtain ⟨f1, e1, hP1, g1⟩ := C63_update be kind hk c p.1 p.2 (hv p (by simp)) f hP
    obtain ⟨g, l, e2, hg, g2⟩ := ih (fun s hs => hv s (by simp [hs])) (fun s hs => hn s (by simp [hs])) f1 hP1
    have back : ∃ g', backward be p.1.sys f g = .ok g' ∧ PSD g'.sigma ∧
        backward be (c.step p.1 p.2).sys (c.filter f) (c.smoother g) = .ok (c.smoother g') := by
      have hm := hn p (by simp)
      obtain ⟨⟨m, sys, meas⟩, d⟩ := p
      rcases sys with _ | ⟨sy, u⟩
      · exact ⟨g, rfl, hg, rfl⟩
      · obtain ⟨J, F, Q, he, hQ⟩ := hm sy u rfl g.mu
        obtain ⟨xp, _, _, hx, _⟩ := hm sy u rfl f.mu
        have hd := det_of_noise (F := F) hP hQ
        obtain ⟨b1, b2⟩ := backward_ok be he hQ hx.1 hP hg
        refine ⟨_, b1, b2, ?_⟩
        have b3 := (backward_ok be (f := c.filter f) (g := c.smoother g) (BFL.Coord.evaluates c c he)
          (BFL.Coord.cov_pd c hQ) (BFL.Coord.evaluates c c hx).1 (BFL.Coord.cov_psd c hP)
          (BFL.Coord.cov_psd c hg)).1
        refine b3.trans ?_
        show Outcome.ok (RTS.mk (smoothedMean (c.vec f.mu) (c.cov f.sigma) (c.jac c F) (c.cov Q) (c.vec xp)
          (c.vec g.mu)) (smoothedCov (c.cov f.sigma) (c.jac c F) (c.cov Q) (c.cov g.sigma)) g.timestep) = _
        rw [smoothed_mean_coord c hd, smoothed_cov_coord c hd]
        rfl
    obtain ⟨g', b1, b2, b3⟩ := back
    refine ⟨g', g :: l, ?_, b2, ?_⟩
    · simp only [List.map_cons, smoothCalls]
      rw [e1]
      simp only [Outcome.ok_bind]
      rw [e2]
      simp only [Outcome.ok_bind]
      rw [b1]
      rfl
    · simp only [List.map_cons, smoothCalls]
      rw [g1]
      simp only [Outcome.ok_bind]
      rw [g2]
      simp only [Outcome.ok_bind]
      rw [b3]
      rfl

namespace SmootherLawsFixture

/-- A motion that bends, with noise in all directions. -/
def bend : AnalyticModel ℚ 2 2 Unit :=
  .noInput (fun x => ![x 0 + x 1, x 1 - x 0 * x 0]) (fun x => !![1, 1; -2 * x 0, 1]) (fun _ => KFixture.P)

def moveAndRead : KStep ℚ 2 Unit := ⟨1, some (bend, none), some (KFixture.square, ![3], none)⟩

theorem moveAndRead_valid : moveAndRead.Valid :=
  ⟨fun _ _ h x => by cases h; exact ⟨_, _, _, ⟨rfl, rfl, rfl⟩, KFixture.P_pd.psd⟩,
    fun _ _ _ h x => by cases h; exact ⟨_, _, _, KFixture.square_evaluates x, KFixture.R_pd⟩⟩

theorem moveAndRead_noisy : NoisyMove moveAndRead :=
  fun _ _ h x => by cases h; exact ⟨_, _, _, ⟨rfl, rfl, rfl⟩, KFixture.P_pd⟩

end SmootherLawsFixture

open SmootherLawsFixture in
example : ∃ g l, smoothCalls .eigen (.iterated 3 (some (KF.innovationCheck 1))) [moveAndRead, moveAndRead]
      KFixture.start = .ok (g, l) ∧ PSD g.sigma ∧
    smoothCalls .eigen (CoordFixture.state.kind (.iterated 3 (some (KF.innovationCheck 1))))
      [CoordFixture.state.step moveAndRead CoordFixture.metre,
        CoordFixture.state.step moveAndRead CoordFixture.metre]
      (CoordFixture.state.filter KFixture.start) =
        .ok (CoordFixture.state.smoother g, l.map CoordFixture.state.smoother) :=
  C113_coordinates .eigen (.iterated 3 (some (KF.innovationCheck 1))) (by simp [KF.Kind.Runs])
    CoordFixture.state [⟨moveAndRead, CoordFixture.metre⟩, ⟨moveAndRead, CoordFixture.metre⟩]
    (by intro p hp; simp at hp; subst hp; exact moveAndRead_valid)
    (by intro p hp; simp at hp; subst hp; exact moveAndRead_noisy) KFixture.start KFixture.P_pd.psd

section Runs

variable [Fintype ι]

/-- The smoothed estimates agree on the covariance, and their means satisfy the relation. -/
def SmoothJointly (w : ι → K) (g : ι → RTS K n) : Prop :=
  (∃ S, ∀ i, (g i).sigma = S ∧ PSD S) ∧ Related w (fun i => (g i).mu)

theorem smooth_jointly {be : ι → Backend} {kind : ι → KF.Kind K n} (hk : ∀ i, (kind i).Runs)
    {w : ι → K} {as : List (JointStep K n U ι)}
    (hl : ∀ a ∈ as, a.Shared (Related w) (fun _ c z => Related w c ∧ Related w z))
    (hn : ∀ a ∈ as, a.NoisyMoves) :
    ∀ {P : Matrix (Fin n) (Fin n) K} {f : ι → KF K n}, Jointly w P f →
    ∃ (g : ι → RTS K n) (l : List (ι → RTS K n)),
      (∀ i, smoothCalls (be i) (kind i) (as.map fun a => a.call i) (f i) = .ok (g i, l.map fun h => h i)) ∧
      SmoothJointly w g ∧ ∀ h ∈ l, SmoothJointly w h := by
  induction as with
  | nil =>
    intro P f h
    exact ⟨fun i => RTS.make (f i).mu (f i).sigma, [], fun i => rfl, ⟨⟨P, fun i => ⟨h.2.1 i, h.1⟩⟩, h.2.2⟩, by simp⟩
  | cons a as ih =>
    intro P f h
    have ha := hl a (by simp)
    obtain ⟨P1, f1, e1, h1⟩ := sysPart_jointly (be := be) ha.1 h
    obtain ⟨P2, f2, e2, h2⟩ := measPart_jointly (be := be) hk ha.2 h1
    obtain ⟨g, l, e3, h3, h4⟩ := ih (fun a ha => hl a (by simp [ha])) (fun a ha => hn a (by simp [ha])) h2
    have back : ∃ g' : ι → RTS K n, (∀ i, backward (be i) (a.call i).sys (f i) (g i) = .ok (g' i)) ∧
        SmoothJointly w g' := by
      have hm := hn a (by simp)
      obtain ⟨m, sys, meas⟩ := a
      rcases sys with _ | s
      · exact ⟨g, fun i => rfl, h3⟩
      · obtain ⟨A, Q, b, hQ, hlin, hb⟩ := ha.1 s rfl
        obtain ⟨⟨S, hgS⟩, hgm⟩ := h3
        obtain ⟨hP, hfP, hfm⟩ := h
        have hQ' : ∀ i : ι, PD Q := by
          intro i
          obtain ⟨J, F, Q', he, hQ'⟩ := hm i (s i).1 (s i).2 rfl 0
          have := he.2.2.symm.trans (hlin i 0).2.2
          rw [Outcome.ok.injEq] at this
          rw [← this]
          exact hQ'
        have step := fun i => backward_ok (be i) (f := f i) (g := g i) (hlin i (g i).mu) (hQ' i)
          (hlin i (f i).mu).1 (by rw [hfP]; exact hP) (by rw [(hgS i).1]; exact (hgS i).2)
        refine ⟨_, fun i => (step i).1, ⟨smoothedCov P A Q S, fun i => ?_⟩, ?_⟩
        · have := (step i).2
          rw [hfP, (hgS i).1] at this
          refine ⟨?_, this⟩
          simp only
          rw [hfP, (hgS i).1]
        · simp only [hfP, smoothedMean]
          exact hfm.add ((hgm.sub ((hfm.mulVec A).add hb)).mulVec _)
    obtain ⟨g', b1, b2⟩ := back
    refine ⟨g', g :: l, fun i => ?_, b2, ?_⟩
    · have e : (f i).update (be i) (kind i) (a.call i).sys (a.call i).meas = .ok (true, f2 i) := by
        simp only [KF.update, JointStep.call]
        rw [e1]; simp only [Outcome.ok_bind]; rw [e2]; rfl
      simp only [List.map_cons, smoothCalls]
      rw [e]
      simp only [Outcome.ok_bind]
      rw [e3 i]
      simp only [Outcome.ok_bind]
      rw [b1 i]
      rfl
    · intro h hh
      rcases List.mem_cons.1 hh with rfl | hh
      · exact h3
      · exact h4 h hh

/-- **C113, superposition.** Filters and smoothers are run on linear models with the same matrices in every
step. If prior means, inputs and readings of one run are the weighted sums of those of the other runs, every
smoothed estimate is the weighted sum of theirs, and all runs report the same covariances. -/
theorem C113_superposition {κ : Type} [Fintype κ] (w : κ → K) (be : Option κ → Backend)
    (kind : Option κ → KF.Kind K n) (hk : ∀ i, (kind i).Runs)
    (as : List (JointStep K n U (Option κ))) (hl : ∀ a ∈ as, a.Superposed w) (hn : ∀ a ∈ as, a.NoisyMoves)
    (P : Matrix (Fin n) (Fin n) K) (hP : PSD P) (f : Option κ → KF K n) (hs : ∀ i, (f i).sigma = P)
    (hm : IsSum w fun i => (f i).mu) :
    ∃ (g : Option κ → RTS K n) (l : List (Option κ → RTS K n)),
      (∀ i, smoothCalls (be i) (kind i) (as.map fun a => a.call i) (f i) = .ok (g i, l.map fun h => h i)) ∧
      ∀ h ∈ g :: l, (∀ i, (h i).sigma = (h none).sigma) ∧ (h none).mu = ∑ i, w i • (h (some i)).mu := by
  obtain ⟨g, l, h1, h2, h3⟩ := smooth_jointly (be := be) hk
    (w := fun o : Option κ => o.elim (-1 : K) w) (as := as) (f := f) (P := P)
    (fun a ha => by
      have := hl a ha
      unfold JointStep.Superposed at this
      unfold JointStep.Shared at *
      simpa only [related_of_isSum] using this) hn
    ⟨hP, hs, related_of_isSum.2 hm⟩
  refine ⟨g, l, h1, fun h hh => ?_⟩
  have : SmoothJointly (fun o : Option κ => o.elim (-1 : K) w) h := by
    rcases List.mem_cons.1 hh with rfl | hh
    · exact h2
    · exact h3 h hh
  obtain ⟨⟨S, hS⟩, hr⟩ := this
  exact ⟨fun i => by rw [(hS _).1, (hS _).1], related_of_isSum.1 hr⟩

namespace SmootherLawsFixture

open KFixture SumFixture

def noisy (b : Fin 2 → ℚ) : AnalyticModel ℚ 2 2 Unit :=
  .noInput (fun x => F *ᵥ x + b) (fun _ => F) (fun _ => P)

theorem noisy_linear (b : Fin 2 → ℚ) : (noisy b).IsLinear none F b P := fun _ => ⟨rfl, rfl, rfl⟩

def three : JointStep ℚ 2 Unit (Option (Fin 2)) :=
  ⟨1, some fun i => (noisy (push i), none), some fun i => (meas, read i, none)⟩

theorem three_superposed : three.Superposed w := by
  refine ⟨fun g hg => ?_, fun g hg => ?_⟩
  · cases hg
    refine ⟨F, P, push, P_pd.psd, fun i => noisy_linear _, ?_⟩
    ext i; fin_cases i <;> simp [push, w, Fin.sum_univ_two]
  · exact SumFixture.superposed.2 g hg

theorem three_noisy : three.NoisyMoves := by
  intro i sys u h x
  cases h
  exact ⟨_, _, _, noisy_linear _ x, P_pd⟩

end SmootherLawsFixture

open SmootherLawsFixture in
example : ∃ (g : Option (Fin 2) → RTS ℚ 2) (l : List (Option (Fin 2) → RTS ℚ 2)),
    (∀ i, smoothCalls .boost .extended ([three, three].map fun a => a.call i)
      (KF.make (SumFixture.mean i) KFixture.P) = .ok (g i, l.map fun h => h i)) ∧
    ∀ h ∈ g :: l, (∀ i, (h i).sigma = (h none).sigma) ∧
      (h none).mu = ∑ i, SumFixture.w i • (h (some i)).mu :=
  C113_superposition SumFixture.w (fun _ => .boost) (fun _ => .extended) (fun _ => trivial) _
    (by intro a ha; simp at ha; subst ha; exact three_superposed)
    (by intro a ha; simp at ha; subst ha; exact three_noisy) KFixture.P KFixture.P_pd.psd
    (fun i => KF.make (SumFixture.mean i) KFixture.P) (fun _ => rfl)
    (by ext i; fin_cases i <;> simp [KF.make, SumFixture.mean, SumFixture.w, Fin.sum_univ_two]; norm_num)

/-- **C113, covariances in advance.** The smoothed covariances depend on the prior covariance and on the
matrices of the models only. -/
theorem C113_covariance (be : ι → Backend) (kind : ι → KF.Kind K n) (hk : ∀ i, (kind i).Runs)
    (as : List (JointStep K n U ι)) (hl : ∀ a ∈ as, a.SameMatrices) (hn : ∀ a ∈ as, a.NoisyMoves)
    (P : Matrix (Fin n) (Fin n) K) (hP : PSD P) (f : ι → KF K n) (hs : ∀ i, (f i).sigma = P) :
    ∃ (g : ι → RTS K n) (l : List (ι → RTS K n)),
      (∀ i, smoothCalls (be i) (kind i) (as.map fun a => a.call i) (f i) = .ok (g i, l.map fun h => h i)) ∧
      ∀ h ∈ g :: l, ∀ i j, (h i).sigma = (h j).sigma := by
  have zero : ∀ {m : Nat} (x : ι → Fin m → K), Related (fun _ => (0 : K)) x := by
    intro m x; simp [Related]
  obtain ⟨g, l, h1, h2, h3⟩ := smooth_jointly (be := be) hk (w := fun _ => (0 : K)) (as := as) (f := f)
    (P := P)
    (fun a ha => by
      obtain ⟨h1, h2⟩ := hl a ha
      refine ⟨fun g hg => ?_, fun g hg => ?_⟩
      · obtain ⟨A, Q, b, hQ, hb, _⟩ := h1 g hg
        exact ⟨A, Q, b, hQ, hb, zero _⟩
      · obtain ⟨H, R, c, hR, hc, _⟩ := h2 g hg
        exact ⟨H, R, c, hR, hc, zero _, zero _⟩) hn
    ⟨hP, hs, zero _⟩
  refine ⟨g, l, h1, fun h hh i j => ?_⟩
  have : SmoothJointly (fun _ => (0 : K)) h := by
    rcases List.mem_cons.1 hh with rfl | hh
    · exact h2
    · exact h3 h hh
  obtain ⟨⟨S, hS⟩, _⟩ := this
  rw [(hS _).1, (hS _).1]

open SmootherLawsFixture in
example : ∃ (g : Bool → RTS ℚ 2) (l : List (Bool → RTS ℚ 2)),
    (∀ i, smoothCalls .boost .extended
      ([(⟨1, some fun i => (noisy ![bif i then 7 else 0, 2], none),
          some fun i => (KFixture.meas, ![bif i then -9 else 1], none)⟩ : JointStep ℚ 2 Unit Bool)].map
        fun a => a.call i) (KF.make ![bif i then 100 else 1, 0] KFixture.P) = .ok (g i, l.map fun h => h i)) ∧
    ∀ h ∈ g :: l, ∀ i j, (h i).sigma = (h j).sigma :=
  C113_covariance (fun _ => .boost) (fun _ => .extended) (fun _ => trivial) _
    (by
      intro a ha
      simp only [List.mem_cons, List.not_mem_nil, or_false] at ha
      subst ha
      refine ⟨fun g hg => ?_, fun g hg => ?_⟩
      · cases hg
        exact ⟨_, _, fun i => ![bif i then 7 else 0, 2], KFixture.P_pd.psd, fun i => noisy_linear _, trivial⟩
      · cases hg
        exact ⟨_, _, fun _ => 0, KFixture.R_pd, fun i => KFixture.meas_linear, trivial⟩)
    (by
      intro a ha
      simp only [List.mem_cons, List.not_mem_nil, or_false] at ha
      subst ha
      intro i sys u h x
      cases h
      exact ⟨_, _, _, noisy_linear _ x, KFixture.P_pd⟩)
    KFixture.P KFixture.P_pd.psd (fun i => KF.make ![bif i then 100 else 1, 0] KFixture.P) (fun _ => rfl)

end Runs

end BFL.Props
