import Verif.Spec.EKParticleFilter
import Verif.Lemmas.EKProposal
import Verif.Lemmas.Smoothing
import Verif.Lemmas.ParticleFilter
import Verif.Props.LinearModelLaw

/-! # The particle filter with the EKF proposal density -/

set_option linter.unusedSectionVars false

namespace BFL

open Matrix Spec EKProposal

variable {n m : Nat} {U : Type}

theorem evaluates_given {a b : Nat} {mo : AnalyticModel ℝ a b U} {u : Option U} {x Z H R}
    (h : mo.Evaluates u x Z H R) : mo.Evaluates (givenTo mo u) x Z H R := by
  cases mo <;> exact h

theorem normalDensity_pos {k : Nat} {S : Matrix (Fin k) (Fin k) ℝ} (hS : PD S) (μ x : Fin k → ℝ) :
    0 < normalDensity μ S x := by
  unfold normalDensity
  have := pd_det_pos hS
  positivity

section Gauss

variable {M : EkModels n m} (hv : M.Valid)
include hv

theorem predCov_pd {S : Matrix (Fin n) (Fin n) ℝ} (hS : PSD S) (x : Fin n → ℝ) :
    PD (M.predCov x S) := (hS.congr (M.F x)).add_pd (hv x).1

theorem ekfCov_pd {S : Matrix (Fin n) (Fin n) ℝ} (hS : PSD S) (x : Fin n → ℝ) :
    PD (M.ekfCov x S) := kcov_pd (predCov_pd hv hS x) (hv (M.f x)).2

theorem freshEkf_eq (be : Backend) {sys : AnalyticModel ℝ n n U} {u : Option U}
    {mm : AnalyticModel ℝ n m U} {s : Option U} (hi : Implements M sys u mm s)
    {S : Matrix (Fin n) (Fin n) ℝ} (hS : PSD S) (x : Fin n → ℝ) (z : Fin m → ℝ) :
    freshEkf be x S (some (sys, givenTo sys u)) (some (mm, z, givenTo mm s)) =
      .ok (M.ekfMean z x S, M.ekfCov x S) := by
  have hP := predCov_pd hv hS x
  have u1 : (KF.make x S).sysUpdate be sys (givenTo sys u) = .ok ⟨M.f x, M.predCov x S, 0⟩ := by
    rw [sysUpdate_eq (f := KF.make x S) (evaluates_given (hi.sys x))]
    exact congrArg (fun P => Outcome.ok (KF.mk _ P 0)) (be.toSym_of_symm hP.1)
  have u2 : (KF.mk (M.f x) (M.predCov x S) 0).ekfMeasUpdate be mm z (givenTo mm s) =
      .ok ⟨kgain (M.predCov x S) (M.H (M.f x)) (M.R (M.f x)) *ᵥ (z - M.h (M.f x)) + M.f x,
        kcov (M.predCov x S) (M.H (M.f x)) (M.R (M.f x)), 0⟩ := by
    rw [ekf_eq (f := KF.mk (M.f x) (M.predCov x S) 0) (evaluates_given (hi.meas (M.f x)))]
    exact calc_valid (f := KF.mk (M.f x) (M.predCov x S) 0) hP.psd (hv (M.f x)).2
  simp only [freshEkf, KF.update, KF.sysPart, u1, Outcome.ok_bind, KF.measPart, KF.measUpdate, u2,
    Outcome.pure_eq]
  rw [add_comm]
  rfl

theorem likelihood_eq (be : Backend) {sys : AnalyticModel ℝ n n U} {u : Option U}
    {mm : AnalyticModel ℝ n m U} {s : Option U} (hi : Implements M sys u mm s) (y : Fin n → ℝ)
    (z : Fin m → ℝ) : mm.density be s y z = .ok (M.likelihood z y) := by
  obtain ⟨h1, _, h3⟩ := hi.meas y
  simp only [AnalyticModel.density, h1, h3, Outcome.ok_bind]
  exact Props.conditional_density be (hv y).2 _ _

theorem transition_eq (be : Backend) {sys : AnalyticModel ℝ n n U} {u : Option U}
    {mm : AnalyticModel ℝ n m U} {s : Option U} (hi : Implements M sys u mm s) (x y : Fin n → ℝ) :
    sys.density be u x y = .ok (M.transition x y) := by
  obtain ⟨h1, _, h3⟩ := hi.sys x
  simp only [AnalyticModel.density, h1, h3, Outcome.ok_bind]
  exact Props.conditional_density be (hv x).1 _ _

end Gauss

namespace EKFilter

/-- The proposal during an update: the models are set, the arguments are those of the last particle,
and `_sampleCov` is `S`. -/
structure Busy (h : GaussHeap ℝ n) (p : EKProposal ℝ n m U) (sys : AnalyticModel ℝ n n U)
    (mm : AnalyticModel ℝ n m U) : Prop where
  live : Live h p
  dim : p.dim = n
  scratch : n ≤ p.scratch
  hsys : p.sys = some sys
  hmeas : p.meas = some mm
  numArgs : p.numArgs = sys.numArgs + mm.numArgs
  len : p.args.length = p.numArgs

theorem argList_length {K : Type} [Field K] {U : Type} {n m : Nat} (s : AnalyticModel K n n U)
    (mm : AnalyticModel K n m U) (x : Fin n → K) (u : Option U) (z : Fin m → K) (sp : Option U) :
    (argList s mm x u z sp).length = s.numArgs + mm.numArgs := by
  cases s <;> cases mm <;> rfl

theorem Busy.set {h : GaussHeap ℝ n} {p : EKProposal ℝ n m U} {sys : AnalyticModel ℝ n n U}
    {mm : AnalyticModel ℝ n m U} (hb : Busy h p sys mm) (S : Option (Matrix (Fin n) (Fin n) ℝ))
    (x : Fin n → ℝ) (u : Option U) (z : Fin m → ℝ) (sp : Option U) :
    Busy h { p with sampleCov := S, args := argList sys mm x u z sp } sys mm :=
  ⟨hb.live, hb.dim, hb.scratch, hb.hsys, hb.hmeas, hb.numArgs,
    (argList_length _ _ _ _ _ _).trans hb.numArgs.symm⟩

theorem Busy.after {h h' : GaussHeap ℝ n} {p : EKProposal ℝ n m U} {sys : AnalyticModel ℝ n n U}
    {mm : AnalyticModel ℝ n m U} {g} (hb : Busy h p sys mm) (hl : Live h' (objAfter p g)) :
    Busy h' (objAfter p g) sys mm :=
  ⟨hl, hb.dim, hb.scratch, hb.hsys, hb.hmeas, hb.numArgs, hb.len⟩

/-- A sample when the answer is known. -/
theorem sampleFrom_ok {be : Backend} {sqrt : ℝ → ℝ} {eps : ℝ} {h : GaussHeap ℝ n}
    {p : EKProposal ℝ n m U} (hl : Live h p) (hd : p.dim ≤ p.scratch) {g} (hg : p.answer be = .ok g)
    (r : Fin n → ℝ) : ∃ h', p.sampleFrom be sqrt eps h r =
        .ok (((cholesky sqrt eps g.2).1, (cholesky sqrt eps g.2).2 *ᵥ r + g.1), h', objAfter p g) ∧
      Live h' (objAfter p g) := by
  rcases query_cases be hl with ⟨g1, h1, e1, e2, _, l1⟩ | ⟨e1, _⟩ | ⟨e1, _⟩
  · rw [hg] at e1
    cases e1
    have a1 : (objAfter p g).answer be = .ok g := (same_objAfter p g).answer.trans hg
    rcases query_cases be l1 with ⟨g2, h2, e1, _, e3, l2⟩ | ⟨e1, _⟩ | ⟨e1, _⟩
    · rw [a1] at e1
      cases e1
      refine ⟨h2, ?_, l2⟩
      have hd' : (objAfter (objAfter p g) g).dim ≤ (objAfter (objAfter p g) g).scratch := hd
      simp only [EKProposal.sampleFrom, e2, e3, Outcome.ok_bind, if_pos hd', Outcome.pure_eq]
      rfl
    · rw [a1] at e1; cases e1
    · rw [a1] at e1; cases e1
  · rw [hg] at e1; cases e1
  · rw [hg] at e1; cases e1

/-- Without room in the scratch vector no sample is drawn. -/
theorem sampleFrom_ub {be : Backend} {sqrt : ℝ → ℝ} {eps : ℝ} {h : GaussHeap ℝ n}
    {p : EKProposal ℝ n m U} (hl : Live h p) (hd : ¬ p.dim ≤ p.scratch) (r : Fin n → ℝ) :
    (p.answer be = .abort → p.sampleFrom be sqrt eps h r = .abort) ∧
      (p.answer be ≠ .abort → p.sampleFrom be sqrt eps h r = .ub) := by
  rcases query_cases be hl with ⟨g, h1, e1, e2, _, l1⟩ | ⟨e1, e2, _⟩ | ⟨e1, e2, _⟩
  · refine ⟨fun h => by (rw [e1] at h; cases h), fun _ => ?_⟩
    have a1 : (objAfter p g).answer be = .ok g := (same_objAfter p g).answer.trans e1
    rcases query_cases be l1 with ⟨g2, h2, e1, _, e3, l2⟩ | ⟨e1, _⟩ | ⟨e1, _⟩
    · have hd' : ¬ (objAfter (objAfter p g) g2).dim ≤ (objAfter (objAfter p g) g2).scratch := hd
      simp only [EKProposal.sampleFrom, e2, e3, Outcome.ok_bind, if_neg hd']
    · rw [a1] at e1; cases e1
    · rw [a1] at e1; cases e1
  · exact ⟨fun _ => by simp only [EKProposal.sampleFrom, e2, Outcome.abort_bind],
      fun h => absurd e1 h⟩
  · exact ⟨fun h => by (rw [e1] at h; cases h),
      fun _ => by simp only [EKProposal.sampleFrom, e2, Outcome.ub_bind]⟩

section Loops

variable {M : EkModels n m} {sys : AnalyticModel ℝ n n U} {mm : AnalyticModel ℝ n m U}
  {c : EKCall n m U}

/-- The state drawn for an old particle `x` with covariance `S`. -/
noncomputable def drawn (M : EkModels n m) (z : Fin m → ℝ) (x : Fin n → ℝ)
    (S : Matrix (Fin n) (Fin n) ℝ) (r : Fin n → ℝ) : Fin n → ℝ :=
  M.ekfMean z x S + (cholesky Real.sqrt machEps (M.ekfCov x S)).2 *ᵥ r

theorem proposeLoop_eq (be : Backend) (hv : M.Valid) (hi : Implements M sys c.u mm c.s)
    (rs : Nat → Fin n → ℝ) (x : Nat → Fin n → ℝ) (w : Nat → ℝ)
    (S : Nat → Matrix (Fin n) (Fin n) ℝ) (hS : ∀ j, PSD (S j)) (hw : ∀ j, 0 ≤ w j) (k : Nat) :
    ∀ (i : Nat) (news : List (WSample ℝ (Fin n → ℝ))) (h : GaussHeap ℝ n) (p : EKProposal ℝ n m U),
      news.length = k → Busy h p sys mm →
      ∃ h' p', proposeLoop be c sys mm rs i
          ((List.range' i k).map fun j => ⟨x j, some (w j)⟩) news ((List.range' i k).map S) h p =
        .ok (((List.range' i k).map fun j => ⟨drawn M c.z (x j) (S j) (rs j), some (w j)⟩,
          (List.range' i k).map fun j => M.ekfCov (x j) (S j)), h', p') ∧ Busy h' p' sys mm ∧
        (0 < k → p'.sampleCov = some (S (i + k - 1)) ∧
          p'.args = argList sys mm (x (i + k - 1)) c.u c.z c.s) := by
  induction k with
  | zero =>
    intro i news h p hn hb
    have : news = [] := List.length_eq_zero_iff.1 hn
    subst this
    exact ⟨h, p, rfl, hb, fun h => absurd h (lt_irrefl _)⟩
  | succ k ih =>
    intro i news h p hn hb
    obtain ⟨nw, news, rfl⟩ := List.exists_cons_of_length_eq_add_one hn
    simp only [List.length_cons, Nat.add_right_cancel_iff] at hn
    simp only [List.range'_succ, List.map_cons, proposeLoop]
    obtain ⟨e1, e2⟩ := args_ok be hb.dim hb.hsys hb.hmeas hb.numArgs hb.len (S i) (x i) c.u c.z c.s
    have b1 := hb.set (some (S i)) (x i) c.u c.z c.s
    rw [Outcome.bind_eq_ok] at e1
    obtain ⟨p1, q1, q2⟩ := e1
    rw [freshEkf_eq hv be hi (hS i)] at e2
    obtain ⟨h2, e3, l2⟩ := sampleFrom_ok (sqrt := Real.sqrt) (eps := machEps) b1.live
      (by rw [b1.dim]; exact b1.scratch) e2 (rs i)
    have b2 := b1.after l2
    rcases query_cases be b2.live with ⟨g3, h3, e4, _, e5, l3⟩ | ⟨e4, _⟩ | ⟨e4, _⟩
    · have a2 := (same_objAfter _ (M.ekfMean c.z (x i) (S i), M.ekfCov (x i) (S i))).answer.trans e2
      rw [a2] at e4
      cases e4
      have b3 := b2.after l3
      obtain ⟨h4, p4, e6, b4, s4⟩ := ih (i + 1) news h3 _ hn b3
      refine ⟨h4, p4, ?_, b4, fun _ => ?_⟩
      · simp only [q1, q2, Outcome.ok_bind, e3, WSample.weightGet, WSample.weightSet,
          cassert_true (hw i), Outcome.pure_eq, e5]
        rw [e6]
        simp only [Outcome.ok_bind, drawn]
        rw [add_comm]
      · rcases Nat.eq_zero_or_pos k with rfl | hk
        · cases e6
          exact ⟨rfl, rfl⟩
        · have := s4 hk
          rwa [show i + 1 + k - 1 = i + (k + 1) - 1 by omega] at this
    · rw [(same_objAfter _ (M.ekfMean c.z (x i) (S i), M.ekfCov (x i) (S i))).answer.trans e2] at e4; cases e4
    · rw [(same_objAfter _ (M.ekfMean c.z (x i) (S i), M.ekfCov (x i) (S i))).answer.trans e2] at e4; cases e4

/-- The factor by which the weight of a particle is multiplied. -/
noncomputable def weightFactor (M : EkModels n m) (mm : AnalyticModel ℝ n m U) (z : Fin m → ℝ)
    (S : Matrix (Fin n) (Fin n) ℝ) (x y : Fin n → ℝ) : ℝ :=
  if mm.withoutInputs then M.likelihood z y * (M.transition x y / M.proposal z x S y)
  else M.likelihood z y

theorem weightFactor_pos (hv : M.Valid) {S : Matrix (Fin n) (Fin n) ℝ} (hS : PSD S) (z x y) :
    0 < weightFactor M mm z S x y := by
  have h1 : 0 < M.likelihood z y := normalDensity_pos (hv y).2 _ _
  have h2 : 0 < M.transition x y := normalDensity_pos (hv x).1 _ _
  have h3 : 0 < M.proposal z x S y := normalDensity_pos (ekfCov_pd hv hS x) _ _
  unfold weightFactor
  split <;> positivity

theorem factor_eq (be : Backend) (hv : M.Valid) (hi : Implements M sys c.u mm c.s)
    {S : Matrix (Fin n) (Fin n) ℝ} (hS : PSD S) {h : GaussHeap ℝ n} {p : EKProposal ℝ n m U}
    (hb : Busy h p sys mm) (hc : p.sampleCov = some S) {x0 : Fin n → ℝ}
    (ha : p.args = argList sys mm x0 c.u c.z c.s) (x y : Fin n → ℝ) :
    ∃ h' p', factor be c sys mm x y h p = .ok (weightFactor M mm c.z S x y, h', p') ∧
      Busy h' p' sys mm ∧ p'.sampleCov = some S ∧ p'.args = argList sys mm x c.u c.z c.s := by
  have b1 : Busy h { p with args := argList sys mm x c.u c.z c.s } sys mm :=
    ⟨hb.live, hb.dim, hb.scratch, hb.hsys, hb.hmeas, hb.numArgs,
      (argList_length _ _ _ _ _ _).trans hb.numArgs.symm⟩
  have e1 : p.argSet 0 (some (.state x)) = .ok { p with args := argList sys mm x c.u c.z c.s } := by
    rw [argSet_ok hb.len (by rw [hb.numArgs]; cases sys <;> simp [AnalyticModel.numArgs]),
      ha]
    rfl
  have hl := likelihood_eq hv be hi y c.z
  unfold factor
  rw [e1, Outcome.ok_bind]
  cases hm : mm.withoutInputs with
  | false =>
    refine ⟨h, _, ?_, b1, hc, rfl⟩
    rw [if_neg (by simp), hl, weightFactor, hm, if_neg (by simp)]
    rfl
  | true =>
    have hl' : mm.density be none y c.z = .ok (M.likelihood c.z y) := by
      cases mm with
      | noInput p d q => exact hl
      | withInput p d q => cases hm
    have e2 : inputSet sys c.u { p with args := argList sys mm x c.u c.z c.s } =
        .ok { p with args := argList sys mm x c.u c.z c.s } := by
      unfold inputSet
      cases sys with
      | noInput f d q => rfl
      | withInput f d q =>
        rw [if_neg (by simp [AnalyticModel.withoutInputs]), argSet_ok b1.len
          (by show 1 < p.numArgs; rw [hb.numArgs]; simp [AnalyticModel.numArgs]; omega)]
        rfl
    have e3 : EKProposal.answer be { p with args := argList sys mm x c.u c.z c.s } =
        .ok (M.ekfMean c.z x S, M.ekfCov x S) :=
      (answer_argList be b1.hsys b1.hmeas hc b1.numArgs rfl).trans (freshEkf_eq hv be hi hS x c.z)
    have hd : ConditionalGaussian.probabilityGet be (M.ekfMean c.z x S) (M.ekfCov x S) y =
        .ok (M.proposal c.z x S y) := Props.conditional_density be (ekfCov_pd hv hS x) _ _
    have hp : 0 < M.proposal c.z x S y := normalDensity_pos (ekfCov_pd hv hS x) _ _
    have ht : 0 < M.transition x y := normalDensity_pos (hv x).1 _ _
    have hL : 0 < M.likelihood c.z y := normalDensity_pos (hv y).2 _ _
    obtain ⟨h2, e4, l2⟩ := (probabilityGet_eq be b1.live y).1 _ _ e3 hd
    have b2 := b1.after l2
    obtain ⟨h3, e5, l3⟩ := (probabilityGet_eq be l2 y).1 _ _
      ((same_objAfter _ (M.ekfMean c.z x S, M.ekfCov x S)).answer.trans e3) hd
    refine ⟨h3, _, ?_, b2.after l3, hc, rfl⟩
    rw [if_pos rfl, hl', Outcome.ok_bind, e2, Outcome.ok_bind, e4]
    simp only [Outcome.ok_bind]
    rw [if_pos hp.ne', transition_eq hv be hi, Outcome.ok_bind, e5]
    simp only [Outcome.ok_bind, divProb, if_neg hp.ne', mkProb]
    rw [if_pos (by positivity), Outcome.ok_bind, if_pos (by positivity), weightFactor, hm,
      if_pos rfl]
    rfl

theorem weightLoop_eq (be : Backend) (hv : M.Valid) (hi : Implements M sys c.u mm c.s)
    {S : Matrix (Fin n) (Fin n) ℝ} (hS : PSD S) (x y : Nat → Fin n → ℝ) (v : Nat → Option ℝ)
    (w : Nat → ℝ) (hw : ∀ j, 0 ≤ w j) (k : Nat) :
    ∀ (i : Nat) (h : GaussHeap ℝ n) (p : EKProposal ℝ n m U) (x0 : Fin n → ℝ), Busy h p sys mm →
      p.sampleCov = some S → p.args = argList sys mm x0 c.u c.z c.s →
      ∃ h' p', weightLoop be c sys mm ((List.range' i k).map fun j => ⟨x j, v j⟩)
          ((List.range' i k).map fun j => ⟨y j, some (w j)⟩) h p =
        .ok ((List.range' i k).map fun j =>
          ⟨y j, some (w j * weightFactor M mm c.z S (x j) (y j))⟩, h', p') ∧ Busy h' p' sys mm := by
  induction k with
  | zero => intro i h p x0 hb _ _; exact ⟨h, p, rfl, hb⟩
  | succ k ih =>
    intro i h p x0 hb hc ha
    simp only [List.range'_succ, List.map_cons, weightLoop]
    obtain ⟨h1, p1, e1, b1, c1, a1⟩ := factor_eq be hv hi hS hb hc ha (x i) (y i)
    obtain ⟨h2, p2, e2, b2⟩ := ih (i + 1) h1 p1 (x i) b1 c1 a1
    refine ⟨h2, p2, ?_, b2⟩
    simp only [e1, e2, Outcome.ok_bind, WSample.weightGet, WSample.weightSet, Outcome.pure_eq,
      cassert_true (mul_nonneg (hw i) (weightFactor_pos (mm := mm) hv hS c.z (x i) (y i)).le)]

end Loops

/-- The filter holds the particles `x` with weights `w`; the covariances are `S` and the buffer read by
the weight step holds `x0`. -/
structure Ready (h : GaussHeap ℝ n) (f : EKFilter n m U) (N : Nat) (x : Nat → Fin n → ℝ) (w : Nat → ℝ)
    (S : Nat → Matrix (Fin n) (Fin n) ℝ) (x0 : Nat → Fin n → ℝ) : Prop where
  live : Live h f.proposal
  wf : Wf f.proposal
  scratch : n ≤ f.proposal.scratch
  pos : 0 < N
  nonneg : ∀ j, 0 ≤ w j
  sum : ((List.range N).map w).sum = 1
  samples : f.cloud.post.samples = (List.range N).map fun j => ⟨x j, some (w j)⟩
  sized : MCPdf.Sized f.cloud.post
  old : f.cloud.old.map WSample.value = (List.range N).map x0
  new : f.cloud.new.length = N
  covs : f.covs = (List.range N).map S
  psd : ∀ j, PSD (S j)

theorem sum_pos_of {N : Nat} {w g : Nat → ℝ} (hw : ∀ j, 0 ≤ w j)
    (hs : ((List.range N).map w).sum = 1) (hg : ∀ j, 0 < g j) :
    0 < ((List.range N).map fun j => w j * g j).sum := by
  have hnn : ∀ a ∈ (List.range N).map fun j => w j * g j, 0 ≤ a := by
    intro a ha
    obtain ⟨j, _, rfl⟩ := List.mem_map.1 ha
    exact mul_nonneg (hw j) (hg j).le
  rcases (List.sum_nonneg hnn).lt_or_eq with h | h
  · exact h
  · exfalso
    have hz : ∀ j ∈ List.range N, w j = 0 := by
      intro j hj
      have h1 := List.single_le_sum hnn _ (List.mem_map_of_mem (f := fun j => w j * g j) hj)
      rw [← h] at h1
      have h2 := le_antisymm h1 (mul_nonneg (hw j) (hg j).le)
      exact (mul_eq_zero.1 h2).resolve_right (hg j).ne'
    have h3 : (List.range N).map w = (List.range N).map fun _ => (0 : ℝ) :=
      List.map_congr_left hz
    rw [h3] at hs
    simp at hs

/-- One update without resampling. -/
theorem update_eq (be : Backend) (root : Nat → ℝ → ℝ) {M : EkModels n m} (hv : M.Valid)
    {sys : AnalyticModel ℝ n n U} {mm : AnalyticModel ℝ n m U} {u s : Option U}
    (hi : Implements M sys u mm s) (z : Fin m → ℝ) (noise : EKNoise n) {h : GaussHeap ℝ n}
    {f : EKFilter n m U} {N : Nat} {x : Nat → Fin n → ℝ} {w : Nat → ℝ}
    {S : Nat → Matrix (Fin n) (Fin n) ℝ} {x0 : Nat → Fin n → ℝ} (hr : Ready h f N x w S x0)
    (hdyn : f.dynamic = false) (hstat : ¬ (f.timestep % f.period = 0 ∧ f.timestep ≠ 0))
    (y : Nat → Fin n → ℝ) (hy : y = fun j => drawn M z (x j) (S j) (noise.prop j)) (v : Nat → ℝ)
    (hvd : v = fun j => w j * weightFactor M mm z (S (N - 1)) (x0 j) (y j)) :
    ∃ h' f', update be root noise ⟨some sys, u, some mm, z, s⟩ h f = .ok (true, h', f') ∧
      Ready h' f' N y (fun j => v j / ((List.range N).map v).sum)
        (fun j => M.ekfCov (x j) (S j)) x0 ∧ f'.timestep = f.timestep + 1 ∧
      f'.dynamic = f.dynamic ∧ f'.period = f.period ∧ f'.threshold = f.threshold := by
  obtain ⟨p1, m1, m2, m3, m4, m5, m6, m7, m8, m9⟩ := models_ok hr.wf sys mm
  rw [Outcome.bind_eq_ok] at m1
  obtain ⟨q, hq, hq'⟩ := m1
  have b1 : Busy h p1 sys mm := ⟨hr.live.of_addr m2 m3, m5, m4 ▸ hr.scratch, m6, m7, m8, m9⟩
  obtain ⟨h2, p2, e1, b2, s2⟩ := proposeLoop_eq (c := ⟨some sys, u, some mm, z, s⟩) be hv hi
    noise.prop x w S hr.psd hr.nonneg N 0 f.cloud.new h p1 hr.new b1
  rw [← List.range_eq_range', ← hr.samples, ← hr.covs] at e1
  obtain ⟨s2a, s2b⟩ := s2 hr.pos
  simp only [zero_add] at s2a s2b
  have hlen : f.cloud.post.samples.length = N := by rw [hr.samples]; simp
  -- first normalisation
  have hq1 : ((List.range N).map fun j => (⟨y j, some (w j)⟩ : WSample ℝ (Fin n → ℝ))) =
      ((List.range N).map fun j => (y j, w j)).map wrap := by
    rw [List.map_map]; rfl
  have hsum1 : (((List.range N).map fun j => (y j, w j)).map Prod.snd).sum = 1 := by
    rw [List.map_map]; exact hr.sum
  obtain ⟨post1, k1, k2, k3⟩ := listUpdateW_wrap (p := f.cloud.post) hr.sized
    (qs := (List.range N).map fun j => (y j, w j)) (by rw [hlen]; simp)
    (by intro a ha; obtain ⟨j, _, rfl⟩ := List.mem_map.1 ha; exact hr.nonneg j)
    (by rw [hsum1]; exact one_pos)
  rw [hsum1] at k2 k3
  have k2' : post1.samples = (List.range N).map fun j => ⟨y j, some (w j)⟩ := by
    rw [k2]; simp [wrap, Function.comp_def]
  -- the old samples
  obtain ⟨vo, hold⟩ : ∃ vo : Nat → Option ℝ, f.cloud.old = (List.range N).map fun j => ⟨x0 j, vo j⟩ := by
    have hl : f.cloud.old.length = N := by
      have := congrArg List.length hr.old
      simpa using this
    refine ⟨fun j => if hj : j < f.cloud.old.length then f.cloud.old[j].weight else none, ?_⟩
    apply List.ext_getElem (by simp [hl])
    intro j hj hj'
    have h1 : (f.cloud.old.map WSample.value)[j]'(by simpa using hj) = x0 j := by
      simp only [hr.old, List.getElem_map, List.getElem_range]
    simp only [List.getElem_map] at h1
    simp [← h1, hj]
  obtain ⟨h3, p3, e2, b3⟩ := weightLoop_eq (c := ⟨some sys, u, some mm, z, s⟩) be hv hi
    (hr.psd (N - 1)) x0 y vo w hr.nonneg N 0 h2 p2 _ b2 s2a s2b
  rw [← List.range_eq_range', ← hold, ← k2'] at e2
  have hg : ∀ j, 0 < weightFactor M mm z (S (N - 1)) (x0 j) (y j) := fun j =>
    weightFactor_pos hv (hr.psd (N - 1)) _ _ _
  have hq2 : ((List.range N).map fun j => (⟨y j, some (w j * weightFactor M mm z (S (N - 1)) (x0 j)
      (y j))⟩ : WSample ℝ (Fin n → ℝ))) = ((List.range N).map fun j => (y j, v j)).map wrap := by
    rw [List.map_map, hvd]; rfl
  have hv0 : ∀ j, 0 ≤ v j := by rw [hvd]; exact fun j => mul_nonneg (hr.nonneg j) (hg j).le
  have hvs : (((List.range N).map fun j => (y j, v j)).map Prod.snd).sum =
      ((List.range N).map v).sum := by rw [List.map_map]; rfl
  have hvp : 0 < ((List.range N).map v).sum := by
    rw [hvd]; exact sum_pos_of hr.nonneg hr.sum hg
  have hlen1 : post1.samples.length = N := by rw [k2']; simp
  have hsized1 : MCPdf.Sized post1 := by
    show post1.cum.length = _
    rw [k3.2.2.1, hlen1]
    simp
  obtain ⟨post2, j1, j2, j3⟩ := listUpdateW_wrap (p := post1) hsized1
    (qs := (List.range N).map fun j => (y j, v j)) (by rw [hlen1]; simp)
    (by intro a ha; obtain ⟨j, _, rfl⟩ := List.mem_map.1 ha; exact hv0 j)
    (by rw [hvs]; exact hvp)
  rw [hvs] at j2 j3
  have j2' : post2.samples = (List.range N).map fun j =>
      ⟨y j, some (v j / ((List.range N).map v).sum)⟩ := by
    rw [j2]; simp [wrap, Function.comp_def]
  refine ⟨h3, { f with
      cloud := { f.cloud with post := post2, new := (List.range N).map fun j =>
        ⟨y j, some (w j * weightFactor M mm z (S (N - 1)) (x0 j) (y j))⟩ },
      ownOld := f.cloud.post.listGet, covs := (List.range N).map fun j => M.ekfCov (x j) (S j),
      proposal := p3, timestep := f.timestep + 1 }, ?_, ?_, rfl, rfl, rfl, rfl⟩
  · have c1 : ¬ (f.dynamic = false ∧ f.timestep % f.period = 0 ∧ f.timestep ≠ 0) :=
      fun hc => hstat hc.2
    simp only [update, hq, hq', Outcome.ok_bind, staticStep, if_neg c1, deref, proposalStep]
    rw [show f.cloud.post.listGet = f.cloud.post.samples from rfl, e1]
    simp only [Outcome.ok_bind]
    rw [show ((List.range N).map fun j => (⟨drawn M z (x j) (S j) (noise.prop j),
      some (w j)⟩ : WSample ℝ (Fin n → ℝ))) = ((List.range N).map fun j => (y j, w j)).map wrap by
        rw [← hq1, hy]]
    rw [k1]
    simp only [Outcome.ok_bind, Outcome.pure_eq, weightStep]
    rw [show post1.listGet = post1.samples from rfl, e2]
    simp only [Outcome.ok_bind]
    rw [hq2, j1]
    simp only [Outcome.ok_bind, dynamicStep, hdyn]
    rfl
  · refine ⟨b3.live, ⟨Or.inr b3.dim, b3.len⟩, b3.scratch, hr.pos,
      fun j => div_nonneg (hv0 j) hvp.le, ?_, j2', ?_, hr.old, by simp, rfl,
      fun j => (ekfCov_pd hv (hr.psd j) (x j)).psd⟩
    · have := j3.2.1.2
      rw [List.map_map, List.map_map] at this
      exact this
    · show post2.cum.length = post2.samples.length + 1
      rw [j3.2.2.1, j2']
      simp

/-- `EKParticleFilter` never changes the buffer that the weight step reads. -/
theorem update_old {be : Backend} {root : Nat → ℝ → ℝ} {noise : EKNoise n} {c : EKCall n m U}
    {h h' : GaussHeap ℝ n} {f f' : EKFilter n m U} {b : Bool}
    (hu : update be root noise c h f = .ok (b, h', f')) : f'.cloud.old = f.cloud.old := by
  have hres : ∀ {us : Nat → ℝ} {f f' : EKFilter n m U}, f.resample root us = .ok f' →
      f'.cloud.old = f.cloud.old := by
    intro us f f' hf
    simp only [resample, Outcome.bind_eq_ok, Outcome.pure_eq, Outcome.ok.injEq, Prod.exists] at hf
    obtain ⟨_, _, _, _, rfl⟩ := hf
    rfl
  simp only [update, Outcome.bind_eq_ok, Outcome.pure_eq, Outcome.ok.injEq, Prod.exists,
    Prod.mk.injEq] at hu
  obtain ⟨p1, _, p2, _, f1, h1, sys, _, mm, _, b1, h2, f2, e2, b2, h3, f3, e3, f4, e4, _, _, rfl⟩ := hu
  have a1 : f1.cloud.old = f.cloud.old := by
    unfold staticStep at h1
    split at h1
    · exact (hres h1).trans rfl
    · cases h1; rfl
  have a2 : f2.cloud.old = f1.cloud.old := by
    simp only [proposalStep, Outcome.bind_eq_ok, Outcome.pure_eq, Outcome.ok.injEq, Prod.exists,
      Prod.mk.injEq] at e2
    obtain ⟨_, _, _, _, _, _, _, _, _, _, rfl⟩ := e2
    rfl
  have a3 : f3.cloud.old = f2.cloud.old := by
    simp only [weightStep, Outcome.bind_eq_ok, Outcome.pure_eq, Outcome.ok.injEq, Prod.exists,
      Prod.mk.injEq] at e3
    obtain ⟨_, _, _, _, _, _, _, _, _, rfl⟩ := e3
    rfl
  have a4 : f4.cloud.old = f3.cloud.old := by
    unfold dynamicStep at e4
    split at e4
    · simp only [Outcome.bind_eq_ok] at e4
      obtain ⟨_, _, e5⟩ := e4
      split at e5
      · exact (hres e5).trans rfl
      · cases e5; rfl
    · cases e4; rfl
  rw [a4, a3, a2, a1]

theorem run_old {be : Backend} {root : Nat → ℝ → ℝ} {calls : List (EKNoise n × EKCall n m U)}
    {h h' : GaussHeap ℝ n} {f f' : EKFilter n m U} {b : Bool}
    (hu : run be root calls h f = .ok (b, h', f')) : f'.cloud.old = f.cloud.old := by
  induction calls generalizing h f b with
  | nil => cases hu; rfl
  | cons c cs ih =>
    obtain ⟨noise, c⟩ := c
    simp only [run, Outcome.bind_eq_ok, Outcome.pure_eq, Outcome.ok.injEq, Prod.exists,
      Prod.mk.injEq] at hu
    obtain ⟨_, h1, f1, e1, _, h2, f2, e2, _, rfl, rfl⟩ := hu
    exact (ih e2).trans (update_old e1)

end EKFilter

end BFL
