import Verif.Lemmas.EKParticleFilter
import Verif.Props.Moments

/-!
# Construction and updates of the particle filter with the EKF proposal density
-/

set_option linter.unusedSectionVars false

namespace BFL.Props

open Matrix Spec EKProposal EKFilter MCPdf

variable {n m : Nat} {U : Type}

/-- Scaling normalised weights by 1. -/
theorem scaled_one {T : Type} (l : List (WSample ℝ T)) : scaled l 1 = l := by
  unfold scaled
  conv_rhs => rw [← List.map_id l]
  apply List.map_congr_left
  intro s _
  obtain ⟨v, w⟩ := s
  cases w <;> simp

/-- The members after construction from a normalised prior. -/
theorem ekMake_ok (h : GaussHeap ℝ n) {prior : MCPdf ℝ (Fin n → ℝ)} {ws : List ℝ}
    (hg : Good prior ws) {S : Matrix (Fin n) (Fin n) ℝ} (hS : prior.covGet = .ok S) {period : Nat}
    {thr : ℝ} {dyn : Bool} (hp : ParticleFilter.policy period thr = .ok dyn) :
    ∃ post, EKFilter.make (m := m) (U := U) h prior period thr =
        .ok ((EKProposal.make h (m := m) (U := U) none none).1,
          EKFilter.mk ⟨post, prior.listGet, prior.listGet, []⟩
            (List.replicate prior.numSamples ⟨0, none⟩) (List.replicate prior.numSamples S) 0 dyn
            period thr (EKProposal.make h none none).2) ∧
      post.samples = prior.samples ∧ Sized post := by
  have hs : Sized { (MCPdf.make prior.numSamples (0 : Fin n → ℝ)).numSamplesSet 0
      prior.listGet.length with samples := prior.listGet } := by
    unfold Sized
    simpa using numSamplesSet_sized 0 (make_sized prior.numSamples (0 : Fin n → ℝ))
      prior.listGet.length
  have h1 := normalizeWeights_pos hs hg.1 hg.2.1.1 (by rw [hg.2.1.2]; exact one_pos)
  rw [hg.2.1.2] at h1
  refine ⟨⟨prior.samples, runningSums 0 (ws.map (· / 1)), 1⟩, ?_, rfl, ?_⟩
  · simp only [EKFilter.make, ParticleFilter.make, listSetW, h1, Outcome.ok_bind, cassert_true, hp,
      hS, Outcome.pure_eq]
    rw [show scaled prior.listGet 1 = prior.samples from scaled_one _]
  · show (runningSums 0 (ws.map (· / 1))).length = prior.samples.length + 1
    rw [hg.length]
    simp

/-- The same, read from a call that succeeded. -/
theorem ekMake_inv {h h1 : GaussHeap ℝ n} {prior : MCPdf ℝ (Fin n → ℝ)} {period : Nat} {thr : ℝ}
    {f : EKFilter n m U} (ha : Assigned 0 prior)
    (hm : EKFilter.make h prior period thr = .ok (h1, f)) :
    ∃ S dyn post, prior.covGet = .ok S ∧ PSD S ∧ ParticleFilter.policy period thr = .ok dyn ∧
      h1 = (EKProposal.make h (m := m) (U := U) none none).1 ∧
      f = EKFilter.mk ⟨post, prior.listGet, prior.listGet, []⟩
            (List.replicate prior.numSamples ⟨0, none⟩) (List.replicate prior.numSamples S) 0 dyn
            period thr (EKProposal.make h none none).2 ∧
      post.samples = prior.samples ∧ Sized post := by
  obtain ⟨ws, hg⟩ := ha.good
  obtain ⟨S, hS, hs1, hs2⟩ := C11_cov_psd ha
  have hp : ∃ dyn, ParticleFilter.policy period thr = .ok dyn := by
    simp only [EKFilter.make, ParticleFilter.make, Outcome.bind_eq_ok] at hm
    obtain ⟨_, ⟨_, _, _, _, dyn, hd, _⟩, _⟩ := hm
    exact ⟨dyn, hd⟩
  obtain ⟨dyn, hd⟩ := hp
  obtain ⟨post, e1, e2, e3⟩ := ekMake_ok (m := m) (U := U) h hg hS hd
  rw [hm] at e1
  simp only [Outcome.ok.injEq, Prod.mk.injEq] at e1
  exact ⟨S, dyn, post, hS, ⟨hs1, hs2⟩, hd, e1.1, e1.2, e2, e3⟩

theorem Wf.scratch {p : EKProposal ℝ n m U} (hw : Wf p) (k : Nat) : Wf { p with scratch := k } := hw

/-- The first update of a constructed filter up to the first sample. -/
theorem ekFirst {h h1 : GaussHeap ℝ n} {prior : MCPdf ℝ (Fin n → ℝ)} {period : Nat} {thr : ℝ}
    {f : EKFilter n m U} (ha : Assigned 0 prior)
    (hm : EKFilter.make h prior period thr = .ok (h1, f)) (hn : 0 < n) (be : Backend)
    (root : Nat → ℝ → ℝ) (noise : EKNoise n) (sys : AnalyticModel ℝ n n U)
    (mm : AnalyticModel ℝ n m U) (u s : Option U) (z : Fin m → ℝ) :
    ∃ x S, prior.covGet = .ok S ∧ PSD S ∧ (freshEkf be x S (some (sys, givenTo sys u)) (some (mm, z, givenTo mm s)) = .abort →
        update be root noise ⟨some sys, u, some mm, z, s⟩ h1 f = .abort) ∧
      (freshEkf be x S (some (sys, givenTo sys u)) (some (mm, z, givenTo mm s)) ≠ .abort →
        update be root noise ⟨some sys, u, some mm, z, s⟩ h1 f = .ub) := by
  obtain ⟨S, dyn, post, hS, hpsd, _, rfl, rfl, e1, _⟩ := ekMake_inv ha hm
  obtain ⟨ws, hg⟩ := ha.good
  have hpos : 0 < prior.samples.length := by rw [hg.length]; exact hg.pos
  obtain ⟨o, os, hos⟩ : ∃ o os, prior.samples = o :: os := by
    cases hc : prior.samples with
    | nil => rw [hc] at hpos; simp at hpos
    | cons o os => exact ⟨o, os, rfl⟩
  obtain ⟨k, hk⟩ : ∃ k, prior.numSamples = k + 1 := ⟨os.length, by simp [numSamples, hos]⟩
  have hwf := Wf.make h (K := ℝ) (m := m) (U := U) none none
  have hlive := make_live h (K := ℝ) (m := m) (U := U) none none
  obtain ⟨p1, m1, m2, m3, m4, m5, m6, m7, m8, m9⟩ := models_ok hwf sys mm
  rw [Outcome.bind_eq_ok] at m1
  obtain ⟨q, hq, hq'⟩ := m1
  obtain ⟨a1, a2⟩ := args_ok be m5 m6 m7 m8 m9 S o.value u z s
  rw [Outcome.bind_eq_ok] at a1
  obtain ⟨q2, hq2, hq2'⟩ := a1
  have hd : ¬ (EKProposal.dim { p1 with sampleCov := some S, args := argList sys mm o.value u z s }) ≤
      EKProposal.scratch { p1 with sampleCov := some S, args := argList sys mm o.value u z s } := by
    show ¬ p1.dim ≤ p1.scratch
    rw [m5, m4]
    show ¬ n ≤ 0
    omega
  have hl1 : Live (EKProposal.make h (K := ℝ) (m := m) (U := U) none none).1
      { p1 with sampleCov := some S, args := argList sys mm o.value u z s } :=
    hlive.of_addr m2 m3
  obtain ⟨c1, c2⟩ := sampleFrom_ub (be := be) (sqrt := Real.sqrt) (eps := machEps) hl1 hd
    (noise.prop 0)
  rw [a2] at c1 c2
  have hst : ¬ (dyn = false ∧ 0 % period = 0 ∧ (0 : Nat) ≠ 0) := fun hc => hc.2.2 rfl
  refine ⟨o.value, S, hS, hpsd, fun hab => ?_, fun hab => ?_⟩
  · simp only [update, hq, hq', Outcome.ok_bind, staticStep, if_neg hst, deref, proposalStep, listGet,
      e1, hos, hk, List.replicate_succ, proposeLoop, hq2, hq2', c1 hab, Outcome.abort_bind]
  · simp only [update, hq, hq', Outcome.ok_bind, staticStep, if_neg hst, deref, proposalStep, listGet,
      e1, hos, hk, List.replicate_succ, proposeLoop, hq2, hq2', c2 hab, Outcome.ub_bind]

theorem update_program (be : Backend) (root : Nat → ℝ → ℝ) {t : EkUpdate n m U} (ht : t.Ok)
    {h : GaussHeap ℝ n} {f : EKFilter n m U} {N : Nat} {c : EkCloud n} {x0 : Nat → Fin n → ℝ}
    (hr : Ready h f N c.x c.w c.S x0) (hdyn : f.dynamic = false)
    (hstat : ¬ (f.timestep % f.period = 0 ∧ f.timestep ≠ 0)) :
    ∃ h' f', update be root t.call.1 t.call.2 h f = .ok (true, h', f') ∧
      Ready h' f' N (programStep N x0 (!t.meas.withoutInputs) c (t.step c)).x
        (programStep N x0 (!t.meas.withoutInputs) c (t.step c)).w
        (programStep N x0 (!t.meas.withoutInputs) c (t.step c)).S x0 ∧
      f'.timestep = f.timestep + 1 ∧ f'.dynamic = f.dynamic ∧ f'.period = f.period := by
  have hf : (fun j => c.w j * weightFactor t.models t.meas t.z (c.S (N - 1)) (x0 j)
        (EKFilter.drawn t.models t.z (c.x j) (c.S j) (t.noise.prop j))) =
      fun j => c.w j * if (!t.meas.withoutInputs) = true then
          t.models.likelihood t.z ((t.step c).y j)
        else t.models.likelihood t.z ((t.step c).y j) * t.models.transition (x0 j) ((t.step c).y j) /
          t.models.proposal t.z (x0 j) (c.S (N - 1)) ((t.step c).y j) := by
    funext j
    simp only [weightFactor, EkUpdate.step, EKFilter.drawn]
    cases t.meas.withoutInputs <;> simp [mul_div_assoc]
  obtain ⟨h', f', e1, e2, e3, e4, e5, _⟩ := update_eq be root ht.1 ht.2 t.z t.noise hr hdyn hstat _ rfl
    _ hf.symm
  exact ⟨h', f', e1, e2, e3, e4, e5⟩

theorem run_program (be : Backend) (root : Nat → ℝ → ℝ) {N : Nat} {x0 : Nat → Fin n → ℝ}
    (ts : List (EkUpdate n m U)) : ∀ {h : GaussHeap ℝ n} {f : EKFilter n m U} {c : EkCloud n},
    (∀ t ∈ ts, t.Ok) → Ready h f N c.x c.w c.S x0 → f.dynamic = false →
    f.timestep + ts.length ≤ f.period →
    ∃ h' f', EKFilter.run be root (ts.map EkUpdate.call) h f = .ok (true, h', f') ∧
      Ready h' f' N (programRun N x0 ts c).x (programRun N x0 ts c).w (programRun N x0 ts c).S x0 := by
  induction ts with
  | nil => intro h f c _ hr _ _; exact ⟨h, f, rfl, hr⟩
  | cons t ts ih =>
    intro h f c ht hr hd hp
    simp only [List.length_cons] at hp
    obtain ⟨h1, f1, e1, e2, e3, e4, e5⟩ := update_program be root (ht t (by simp)) hr hd (by
      rintro ⟨h1, h2⟩
      rw [Nat.mod_eq_of_lt (by omega)] at h1
      exact h2 h1)
    obtain ⟨h2, f2, g1, g2⟩ := ih (h := h1) (f := f1)
      (c := programStep N x0 (!t.meas.withoutInputs) c (t.step c))
      (fun t' ht' => ht t' (by simp [ht'])) e2 (e4.trans hd) (by rw [e3, e5]; omega)
    refine ⟨h2, f2, ?_, g2⟩
    simp only [List.map_cons, EKFilter.run]
    rw [show t.call = (t.call.1, t.call.2) from rfl]
    simp only [e1, g1, Outcome.ok_bind, Outcome.pure_eq, Bool.and_self]

/-- The cloud of a prior: its particles with the covariance of the prior. -/
theorem make_ready {h h1 : GaussHeap ℝ n} {prior : MCPdf ℝ (Fin n → ℝ)} {period : Nat}
    {f : EKFilter n m U} (ha : Assigned 0 prior)
    (hm : EKFilter.make h prior period 0 = .ok (h1, f)) {N : Nat} {x : Nat → Fin n → ℝ}
    {w : Nat → ℝ} (hp : prior.listGet = (List.range N).map fun j => ⟨x j, some (w j)⟩)
    {S : Matrix (Fin n) (Fin n) ℝ} (hS : prior.covGet = .ok S) :
    Ready h1 (enlarged f) N x (fun j => if j < N then w j else 0) (fun _ => S) x ∧
      f.dynamic = false ∧ f.timestep = 0 ∧ f.period = period := by
  obtain ⟨S', dyn, post, hS', hpsd, hpol, rfl, rfl, e1, e2⟩ := ekMake_inv ha hm
  rw [hS] at hS'
  cases hS'
  obtain ⟨ws, hg⟩ := ha.good
  have hp' : prior.samples = (List.range N).map fun j => ⟨x j, some (w j)⟩ := hp
  have hws : ws = (List.range N).map w := by
    have := hg.1
    rw [hp', List.map_map] at this
    have h2 : ((List.range N).map w).map some = ws.map some := by
      rw [← this, List.map_map]; rfl
    exact (List.map_injective_iff.2 (Option.some_injective _) h2).symm
  have hN : prior.numSamples = N := by simp [numSamples, hp']
  have hcongr : ∀ {β : Type} (g : Nat → ℝ → β), ((List.range N).map fun j => g j (if j < N then w j
      else 0)) = (List.range N).map fun j => g j (w j) := by
    intro β g
    apply List.map_congr_left
    intro j hj
    rw [if_pos (List.mem_range.1 hj)]
  refine ⟨⟨?_, ?_, le_rfl, ?_, ?_, ?_, ?_, e2, ?_, ?_, ?_, fun _ => hpsd⟩, ?_, rfl, rfl⟩
  · exact (make_live h (K := ℝ) (m := m) (U := U) none none).of_addr rfl rfl
  · exact Wf.scratch (Wf.make h (K := ℝ) (m := m) (U := U) none none) _
  · have := hg.pos
    rw [hws] at this
    simpa using this
  · intro j
    split
    · rename_i hj
      exact hg.2.1.1 _ (by rw [hws]; exact List.mem_map_of_mem (List.mem_range.2 hj))
    · exact le_rfl
  · rw [hcongr fun _ a => a, ← hws]
    exact hg.2.1.2
  · show post.samples = _
    rw [hcongr fun j a => (⟨x j, some a⟩ : WSample ℝ (Fin n → ℝ)), e1, hp']
  · show prior.listGet.map WSample.value = _
    rw [hp, List.map_map]
    rfl
  · show prior.listGet.length = N
    rw [hp]; simp
  · show List.replicate prior.numSamples S = _
    rw [hN]
    simp
  · simp only [ParticleFilter.policy, Outcome.bind_eq_ok, Outcome.pure_eq, Outcome.ok.injEq] at hpol
    obtain ⟨_, h4, _, h5, h6⟩ := hpol
    rw [cassert_eq_ok] at h4 h5
    show dyn = false
    rw [← h6]
    simpa using h4

/-- Clouds that agree on the first `N` particles. -/
def AgreeOn (N : Nat) (c c' : EkCloud n) : Prop := c.x = c'.x ∧ c.S = c'.S ∧ ∀ j < N, c.w j = c'.w j

theorem normalised_congr {N : Nat} {v v' : Nat → ℝ} (h : ∀ j < N, v j = v' j) :
    ∀ j < N, normalised N v j = normalised N v' j := by
  intro j hj
  have : (List.range N).map v = (List.range N).map v' :=
    List.map_congr_left fun k hk => h k (List.mem_range.1 hk)
  simp only [normalised, this, h j hj]

theorem AgreeOn.programStep {N : Nat} {x0 : Nat → Fin n → ℝ} {b : Bool} {c c' : EkCloud n}
    (h : AgreeOn N c c') (t : EkStep n m) :
    AgreeOn N (programStep N x0 b c t) (programStep N x0 b c' t) := by
  obtain ⟨x, w, S⟩ := c
  obtain ⟨x', w', S'⟩ := c'
  obtain ⟨h1, h2, h3⟩ := h
  simp only at h1 h2 h3
  subst h1 h2
  refine ⟨rfl, rfl, normalised_congr fun j hj => ?_⟩
  show w j * _ = w' j * _
  rw [h3 j hj]

theorem AgreeOn.programRun {N : Nat} {x0 : Nat → Fin n → ℝ} (ts : List (EkUpdate n m U)) :
    ∀ {c c' : EkCloud n}, AgreeOn N c c' → AgreeOn N (programRun N x0 ts c) (programRun N x0 ts c') := by
  induction ts with
  | nil => exact fun h => h
  | cons t ts ih =>
    intro c c' h
    have ht : t.step c = t.step c' := by
      simp only [EkUpdate.step, h.1, h.2.1]
    simp only [Spec.programRun]
    rw [ht]
    exact ih (h.programStep _)

theorem AgreeOn.list {N : Nat} {c c' : EkCloud n} (h : AgreeOn N c c') : c.list N = c'.list N := by
  apply List.map_congr_left
  intro j hj
  rw [h.1, h.2.2 j (List.mem_range.1 hj)]

end BFL.Props
