import Verif.Spec.Split
import Verif.Props.Histogram
import Verif.Props.ParticleFilter
import Verif.Model.MixtureParticleFilter
import Verif.Props.KalmanFamily

set_option linter.unusedSectionVars false

/-!
# C92: an update with motion and reading is an update with the motion and one with the reading
-/

namespace BFL.Props

open BFL.Spec

section

variable {Z K : Type} [Field K] [LinearOrder K]

/-- `Update(sysmodel, u, measmodel, z, s)` against `Update(sysmodel, u)` and
`Update(measmodel, z, s)`. -/
def HistogramHalves (c a b : HistogramFilter.Call Z K) : Prop :=
  a = { sys := c.sys, meas := none } ∧ b = { sys := none, meas := c.meas }

/-- **C92, histogram filter.** Making any of the updates of a history in two halves changes nothing:
not the filter, not the results, not whether the run fails. -/
theorem C92_histogram {cs ds : List (HistogramFilter.Call Z K)} (h : Split HistogramHalves cs ds)
    (f : HistogramFilter K) : f.run cs = f.run ds := by
  induction h generalizing f with
  | nil => rfl
  | keep c _ ih =>
    simp only [HistogramFilter.run, ih]
  | @split c a b cs ds hc _ ih =>
    obtain ⟨rfl, rfl⟩ := hc
    have h1 (g : HistogramFilter K) : g.measPart (none : Option (Model Int Z K × Z × Option Int)) =
        .ok g := rfl
    have h2 (g : HistogramFilter K) : g.sysPart none = .ok g := rfl
    simp only [HistogramFilter.run, HistogramFilter.update, ih, h1, h2]
    rcases f.sysPart c.sys with f1 | _ | _
    · simp only [Outcome.ok_bind, Outcome.pure_eq]
      rcases f1.measPart c.meas with f2 | _ | _
      · simp only [Outcome.ok_bind]
        rcases f2.run ds with r | _ | _ <;> simp
      · rfl
      · rfl
    · rfl
    · rfl

open HistogramExample in
/-- The second of two updates made in halves; `C25_exact` says what the history ends with. -/
example :
    let both : HistogramFilter.Call Int ℚ := ⟨some (sys, none), some (meas, 1, none)⟩
    filter.run [both, both] =
      filter.run [both, ⟨some (sys, none), none⟩, ⟨none, some (meas, 1, none)⟩] :=
  C92_histogram (.keep _ (.split ⟨rfl, rfl⟩ .nil)) _

end

section

variable {K U : Type} [Field K] [LinearOrder K] {n : Nat}

/-- The same for the Kalman filters. -/
def KalmanHalves (c a b : KStep K n U) : Prop :=
  a = ⟨c.m, c.sys, none⟩ ∧ b = ⟨c.m, none, c.meas⟩

/-- **C92, extended and iterated Kalman filter.** -/
theorem C92_kalman {cs ds : List (KStep K n U)} (h : Split KalmanHalves cs ds) (be : Backend)
    (kind : KF.Kind K n) (f : KF K n) : runAll be kind cs f = runAll be kind ds f := by
  induction h generalizing f with
  | nil => rfl
  | keep c _ ih => simp only [runAll, ih]
  | @split c a b cs ds hc _ ih =>
    obtain ⟨rfl, rfl⟩ := hc
    have h1 (g : KF K n) :
        g.measPart be kind (none : Option (AnalyticModel K n c.m U × (Fin c.m → K) × Option U)) =
          .ok g := rfl
    have h2 (g : KF K n) : g.sysPart be (none : Option (AnalyticModel K n n U × Option U)) =
        .ok g := rfl
    simp only [runAll, KF.update, ih, h1, h2]
    rcases f.sysPart be c.sys with f1 | _ | _
    · simp only [Outcome.ok_bind, Outcome.pure_eq]
    · rfl
    · rfl

example : Split KalmanHalves
    [⟨1, some (KFixture.sys, none), some (KFixture.meas, ![3], none)⟩]
    [⟨1, some (KFixture.sys, none), none⟩, ⟨1, none, some (KFixture.meas, ![3], none)⟩] :=
  .split ⟨rfl, rfl⟩ .nil

end

section

variable {R SV MV K : Type} [Field K] [LinearOrder K]

/-- The same for the particle filters; both halves have the random numbers of the whole. -/
def ParticleHalves {N : Type} (c a b : N × UpdateCall R SV MV K) : Prop :=
  a = (c.1, { c.2 with meas := none }) ∧ b = (c.1, { c.2 with sys := none })

/-- **C92, bootstrap filter.** -/
theorem C92_bootstrap {dflt : SV} {root : Nat → K → K}
    {cs ds : List (Noise R K × UpdateCall R SV MV K)} (h : Split ParticleHalves cs ds)
    (f : ParticleFilter R SV K) :
    ParticleFilter.run (ParticleFilter.bootUpdate dflt root) cs f =
      ParticleFilter.run (ParticleFilter.bootUpdate dflt root) ds f := by
  induction h generalizing f with
  | nil => rfl
  | keep c _ ih => simp only [ParticleFilter.run, ih]
  | @split c a b cs ds hc _ ih =>
    obtain ⟨rfl, rfl⟩ := hc
    obtain ⟨noise, sys, u, meas, z, s⟩ := c
    have h1 : f.bootSys dflt root noise ⟨sys, u, none, z, s⟩ =
        f.bootSys dflt root noise ⟨sys, u, meas, z, s⟩ := rfl
    simp only [ParticleFilter.run, ParticleFilter.bootUpdate, ih, h1]
    cases f.bootSys dflt root noise ⟨sys, u, meas, z, s⟩ with
    | ok r =>
      obtain ⟨b, f1⟩ := r
      simp only [Outcome.ok_bind, ParticleFilter.bootMeas, ParticleFilter.bootSys]
      cases meas with
      | none =>
        simp only [Outcome.ok_bind]
        cases ParticleFilter.run (ParticleFilter.bootUpdate dflt root) ds f1 <;> simp
      | some mm =>
        simp only
        cases f1.update dflt root noise ⟨none, u, some mm, z, s⟩ with
        | ok r =>
          obtain ⟨b', f2⟩ := r
          simp only [Outcome.ok_bind, Outcome.pure_eq]
          cases ParticleFilter.run (ParticleFilter.bootUpdate dflt root) ds f2 with
          | ok r => simp [Bool.and_comm, Bool.and_left_comm]
          | abort => rfl
          | ub => rfl
        | abort => rfl
        | ub => rfl
    | abort => rfl
    | ub => rfl

/-- Both histories of the fixture, with the update of `Fixture.observe` beside `C29_update`. -/
example : Split ParticleHalves
      [(Fixture.noise, (⟨some Fixture.sys, 0, some Fixture.meas, 2, 0⟩ : UpdateCall Nat Nat Nat ℚ))]
      [(Fixture.noise, ⟨some Fixture.sys, 0, none, 2, 0⟩),
       (Fixture.noise, ⟨none, 0, some Fixture.meas, 2, 0⟩)] ∧
    Fixture.observe (ParticleFilter.run (ParticleFilter.bootUpdate 0 Fixture.root)
      [(Fixture.noise, (⟨some Fixture.sys, 0, none, 2, 0⟩ : UpdateCall Nat Nat Nat ℚ)),
       (Fixture.noise, ⟨none, 0, some Fixture.meas, 2, 0⟩)] (Fixture.start 1 0 .multinomial)) =
      .ok (true, [⟨0, some (1/4)⟩, ⟨2, some (3/4)⟩]) :=
  ⟨.split ⟨rfl, rfl⟩ .nil, by decide +kernel⟩

/-- **C92, mixture bootstrap filter**, for one update. -/
theorem C92_mixture_bootstrap (dflt : SV) (root : Nat → K → K) (noise : Nat → Noise R K)
    (c : UpdateCall R SV MV K) (f : MixtureParticleFilter R SV K) :
    f.bootUpdate dflt root noise c = do
      let (b, f1) ← f.bootUpdate dflt root noise { c with meas := none }
      let (b', f2) ← f1.bootUpdate dflt root noise { c with sys := none }
      return (b && b', f2) := by
  obtain ⟨sys, u, meas, z, s⟩ := c
  have h1 : f.bootSys dflt root noise ⟨sys, u, none, z, s⟩ =
      f.bootSys dflt root noise ⟨sys, u, meas, z, s⟩ := rfl
  simp only [MixtureParticleFilter.bootUpdate, h1]
  cases f.bootSys dflt root noise ⟨sys, u, meas, z, s⟩ with
  | ok r =>
    obtain ⟨b, f1⟩ := r
    simp only [Outcome.ok_bind, MixtureParticleFilter.bootMeas, MixtureParticleFilter.bootSys]
    cases meas with
    | none => simp
    | some mm =>
      simp only
      cases f1.update dflt root noise ⟨none, u, some mm, z, s⟩ with
      | ok r => simp [Bool.and_comm]
      | abort => rfl
      | ub => rfl
  | abort => rfl
  | ub => rfl

end

section

open ParticleFilter

variable {R SV MV K : Type} [Field K] [LinearOrder K] [IsStrictOrderedRing K]
variable {dflt : SV} {root : Nat → K → K} {period : Nat} {threshold : K}

/-- **C92, particle filter, partial.** It holds if the proposal has the density of the motion model,
positive at whatever is drawn, or if the reading has sensor parameters (C26: the proposal and the
motion model then have no influence on the weights). Missing: other proposals, where it is false
(`C92_proposal_false`). -/
theorem C92_particle_partial (hroot : IsRoot root) {f : ParticleFilter R SV K} {n : Nat}
    (hr : Reached MV dflt root period threshold .multinomial f n) {ps : List (SV × K)}
    (hh : Holds f.postGet ps) (hn : Normalised ps)
    {m : SysModel R SV K} {T : SV → SV → SV → K} (hm : IsTransition m T)
    {q : Proposal R SV K} {Q : SV → SV → SV → K} (hq : f.proposal = some q) (hQ : IsProposal q m Q)
    {mm : Model SV MV K} {L : MV → SV → SV → K} (hl : IsLikelihood mm L)
    (hpos : WithSensor mm ∨ ∀ r x u prev y, q.draw r (argsFor m x u) prev = .ok y →
      Q x u y = T x u y ∧ T x u y ≠ 0)
    {noise : Noise R K} (hus : Uniforms noise.static) (u s : SV) (z : MV) :
    f.update dflt root noise ⟨some m, u, some mm, z, s⟩ = do
      let (b, f1) ← f.update dflt root noise (⟨some m, u, none, z, s⟩ : UpdateCall R SV MV K)
      let (b', f2) ← f1.update dflt root noise ⟨none, u, some mm, z, s⟩
      return (b && b', f2) := by
  have h := hr.ready (ps := ps) hh hn
  obtain ⟨f1, ps1, ps2, h1, h2, h3, h4, h5, h6, h7⟩ :=
    sysPart_ready (dflt := dflt) (c := ⟨some m, u, none, z, s⟩) hroot hm hQ hus rfl hq h
  have h1' : sysPart dflt root noise ⟨some m, u, some mm, z, s⟩ (true, f) = .ok (true, f1) := h1
  have hw : f1.cloud.reweight (Cloud.factor f1.proposal none u mm z s) =
      f1.cloud.reweight (Cloud.factor f1.proposal (some m) u mm z s) := by
    unfold Cloud.reweight
    rw [Cloud.weightLoop_congr (f' := Cloud.factor f1.proposal (some m) u mm z s)]
    rw [show f1.cloud.post.listGet = ps2.map wrap from h2.live.samples, h4, h3]
    intro i ho hi
    simp only [List.length_map] at ho hi
    simp only [List.getElem_map, wrap_value]
    have hlik : Cloud.factor (some q) none u mm z s ps1[i].1 ps2[i].1 = .ok (L z ps2[i].1 s) := by
      simp only [Cloud.factor, hl.likelihood]
    rw [hlik]
    by_cases hs : WithSensor mm
    · rw [factor_sensor hQ.arg0 hl hs]
    · rw [factor_eq hm hQ hl hs]
      obtain ⟨_, h7⟩ := h7
      obtain ⟨⟨prev, hdr⟩, _⟩ := h7 i ho
      obtain ⟨he, hne⟩ := (hpos.resolve_left hs) _ _ _ _ _ hdr
      simp [importance, he, hne]
  have hws : f1.weightStep ⟨none, u, some mm, z, s⟩ mm =
      f1.weightStep ⟨some m, u, some mm, z, s⟩ mm := by
    simp only [weightStep, hw]
  have hL : f.update dflt root noise ⟨some m, u, some mm, z, s⟩ =
      measPart dflt root noise ⟨some m, u, some mm, z, s⟩ (true, f1) := by
    unfold update
    rw [h1', Outcome.ok_bind]
  have hR : f.update dflt root noise (⟨some m, u, none, z, s⟩ : UpdateCall R SV MV K) =
      .ok (true, f1) := by
    unfold update
    rw [h1, Outcome.ok_bind, measPart]
  rw [hL, hR]
  simp only [Outcome.ok_bind, update, sysPart, measPart, andStep, if_true, hws]
  rcases f1.weightStep ⟨some m, u, some mm, z, s⟩ mm with ⟨b, f2⟩ | _ | _
  · cases b
    · simp
    · simp only [Outcome.ok_bind, if_true]
      rcases f2.dynamicStep dflt root noise.dynamic with ⟨b, f3⟩ | _ | _ <;> simp
  · rfl
  · rfl

/-- The hypotheses hold in the fixture with the motion model as proposal. -/
example := C92_particle_partial Fixture.root_isRoot
    (Reached.proposalSet (some ⟨1, Fixture.sysPdf.prob, Fixture.draw⟩)
      (Fixture.start_reached .multinomial Fixture.policy_static))
    (Fixture.start_holds (period := 1) (threshold := 0) (scheme := .multinomial))
    Fixture.start_normalised Fixture.sys_isTransition rfl
    (Q := Fixture.T) (m := Fixture.sys) (by
      obtain ⟨q, h1, h2, h3⟩ := Fixture.sys_isTransition.isProposal
        (fun r x u prev => ⟨x + r % 2, rfl⟩)
      simp only [SysModel.proposal, Fixture.sys, Option.map_some, Option.some.injEq] at h1
      subst h1
      exact h3) Fixture.meas_isLikelihood
    (.inr (by
      intro r x u prev y h
      have hy : x + r % 2 = y := by simpa [Fixture.sys, Fixture.draw, argsFor] using h
      subst hy
      rcases Nat.mod_two_eq_zero_or_one r with hr | hr <;> simp [Fixture.T, hr]))
    Fixture.noise_uniform.1 0 0 2

/-- Hence it is false for other proposals: in the fixture the motion model draws with probabilities
1/4 and 3/4, the proposal with 1/2 and 1/2. The two updates end with other weights than the one. -/
theorem C92_proposal_false :
    ∃ (f : ParticleFilter Nat Nat ℚ) (ps : List (Nat × ℚ)) (m : SysModel Nat Nat ℚ)
      (q : Proposal Nat Nat ℚ) (mm : Model Nat Nat ℚ) (L T Q : Nat → Nat → Nat → ℚ)
      (noise : Noise Nat ℚ) (f1 f2 f3 : ParticleFilter Nat Nat ℚ) (ps1 ps3 : List (Nat × ℚ)),
      Reached Nat 0 Fixture.root 1 0 .multinomial f 0 ∧ Holds f.postGet ps ∧ Normalised ps ∧
      IsTransition m T ∧ f.proposal = some q ∧ IsProposal q m Q ∧ IsLikelihood mm L ∧
      f.update 0 Fixture.root noise ⟨some m, 0, some mm, 2, 0⟩ = .ok (true, f1) ∧
      f.update 0 Fixture.root noise (⟨some m, 0, none, 2, 0⟩ : UpdateCall Nat Nat Nat ℚ) =
        .ok (true, f2) ∧
      f2.update 0 Fixture.root noise ⟨none, 0, some mm, 2, 0⟩ = .ok (true, f3) ∧
      Holds f1.postGet ps1 ∧ Holds f3.postGet ps3 ∧ ps1 ≠ ps3 := by
  obtain ⟨f1, h1, h2⟩ := Fixture.observe_eq (x := (Fixture.start 1 0 .multinomial).update 0
    Fixture.root Fixture.noise ⟨some Fixture.sys, 0, some Fixture.meas, 2, 0⟩) (b := true)
    (l := [⟨0, some (1/10)⟩, ⟨2, some (9/10)⟩]) (by decide +kernel)
  obtain ⟨f3, h3, h4⟩ := Fixture.observe_eq (x := do
      let r ← (Fixture.start 1 0 .multinomial).update 0 Fixture.root Fixture.noise
        (⟨some Fixture.sys, 0, none, 2, 0⟩ : UpdateCall Nat Nat Nat ℚ)
      let r' ← r.2.update 0 Fixture.root Fixture.noise ⟨none, 0, some Fixture.meas, 2, 0⟩
      return (r.1 && r'.1, r'.2)) (b := true)
    (l := [⟨0, some (1/4)⟩, ⟨2, some (3/4)⟩]) (by decide +kernel)
  simp only [Outcome.bind_eq_ok, Outcome.pure_eq, Outcome.ok.injEq, Prod.mk.injEq,
    Bool.and_eq_true] at h3
  obtain ⟨⟨b, f2⟩, h5, ⟨b', f3'⟩, h6, ⟨rfl, rfl⟩, rfl⟩ := h3
  exact ⟨Fixture.start 1 0 .multinomial, [(0, 1/2), (1, 1/2)], Fixture.sys, Fixture.prop,
    Fixture.meas, Fixture.L, Fixture.T, Fixture.Q, Fixture.noise, f1, f2, f3',
    [(0, 1/10), (2, 9/10)], [(0, 1/4), (2, 3/4)],
    Fixture.start_reached .multinomial Fixture.policy_static, Fixture.start_holds,
    Fixture.start_normalised, Fixture.sys_isTransition, rfl, Fixture.prop_isProposal,
    Fixture.meas_isLikelihood, h1, h5, h6, h2, h4, by decide +kernel⟩

end

end BFL.Props
