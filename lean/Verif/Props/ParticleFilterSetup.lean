import Verif.Lemmas.ParticleFilter

/-!
# Vocabulary of the particle filter properties, and what every reachable filter satisfies
-/

set_option linter.unusedSectionVars false

namespace BFL.Props

open Spec MCPdf ParticleFilter

variable {R SV MV K : Type} [Field K] [LinearOrder K] [IsStrictOrderedRing K]

/-- The posterior consists of the particles `ps` (value, weight), in this order. -/
def Holds (p : MCPdf K SV) (ps : List (SV × K)) : Prop :=
  p.listGet = ps.map fun a => { value := a.1, weight := some a.2 }

/-- Filters a program can hold: constructed with the given resampling policy, then any updates of
either filter class and any `ProposalSet` calls, whatever the updates returned. The number counts
the updates with a system model. -/
inductive Reached (MV : Type) (dflt : SV) (root : Nat → K → K) (period : Nat) (threshold : K)
    (scheme : Scheme) : ParticleFilter R SV K → Nat → Prop
  | make {prior : MCPdf K SV} {q : Option (Proposal R SV K)} {f : ParticleFilter R SV K}
      (ha : Admissible prior.listGet)
      (h : ParticleFilter.make dflt prior q period threshold scheme = .ok f) :
      Reached MV dflt root period threshold scheme f 0
  | update {f f' : ParticleFilter R SV K} {n : Nat} {noise : Noise R K}
      {c : UpdateCall R SV MV K} {b : Bool}
      (hf : Reached MV dflt root period threshold scheme f n)
      (h : f.update dflt root noise c = .ok (b, f')) :
      Reached MV dflt root period threshold scheme f' (if c.sys.isSome then n + 1 else n)
  | bootUpdate {f f' : ParticleFilter R SV K} {n : Nat} {noise : Noise R K}
      {c : UpdateCall R SV MV K} {b : Bool}
      (hf : Reached MV dflt root period threshold scheme f n)
      (h : f.bootUpdate dflt root noise c = .ok (b, f')) :
      Reached MV dflt root period threshold scheme f' (if c.sys.isSome then n + 1 else n)
  | proposalSet {f : ParticleFilter R SV K} {n : Nat} (q : Option (Proposal R SV K))
      (hf : Reached MV dflt root period threshold scheme f n) :
      Reached MV dflt root period threshold scheme { f with proposal := q } n

/-- `mm` is a measurement model, constructed from a pdf, with likelihood `L z x s` (of measurement
`z` in state `x` with sensor parameter `s`). -/
def IsLikelihood (mm : Model SV MV K) (L : MV → SV → SV → K) : Prop :=
  ∃ p, Model.make (some p) = .ok mm ∧
    ∀ z x s, 0 ≤ L z x s ∧ p.prob (if p.numArgs = 1 then [x] else [x, s]) z = .ok (L z x s)

/-- The measurement model takes sensor parameters. -/
def WithSensor (mm : Model SV MV K) : Prop := mm.without = some false

/-- Conditional arguments for a system model: state, and input if the model has one. -/
def argsFor (m : SysModel R SV K) (x u : SV) : List SV :=
  if m.model.without = some true then [x] else [x, u]

/-- `m` is a system model, constructed from a pdf, with transition density `T x u y`. -/
def IsTransition (m : SysModel R SV K) (T : SV → SV → SV → K) : Prop :=
  ∃ p, Model.make (some p) = .ok m.model ∧
    ∀ x u y, 0 ≤ T x u y ∧ p.prob (if p.numArgs = 1 then [x] else [x, u]) y = .ok (T x u y)

/-- `q` is a proposal fit for the system model `m`: it has the conditional arguments the filter
sets, its density is `Q x u y`, and drawing always gives some value. -/
structure IsProposal (q : Proposal R SV K) (m : SysModel R SV K) (Q : SV → SV → SV → K) : Prop where
  arg0 : 0 < q.numArgs
  arg1 : m.model.without = some false → 1 < q.numArgs
  density : ∀ x u y, 0 ≤ Q x u y ∧ q.prob (argsFor m x u) y = .ok (Q x u y)
  total : ∀ r x u prev, ∃ y, q.draw r (argsFor m x u) prev = .ok y

/-- Particle `i` at `x` may move to `y`: `y` is what the proposal draws given `x` and the input,
with the random numbers of the `i`-th draw, in a sample object that held some value before. -/
def Draws (q : Proposal R SV K) (m : SysModel R SV K) (u : SV) (rs : Nat → R) (i : Nat) (x y : SV) :
    Prop := ∃ prev, q.draw (rs i) (argsFor m x u) prev = .ok y

/-- The uniform numbers of a resampling step are in `(0, 1]`. -/
def Uniforms (us : Nat → K) : Prop := ∀ i, 0 < us i ∧ us i ≤ 1

/-- What `pow(·, 1/k)` must satisfy. -/
def IsRoot (root : Nat → K → K) : Prop :=
  (∀ k x, 0 ≤ x → x ≤ 1 → 0 ≤ root k x ∧ root k x ≤ 1) ∧ ∀ k x, 0 < x → 0 < root k x

/-- The ordered numbers used by a resampling step of `n` particles. -/
def selectors (root : Nat → K → K) (us : Nat → K) (n : Nat) : Nat → K :=
  orderedUniform root ((List.range n).map us)

/-! ## Invariants -/

section invariant

variable {dflt : SV} {root : Nat → K → K} {period : Nat} {threshold : K} {scheme : Scheme}

/-- Parameters fixed at construction. -/
structure Params (period : Nat) (threshold : K) (scheme : Scheme) (f : ParticleFilter R SV K) :
    Prop where
  inv : f.cloud.Inv
  hperiod : f.period = period
  hthreshold : f.threshold = threshold
  hscheme : f.scheme = scheme
  dynamic : f.dynamic = decide (period = 0)
  policy : ¬ (period = 0 ∧ threshold = 0) ∧ ¬ (period ≠ 0 ∧ threshold ≠ 0)
  unweighted : scheme ≠ .multinomial → f.cloud.unweighted = []

theorem resample_unweighted {us : Nat → K} {c c' : Cloud K SV} {b : Bool}
    (hs : scheme ≠ .multinomial) (h : c.resample dflt root scheme us = .ok (b, c')) :
    c'.unweighted = c.unweighted := by
  unfold Cloud.resample at h
  simp only [Outcome.bind_eq_ok, Outcome.pure_eq, Outcome.ok.injEq, Prod.mk.injEq,
    Prod.exists] at h
  obtain ⟨ts, ht, b', post, _, _, rfl⟩ := h
  unfold Cloud.drawUnweighted at ht
  cases scheme <;> simp_all

theorem staticStep_params {us : Nat → K} {f f' : ParticleFilter R SV K} {b : Bool}
    (hp : Params period threshold scheme f)
    (h : f.staticStep dflt root us = .ok (b, f')) :
    b = true ∧ Params period threshold scheme f' ∧ f'.timestep = f.timestep ∧
      f'.proposal = f.proposal := by
  unfold staticStep at h
  split at h
  · simp only [Outcome.bind_eq_ok, Outcome.pure_eq, Outcome.ok.injEq, Prod.mk.injEq,
      Prod.exists] at h
    obtain ⟨b', c, hr, rfl, rfl⟩ := h
    obtain ⟨rfl, hi⟩ := Cloud.resample_inv hp.inv hr
    refine ⟨rfl, ⟨hi, hp.hperiod, hp.hthreshold, hp.hscheme, hp.dynamic, hp.policy, ?_⟩, rfl, rfl⟩
    intro hs
    rw [resample_unweighted (by rw [hp.hscheme]; exact hs) hr]
    exact hp.unweighted hs
  · simp only [Outcome.pure_eq, Outcome.ok.injEq, Prod.mk.injEq] at h
    obtain ⟨rfl, rfl⟩ := h
    exact ⟨rfl, hp, rfl, rfl⟩

theorem dynamicStep_params {us : Nat → K} {f f' : ParticleFilter R SV K} {b : Bool}
    (hp : Params period threshold scheme f)
    (h : f.dynamicStep dflt root us = .ok (b, f')) :
    Params period threshold scheme f' ∧ f'.timestep = f.timestep ∧ f'.proposal = f.proposal := by
  unfold dynamicStep at h
  split at h
  · simp only [Outcome.bind_eq_ok, Outcome.pure_eq, Outcome.ok.injEq, Prod.mk.injEq,
      Prod.exists] at h
    obtain ⟨b', c, hr, rfl, rfl⟩ := h
    obtain ⟨_, hi⟩ := Cloud.resampleIfDegenerate_inv hp.inv hr
    refine ⟨⟨hi, hp.hperiod, hp.hthreshold, hp.hscheme, hp.dynamic, hp.policy, ?_⟩, rfl, rfl⟩
    intro hs
    unfold Cloud.resampleIfDegenerate at hr
    rw [Outcome.bind_eq_ok] at hr
    obtain ⟨s, _, hr⟩ := hr
    split at hr
    · rw [resample_unweighted (by rw [hp.hscheme]; exact hs) hr]
      exact hp.unweighted hs
    · simp only [Outcome.pure_eq, Outcome.ok.injEq, Prod.mk.injEq] at hr
      obtain ⟨_, rfl⟩ := hr
      exact hp.unweighted hs
  · simp only [Outcome.pure_eq, Outcome.ok.injEq, Prod.mk.injEq] at h
    obtain ⟨_, rfl⟩ := h
    exact ⟨hp, rfl, rfl⟩

theorem proposalStep_params {m : SysModel R SV K} {u : SV} {rs : Nat → R}
    {f f' : ParticleFilter R SV K} {b : Bool} (hp : Params period threshold scheme f)
    (h : f.proposalStep m u rs = .ok (b, f')) :
    Params period threshold scheme f' ∧ f'.timestep = f.timestep + 1 ∧
      f'.proposal = f.proposal := by
  unfold proposalStep at h
  simp only [Outcome.bind_eq_ok, Outcome.pure_eq, Outcome.ok.injEq, Prod.mk.injEq,
    Prod.exists] at h
  obtain ⟨b', c, l, hr, rfl, rfl⟩ := h
  refine ⟨⟨Cloud.propose_inv hp.inv hr, hp.hperiod, hp.hthreshold, hp.hscheme, hp.dynamic, hp.policy,
    ?_⟩, rfl, rfl⟩
  intro hs
  unfold Cloud.propose at hr
  simp only [Outcome.bind_eq_ok, Outcome.pure_eq, Outcome.ok.injEq, Prod.mk.injEq,
    Prod.exists] at hr
  obtain ⟨_, _, _, _, _, _, ⟨_, rfl⟩, _⟩ := hr
  exact hp.unweighted hs

theorem weightStep_params {c : UpdateCall R SV MV K} {mm : Model SV MV K}
    {f f' : ParticleFilter R SV K} {b : Bool} (hp : Params period threshold scheme f)
    (h : f.weightStep c mm = .ok (b, f')) :
    Params period threshold scheme f' ∧ f'.timestep = f.timestep ∧ f'.proposal = f.proposal := by
  unfold weightStep at h
  simp only [Outcome.bind_eq_ok, Outcome.pure_eq, Outcome.ok.injEq, Prod.mk.injEq,
    Prod.exists] at h
  obtain ⟨b', cl, l, hr, rfl, rfl⟩ := h
  refine ⟨⟨Cloud.reweight_inv hp.inv hr, hp.hperiod, hp.hthreshold, hp.hscheme, hp.dynamic, hp.policy,
    ?_⟩, rfl, rfl⟩
  intro hs
  unfold Cloud.reweight at hr
  simp only [Outcome.bind_eq_ok, Outcome.pure_eq, Outcome.ok.injEq, Prod.mk.injEq,
    Prod.exists] at hr
  obtain ⟨_, _, _, _, _, _, ⟨_, rfl⟩, _⟩ := hr
  exact hp.unweighted hs

theorem update_params {noise : Noise R K} {c : UpdateCall R SV MV K}
    {f f' : ParticleFilter R SV K} {b : Bool} (hp : Params period threshold scheme f)
    (h : f.update dflt root noise c = .ok (b, f')) :
    Params period threshold scheme f' ∧
      f'.timestep = (if c.sys.isSome then f.timestep + 1 else f.timestep) := by
  unfold update at h
  simp only [Outcome.bind_eq_ok, Prod.exists] at h
  obtain ⟨b1, f1, h1, h2⟩ := h
  have hs : Params period threshold scheme f1 ∧
      f1.timestep = (if c.sys.isSome then f.timestep + 1 else f.timestep) := by
    unfold sysPart at h1
    split at h1
    · rename_i hc
      simp only [Outcome.ok.injEq, Prod.mk.injEq] at h1
      obtain ⟨_, rfl⟩ := h1
      exact ⟨hp, by simp [hc]⟩
    · rename_i m hc
      simp only [andStep, if_true, Outcome.bind_eq_ok, Prod.exists] at h1
      obtain ⟨b2, f2, h3, h4⟩ := h1
      obtain ⟨rfl, g1, g2, _⟩ := staticStep_params hp h3
      simp only [if_true] at h4
      obtain ⟨g4, g5, _⟩ := proposalStep_params g1 h4
      exact ⟨g4, by simp [hc, g5, g2]⟩
  unfold measPart at h2
  split at h2
  · simp only [Outcome.ok.injEq, Prod.mk.injEq] at h2
    obtain ⟨_, rfl⟩ := h2
    exact hs
  · rename_i mm hc
    simp only [Outcome.bind_eq_ok, Prod.exists] at h2
    obtain ⟨b2, f2, h3, h4⟩ := h2
    have g : Params period threshold scheme f2 ∧ f2.timestep = f1.timestep := by
      unfold andStep at h3
      split at h3
      · obtain ⟨g1, g2, _⟩ := weightStep_params hs.1 h3
        exact ⟨g1, g2⟩
      · simp only [Outcome.ok.injEq, Prod.mk.injEq] at h3
        obtain ⟨_, rfl⟩ := h3
        exact ⟨hs.1, rfl⟩
    unfold andStep at h4
    split at h4
    · obtain ⟨g1, g2, _⟩ := dynamicStep_params g.1 h4
      exact ⟨g1, by rw [g2, g.2, hs.2]⟩
    · simp only [Outcome.ok.injEq, Prod.mk.injEq] at h4
      obtain ⟨_, rfl⟩ := h4
      exact ⟨g.1, by rw [g.2, hs.2]⟩

theorem bootUpdate_params {noise : Noise R K} {c : UpdateCall R SV MV K}
    {f f' : ParticleFilter R SV K} {b : Bool} (hp : Params period threshold scheme f)
    (h : f.bootUpdate dflt root noise c = .ok (b, f')) :
    Params period threshold scheme f' ∧
      f'.timestep = (if c.sys.isSome then f.timestep + 1 else f.timestep) := by
  unfold bootUpdate at h
  simp only [Outcome.bind_eq_ok, Prod.exists] at h
  obtain ⟨b1, f1, h1, h2⟩ := h
  have hs : Params period threshold scheme f1 ∧
      f1.timestep = (if c.sys.isSome then f.timestep + 1 else f.timestep) := by
    unfold bootSys at h1
    split at h1
    · rename_i hc
      simp only [Outcome.ok.injEq, Prod.mk.injEq] at h1
      obtain ⟨_, rfl⟩ := h1
      exact ⟨hp, by simp [hc]⟩
    · rename_i m hc
      have := update_params (f := { f with proposal := m.proposal })
        ⟨hp.inv, hp.hperiod, hp.hthreshold, hp.hscheme, hp.dynamic, hp.policy, hp.unweighted⟩ h1
      simpa [hc] using this
  unfold bootMeas at h2
  split at h2
  · simp only [Outcome.ok.injEq, Prod.mk.injEq] at h2
    obtain ⟨_, rfl⟩ := h2
    exact hs
  · simp only [Outcome.bind_eq_ok, Outcome.pure_eq, Outcome.ok.injEq, Prod.mk.injEq,
      Prod.exists] at h2
    obtain ⟨b2, f2, h3, _, rfl⟩ := h2
    have := update_params hs.1 h3
    exact ⟨this.1, by rw [this.2, ← hs.2]; simp⟩

theorem make_params {prior : MCPdf K SV} {q : Option (Proposal R SV K)}
    {f : ParticleFilter R SV K} (ha : Admissible prior.listGet)
    (h : ParticleFilter.make dflt prior q period threshold scheme = .ok f) :
    Params period threshold scheme f ∧ f.timestep = 0 := by
  unfold ParticleFilter.make at h
  simp only [Outcome.bind_eq_ok, Outcome.pure_eq, Outcome.ok.injEq, Prod.exists] at h
  obtain ⟨b, post, h1, _, h2, dyn, h3, rfl⟩ := h
  rw [cassert_eq_ok] at h2
  subst h2
  have hasg : Assigned dflt post :=
    ⟨_, .setW prior.listGet, ⟨prior.numSamples, [], rfl⟩, ha, h1⟩
  obtain ⟨ws, hg⟩ := hasg.good
  obtain ⟨vs, hvs, _⟩ := normalizeWeights_inv h1
  unfold policy at h3
  simp only [Outcome.bind_eq_ok, Outcome.pure_eq, Outcome.ok.injEq] at h3
  obtain ⟨_, h4, _, h5, rfl⟩ := h3
  rw [cassert_eq_ok] at h4 h5
  refine ⟨⟨?_, rfl, rfl, rfl, rfl, ⟨h4, h5⟩, fun _ => rfl⟩, rfl⟩
  have hlen : post.samples.length = prior.samples.length := by
    have hpos : 0 < vs.sum := by
      obtain ⟨vs', hvs', hb⟩ := normalizeWeights_inv h1
      have : vs' = vs := by
        have := hvs'.symm.trans hvs
        exact List.map_injective_iff.2 (Option.some_injective _) this
      rw [← this]; exact hb.1 rfl
    obtain ⟨p, g1, g2, _⟩ := C07_set_weighted (q := MCPdf.make prior.numSamples dflt)
      (dflt := dflt) ⟨prior.numSamples, [], rfl⟩ ha hvs hpos
    rw [g1] at h1
    simp only [Outcome.ok.injEq, Prod.mk.injEq, true_and] at h1
    subst h1
    exact g2
  have hps : ∃ ps : List (SV × K), post.samples = ps.map wrap ∧ ps.map Prod.snd = ws := by
    have hw := hg.1
    have hl := hg.length
    refine ⟨List.zip (post.samples.map (·.value)) ws, ?_, ?_⟩
    · apply List.ext_getElem
      · simp [hl]
      · intro i h1 h2
        have h3 : (post.samples.map (·.weight))[i]'(by simpa using h1) =
            (ws.map some)[i]'(by simpa using (hl ▸ h1)) := by simp only [hw]
        simp only [List.getElem_map] at h3
        simp only [wrap, List.getElem_map, List.getElem_zip, ← h3]
    · exact List.map_snd_zip (by simp [hl])
  obtain ⟨ps, hp1, rfl⟩ := hps
  refine ⟨ps, hp1, fun a ha => hg.2.1.1 _ (List.mem_map_of_mem ha), hg.sized, ?_, ?_, ?_,
    Or.inl hg⟩
  · have := hlen; rw [hp1] at this; simpa [listGet] using this.symm
  · have := hlen; rw [hp1] at this; simpa [listGet] using this.symm
  · simpa using hg.pos

theorem Reached.params {f : ParticleFilter R SV K} {n : Nat}
    (h : Reached MV dflt root period threshold scheme f n) :
    Params period threshold scheme f ∧ f.timestep = n := by
  induction h with
  | make ha h => exact make_params ha h
  | update hf h ih =>
    obtain ⟨h1, h2⟩ := update_params ih.1 h
    exact ⟨h1, by rw [h2, ih.2]⟩
  | bootUpdate hf h ih =>
    obtain ⟨h1, h2⟩ := bootUpdate_params ih.1 h
    exact ⟨h1, by rw [h2, ih.2]⟩
  | proposalSet q hf ih =>
    obtain ⟨hp, hn⟩ := ih
    exact ⟨⟨hp.inv, hp.hperiod, hp.hthreshold, hp.hscheme, hp.dynamic, hp.policy, hp.unweighted⟩, hn⟩

theorem Reached.live {f : ParticleFilter R SV K} {n : Nat}
    (h : Reached MV dflt root period threshold scheme f n) {ps : List (SV × K)}
    (hh : Holds f.postGet ps) (hn : Normalised ps) : f.cloud.Live ps :=
  h.params.1.inv.live hh hn

end invariant

/-! ## Model calls -/

section calls

theorem make_one {p : CondPdf SV MV K} {mm : Model SV MV K} (h : Model.make (some p) = .ok mm) :
    mm.pdf = some p ∧ ((p.numArgs = 1 ∧ mm.without = some true) ∨
      (p.numArgs = 2 ∧ mm.without = some false)) := by
  simp only [Model.make, Model.assign] at h
  split at h
  · rename_i h1
    simp only [Outcome.ok.injEq] at h
    subst h
    exact ⟨rfl, Or.inl ⟨h1, rfl⟩⟩
  · split at h
    · rename_i h2
      simp only [Outcome.ok.injEq] at h
      subst h
      exact ⟨rfl, Or.inr ⟨h2, rfl⟩⟩
    · simp at h

theorem IsLikelihood.nonneg {mm : Model SV MV K} {L : MV → SV → SV → K} (h : IsLikelihood mm L)
    (z : MV) (x s : SV) : 0 ≤ L z x s := by
  obtain ⟨p, _, h⟩ := h
  exact (h z x s).1

theorem IsLikelihood.likelihood {mm : Model SV MV K} {L : MV → SV → SV → K}
    (h : IsLikelihood mm L) (z : MV) (s x : SV) : Cloud.likelihood mm z s x = .ok (L z x s) := by
  obtain ⟨p, hm, h⟩ := h
  obtain ⟨hpdf, ⟨h1, h2⟩ | ⟨h1, h2⟩⟩ := make_one hm
  · have := (h z x s).2
    simp only [h1, if_true] at this
    simp [Cloud.likelihood, Model.withoutInputs, h2, Model.prob1, Model.pdfGet, hpdf, h1, this,
      cassert]
  · have := (h z x s).2
    rw [if_neg (by omega)] at this
    simp [Cloud.likelihood, Model.withoutInputs, h2, Model.prob2, Model.pdfGet, hpdf, h1, this,
      cassert]

theorem IsTransition.transition {m : SysModel R SV K} {T : SV → SV → SV → K}
    (h : IsTransition m T) (u x y : SV) : Cloud.transition m u x y = .ok (T x u y) := by
  obtain ⟨p, hm, h⟩ := h
  obtain ⟨hpdf, ⟨h1, h2⟩ | ⟨h1, h2⟩⟩ := make_one hm
  · have := (h x u y).2
    simp only [h1, if_true] at this
    simp [Cloud.transition, Model.withoutInputs, h2, Model.prob1, Model.pdfGet, hpdf, h1, this,
      cassert]
  · have := (h x u y).2
    rw [if_neg (by omega)] at this
    simp [Cloud.transition, Model.withoutInputs, h2, Model.prob2, Model.pdfGet, hpdf, h1, this,
      cassert]

theorem IsTransition.without {m : SysModel R SV K} {T : SV → SV → SV → K}
    (h : IsTransition m T) : ∃ w, m.model.without = some w := by
  obtain ⟨p, hm, _⟩ := h
  obtain ⟨_, ⟨_, h2⟩ | ⟨_, h2⟩⟩ := make_one hm
  · exact ⟨_, h2⟩
  · exact ⟨_, h2⟩

theorem propArgs_eq {q : Proposal R SV K} {m : SysModel R SV K} {w : Bool}
    (hw : m.model.without = some w) (h0 : 0 < q.numArgs)
    (h1 : m.model.without = some false → 1 < q.numArgs) (u x : SV) :
    Cloud.propArgs q w u x = .ok (argsFor m x u) := by
  unfold Cloud.propArgs argsFor
  cases w with
  | true => simp [hw, cassert, h0]
  | false => simp [hw, cassert, h0, h1 hw]

theorem drawOne_eq {q : Proposal R SV K} {m : SysModel R SV K} {Q : SV → SV → SV → K} {w : Bool}
    (hw : m.model.without = some w) (hq : IsProposal q m Q) (u : SV) (r : R) (x prev : SV) :
    Cloud.drawOne (some q) m u r x prev = q.draw r (argsFor m x u) prev := by
  simp only [Cloud.drawOne, Cloud.deref, Outcome.ok_bind, Model.withoutInputs, hw,
    propArgs_eq hw hq.arg0 hq.arg1]

/-- The weight factor without sensor parameters. -/
theorem factor_eq {q : Proposal R SV K} {m : SysModel R SV K} {Q T : SV → SV → SV → K}
    {mm : Model SV MV K} {L : MV → SV → SV → K} (hm : IsTransition m T) (hq : IsProposal q m Q)
    (hl : IsLikelihood mm L) (hs : ¬ WithSensor mm) (u : SV) (z : MV) (s x y : SV) :
    Cloud.factor (some q) (some m) u mm z s x y =
      .ok (importance (L z y s) (T x u y) (Q x u y)) := by
  obtain ⟨w, hw⟩ := hm.without
  have hlik := hl.likelihood z s y
  have hd := hq.density x u y
  have ht := hm.transition u x y
  have hmw : mm.without = some true := by
    obtain ⟨p, hp, _⟩ := hl
    obtain ⟨_, ⟨_, h2⟩ | ⟨_, h2⟩⟩ := make_one hp
    · exact h2
    · exact absurd h2 hs
  have h1 : mm.prob1 z y = .ok (L z y s) := by
    simpa [Cloud.likelihood, Model.withoutInputs, hmw] using hlik
  have hT : 0 ≤ T x u y := by
    obtain ⟨p, _, h⟩ := hm
    exact (h x u y).1
  simp only [Cloud.factor, Cloud.factorSys, Cloud.deref, Outcome.ok_bind, cassert_true hq.arg0,
    Model.withoutInputs, hmw, if_true, h1, hw, propArgs_eq hw hq.arg0 hq.arg1, Cloud.correction,
    hd.2, ht]
  unfold importance
  by_cases h0 : Q x u y = 0
  · simp [h0]
  · have hr : 0 ≤ T x u y / Q x u y := div_nonneg hT hd.1
    rw [if_pos h0, if_neg h0]
    simp only [divProb, h0, if_false, mkProb_of_nonneg hr, Outcome.ok_bind,
      mkProb_of_nonneg (mul_nonneg (hl.nonneg z y s) hr)]

/-- The weight factor with sensor parameters is the likelihood alone. -/
theorem factor_sensor {q : Proposal R SV K} {m : SysModel R SV K}
    {mm : Model SV MV K} {L : MV → SV → SV → K} (h0 : 0 < q.numArgs)
    (hl : IsLikelihood mm L) (hs : WithSensor mm) (u : SV) (z : MV) (s x y : SV) :
    Cloud.factor (some q) (some m) u mm z s x y = .ok (L z y s) := by
  have hlik := hl.likelihood z s y
  unfold WithSensor at hs
  have h1 : mm.prob2 z y s = .ok (L z y s) := by
    simpa [Cloud.likelihood, Model.withoutInputs, hs] using hlik
  simp [Cloud.factor, Cloud.factorSys, Cloud.deref, cassert_true h0, Model.withoutInputs, hs, h1]

end calls

/-! ## Halves of an update on a filter with normalised weights -/

section halves

variable {dflt : SV} {root : Nat → K → K} {period : Nat} {threshold : K}

/-- Live filter with its parameters, before update number `n + 1`. -/
structure Ready (period : Nat) (threshold : K) (n : Nat) (f : ParticleFilter R SV K)
    (ps : List (SV × K)) : Prop where
  par : Params period threshold .multinomial f
  step : f.timestep = n
  live : f.cloud.Live ps

theorem staticStep_ready (hroot : IsRoot root) {us : Nat → K} (hus : Uniforms us) {n : Nat}
    {f : ParticleFilter R SV K} {ps : List (SV × K)} (h : Ready period threshold n f ps) :
    ∃ f' ps', f.staticStep dflt root us = .ok (true, f') ∧ Ready period threshold n f' ps' ∧
      f'.proposal = f.proposal ∧
      (0 < n ∧ period ∣ n → Resampled (selectors root us ps.length) ps ps') ∧
      (¬ (0 < n ∧ period ∣ n) → ps' = ps) := by
  have hcond : (f.dynamic = false ∧ f.timestep % f.period = 0 ∧ f.timestep ≠ 0) ↔
      (0 < n ∧ period ∣ n) := by
    rw [h.par.dynamic, h.par.hperiod, h.step, Nat.dvd_iff_mod_eq_zero]
    constructor
    · rintro ⟨h1, h2, h3⟩; exact ⟨by omega, h2⟩
    · rintro ⟨h1, h2⟩
      refine ⟨?_, h2, by omega⟩
      simp only [decide_eq_false_iff_not]
      rintro rfl
      simp at h2
      omega
  by_cases hc : 0 < n ∧ period ∣ n
  · obtain ⟨ps', c', h1, h2, h3, h4⟩ := Cloud.resample_live hroot.1 hroot.2 dflt hus h.live
    have hst : f.staticStep dflt root us = .ok (true, { f with cloud := c' }) := by
      unfold staticStep
      rw [if_pos (hcond.2 hc), h.par.hscheme, h1]
      rfl
    obtain ⟨_, g1, g2, g3⟩ := staticStep_params h.par hst
    exact ⟨_, ps', hst, ⟨g1, g2.trans h.step, h2⟩, g3, fun _ => h4, fun hn => absurd hc hn⟩
  · refine ⟨f, ps, ?_, h, rfl, fun hn => absurd hn hc, fun _ => rfl⟩
    unfold staticStep
    rw [if_neg (fun hn => hc (hcond.1 hn))]
    rfl

theorem proposalStep_ready {q : Proposal R SV K} {m : SysModel R SV K} {Q T : SV → SV → SV → K}
    (hm : IsTransition m T) (hq : IsProposal q m Q) (u : SV) (rs : Nat → R) {n : Nat}
    {f : ParticleFilter R SV K} (hf : f.proposal = some q) {ps : List (SV × K)}
    (h : Ready period threshold n f ps) :
    ∃ f' ps', f.proposalStep m u rs = .ok (true, f') ∧ Ready period threshold (n + 1) f' ps' ∧
      f'.proposal = some q ∧ f'.cloud.old = ps.map wrap ∧ Moved (Draws q m u rs) ps ps' := by
  obtain ⟨w, hw⟩ := hm.without
  have hd : ∀ r x prev, ∃ y, Cloud.drawOne (some q) m u r x prev = .ok y := by
    intro r x prev
    rw [drawOne_eq hw hq]
    exact hq.total r x u prev
  obtain ⟨ps', c', last, h1, h2, h3, _, h5⟩ := Cloud.propose_live hd rs h.live f.sample
  have hst : f.proposalStep m u rs = .ok (true,
      { f with cloud := c', sample := last, timestep := f.timestep + 1 }) := by
    unfold proposalStep
    rw [hf, h1]
    rfl
  obtain ⟨g1, g2, g3⟩ := proposalStep_params h.par hst
  refine ⟨_, ps', hst, ⟨g1, by rw [g2, h.step], h2⟩, g3.trans hf, h3, ?_⟩
  obtain ⟨hl, h5⟩ := h5
  refine ⟨hl, fun i hi => ⟨?_, (h5 i hi).2⟩⟩
  obtain ⟨prev, hp⟩ := (h5 i hi).1
  rw [drawOne_eq hw hq] at hp
  exact ⟨prev, hp⟩

theorem sysPart_ready (hroot : IsRoot root) {q : Proposal R SV K} {m : SysModel R SV K}
    {Q T : SV → SV → SV → K} (hm : IsTransition m T) (hq : IsProposal q m Q)
    {noise : Noise R K} (hus : Uniforms noise.static) {c : UpdateCall R SV MV K}
    (hc : c.sys = some m) {n : Nat} {f : ParticleFilter R SV K} (hf : f.proposal = some q)
    {ps : List (SV × K)} (h : Ready period threshold n f ps) :
    ∃ f' ps1 ps2, sysPart dflt root noise c (true, f) = .ok (true, f') ∧
      Ready period threshold (n + 1) f' ps2 ∧ f'.proposal = some q ∧
      f'.cloud.old = ps1.map wrap ∧
      (0 < n ∧ period ∣ n → Resampled (selectors root noise.static ps.length) ps ps1) ∧
      (¬ (0 < n ∧ period ∣ n) → ps1 = ps) ∧
      Moved (Draws q m c.u noise.prop) ps1 ps2 := by
  obtain ⟨f1, ps1, h1, h2, h3, h4, h5⟩ := staticStep_ready (dflt := dflt) hroot hus h
  obtain ⟨f2, ps2, g1, g2, g3, g4, g5⟩ :=
    proposalStep_ready hm hq c.u noise.prop (h3.trans hf) h2
  refine ⟨f2, ps1, ps2, ?_, g2, g3, g4, h4, h5, g5⟩
  simp only [sysPart, hc, andStep, if_true, h1, Outcome.ok_bind, g1]

theorem dynamicStep_ready (hroot : IsRoot root) {us : Nat → K} (hus : Uniforms us) {n : Nat}
    {f : ParticleFilter R SV K} {ps : List (SV × K)} (h : Ready period threshold n f ps) :
    ∃ f' ps', f.dynamicStep dflt root us = .ok (true, f') ∧ Ready period threshold n f' ps' ∧
      f'.proposal = f.proposal ∧
      (effectiveSize ps < threshold → Resampled (selectors root us ps.length) ps ps') ∧
      (¬ effectiveSize ps < threshold → ps' = ps) := by
  by_cases hp : period = 0
  · have hd : f.dynamic = true := by rw [h.par.dynamic]; simp [hp]
    obtain ⟨ps', c', h1, h2, h3, h4, h5⟩ :=
      Cloud.resampleIfDegenerate_live hroot.1 hroot.2 dflt hus threshold h.live
    have hst : f.dynamicStep dflt root us = .ok (true, { f with cloud := c' }) := by
      unfold dynamicStep
      rw [if_pos hd, h.par.hscheme, h.par.hthreshold, h1]
      rfl
    obtain ⟨g1, g2, g3⟩ := dynamicStep_params h.par hst
    exact ⟨_, ps', hst, ⟨g1, g2.trans h.step, h2⟩, g3, h4, h5⟩
  · have hd : ¬ f.dynamic = true := by rw [h.par.dynamic]; simp [hp]
    have ht : threshold = 0 := by
      by_contra ht
      exact h.par.policy.2 ⟨hp, ht⟩
    have hneg : ¬ effectiveSize ps < threshold := by
      rw [ht, not_lt]
      exact (one_div_pos.2 (Cloud.sumSq_pos h.live.dist)).le
    refine ⟨f, ps, ?_, h, rfl, fun hn => absurd hn hneg, fun _ => rfl⟩
    unfold dynamicStep
    rw [if_neg hd]
    rfl

/-- Measurement half with arbitrary weight factors. -/
theorem measPart_ready (hroot : IsRoot root) {noise : Noise R K} (hus : Uniforms noise.dynamic)
    {c : UpdateCall R SV MV K} {mm : Model SV MV K} (hc : c.meas = some mm) {n : Nat}
    {f : ParticleFilter R SV K} {ps : List (SV × K)} (h : Ready period threshold n f ps)
    {g : Nat → K} (hg : ∀ i, 0 ≤ g i)
    (hf : ∀ i (hi : i < ps.length), Cloud.factor f.proposal c.sys c.u mm c.z c.s
      (f.cloud.old[i]'(h.live.old ▸ hi)).value ps[i].1 = .ok (g i)) :
    (0 < totalWeight g ps → ∃ f' ps1 ps2,
      measPart dflt root noise c (true, f) = .ok (true, f') ∧ Ready period threshold n f' ps2 ∧
      Reweighted g ps ps1 ∧ Normalised ps1 ∧
      (effectiveSize ps1 < threshold →
        Resampled (selectors root noise.dynamic ps.length) ps1 ps2) ∧
      (¬ effectiveSize ps1 < threshold → ps2 = ps1)) ∧
    (totalWeight g ps = 0 → ∃ f', measPart dflt root noise c (true, f) = .ok (false, f') ∧
      f'.cloud.post.samples = (ps.mapIdx fun i a => (a.1, a.2 * g i)).map wrap) := by
  constructor
  · intro hpos
    obtain ⟨ps1, c1, h1, h2, _, _, h5⟩ := Cloud.reweight_live h.live hg hf hpos
    have hst : f.weightStep c mm = .ok (true, { f with cloud := c1 }) := by
      unfold weightStep
      rw [h1]
      rfl
    obtain ⟨g1, g2, _⟩ := weightStep_params h.par hst
    obtain ⟨f2, ps2, k1, k2, _, k4, k5⟩ := dynamicStep_ready (dflt := dflt) hroot hus
      (f := { f with cloud := c1 }) (ps := ps1) ⟨g1, g2.trans h.step, h2⟩
    have hl : ps1.length = ps.length := h5.1
    rw [hl] at k4
    refine ⟨f2, ps1, ps2, ?_, k2, h5, h2.dist, k4, k5⟩
    simp only [measPart, hc, andStep, if_true, hst, Outcome.ok_bind, k1]
  · intro h0
    obtain ⟨c1, h1, h2, _⟩ := Cloud.reweight_zero h.live hg hf h0
    have hst : f.weightStep c mm = .ok (false, { f with cloud := c1 }) := by
      unfold weightStep
      rw [h1]
      rfl
    refine ⟨{ f with cloud := c1 }, ?_, h2⟩
    simp [measPart, hc, andStep, hst]

end halves

end BFL.Props
