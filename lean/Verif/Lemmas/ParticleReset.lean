import Verif.Lemmas.FilterReset

/-! # Which members a particle filter with dynamic resampling depends on -/

set_option linter.unusedSectionVars false

namespace BFL

open Spec

variable {R SV MV K : Type} [Field K] [LinearOrder K] [IsStrictOrderedRing K]

namespace Cloud

/-- Same particles, and buffers of the right length. -/
structure Same (c d : Cloud K SV) : Prop where
  post : c.post = d.post
  new : c.new.length = c.post.samples.length
  new' : d.new.length = c.post.samples.length
  old : c.old.length = c.post.samples.length
  old' : d.old.length = c.post.samples.length

theorem normalizeWeights_length {p p' : MCPdf K SV} {b : Bool} (h : p.normalizeWeights = .ok (b, p')) :
    p'.samples.length = p.samples.length := by
  simp only [MCPdf.normalizeWeights, Outcome.bind_eq_ok, Prod.exists] at h
  obtain ⟨b1, p1, h1, h2⟩ := h
  have e1 : p1.samples = p.samples := by
    simp only [MCPdf.sumWeightsUpdate, Outcome.bind_eq_ok, Outcome.pure_eq] at h1
    obtain ⟨ws, _, h1⟩ := h1
    split at h1 <;> cases h1 <;> rfl
  split at h2
  · simp only [Outcome.bind_eq_ok, Outcome.pure_eq, Outcome.ok.injEq, Prod.mk.injEq] at h2
    obtain ⟨ss, hss, p2, h3, _, rfl⟩ := h2
    have e2 := mapOutcome_ok_length hss
    simp only [MCPdf.cumUpdate, Outcome.bind_eq_ok] at h3
    obtain ⟨_, _, h3⟩ := h3
    split at h3
    · cases h3
    · cases h3
      show ss.length = _
      rw [e2, e1]
  · cases h2
    rw [e1]

theorem listUpdateW_length {p p' : MCPdf K SV} {b : Bool} {los : List (WSample K SV)}
    (h : p.listUpdateW los = .ok (b, p')) : p'.samples.length = p.samples.length := by
  simp only [MCPdf.listUpdateW, Outcome.bind_eq_ok, cassert_eq_ok] at h
  obtain ⟨_, hl, h⟩ := h
  split at h
  · rw [normalizeWeights_length h]; exact hl
  · cases h; rfl

theorem listUpdateU_length {dflt : SV} {p p' : MCPdf K SV} {b : Bool} {los : List SV}
    (h : p.listUpdateU dflt los = .ok (b, p')) : p'.samples.length = p.samples.length := by
  unfold MCPdf.listUpdateU at h
  split at h
  · next hl =>
    simp only [Outcome.bind_eq_ok, Outcome.pure_eq, Outcome.ok.injEq, Prod.mk.injEq] at h
    obtain ⟨_, _, ss, hss, p2, h3, _, rfl⟩ := h
    have e2 := mapOutcome_ok_length hss
    simp only [MCPdf.cumUpdate, Outcome.bind_eq_ok] at h3
    obtain ⟨_, _, h3⟩ := h3
    split at h3
    · cases h3
    · cases h3
      show ss.length = _
      rw [e2, hl]
  · cases h; rfl

/-- Draws do not depend on what the sample object held before. -/
def DrawsAnew (q : Option (Proposal R SV K)) : Prop :=
  ∀ p, q = some p → ∀ r args x y, p.draw r args x = p.draw r args y

theorem drawOne_anew {q : Option (Proposal R SV K)} (hq : DrawsAnew q) (m : SysModel R SV K) (u : SV)
    (r : R) (x prev prev' : SV) : drawOne q m u r x prev = drawOne q m u r x prev' := by
  cases q with
  | none => rfl
  | some p =>
    simp only [drawOne, deref, Outcome.ok_bind]
    congr 1; funext w
    congr 1; funext a
    exact hq p rfl _ _ _ _

theorem proposeLoop_same {q : Option (Proposal R SV K)} (hq : DrawsAnew q) (m : SysModel R SV K) (u : SV)
    (rs : Nat → R) : ∀ (olds : List (WSample K SV)) (i : Nat) (news news' : List (WSample K SV))
      (prev prev' : SV), news.length = olds.length → news'.length = olds.length →
      SameOutcome (fun x y => x.1 = y.1 ∧ x.1.length = olds.length)
        (proposeLoop q m u rs i olds news prev) (proposeLoop q m u rs i olds news' prev') := by
  intro olds
  induction olds with
  | nil =>
    intro i news news' prev prev' h h'
    rw [List.length_eq_zero_iff.1 h, List.length_eq_zero_iff.1 h']
    exact ⟨rfl, rfl⟩
  | cons o os ih =>
    intro i news news' prev prev' h h'
    cases news with
    | nil => simp at h
    | cons n ns =>
      cases news' with
      | nil => simp at h'
      | cons n' ns' =>
        simp only [proposeLoop]
        rw [drawOne_anew hq m u (rs i) o.value prev prev']
        refine SameOutcome.bind SameOutcome.refl_eq fun x y hxy => ?_
        subst hxy
        refine SameOutcome.bind SameOutcome.refl_eq fun w w' hw => ?_
        subst hw
        have e : WSample.weightSet { n with value := x } w = WSample.weightSet { n' with value := x } w := by
          simp only [WSample.weightSet]
        rw [e]
        refine SameOutcome.bind SameOutcome.refl_eq fun a a' ha => ?_
        subst ha
        refine SameOutcome.bind (ih (i + 1) ns ns' x x (by simpa using h) (by simpa using h')) ?_
        rintro ⟨l, b⟩ ⟨l', b'⟩ ⟨e1, e2⟩
        simp only at e1 e2
        exact ⟨by simp [e1], by simp [e2]⟩

theorem propose_same {q : Option (Proposal R SV K)} (hq : DrawsAnew q) (m : SysModel R SV K) (u : SV)
    (rs : Nat → R) {c d : Cloud K SV} (h : c.Same d) (prev prev' : SV) :
    SameOutcome (fun x y => x.1.1 = y.1.1 ∧ Same x.1.2 y.1.2 ∧ x.1.2.old = y.1.2.old)
      (propose q m u rs c prev) (propose q m u rs d prev') := by
  unfold propose
  rw [← h.post]
  refine SameOutcome.bind (proposeLoop_same hq m u rs _ 0 _ _ prev prev' h.new h.new') ?_
  rintro ⟨l, b⟩ ⟨l', b'⟩ ⟨e1, e2⟩
  simp only at e1 e2
  subst e1
  cases hp : c.post.listUpdateW l with
  | abort => simp only [hp]; trivial
  | ub => simp only [hp]; trivial
  | ok r =>
    obtain ⟨b, p⟩ := r
    have hl := listUpdateW_length hp
    simp only [hp]
    exact ⟨rfl, ⟨rfl, e2.trans hl.symm, e2.trans hl.symm, hl.symm, hl.symm⟩, rfl⟩

theorem weightLoop_same {f g : SV → SV → Outcome K} :
    ∀ (news olds olds' : List (WSample K SV)), olds.length = news.length → olds'.length = news.length →
      (∀ (i : Nat) (y : SV) (h : i < olds.length) (h' : i < olds'.length),
        f olds[i].value y = g olds'[i].value y) →
      SameOutcome (fun x y => x = y ∧ x.1.length = news.length) (weightLoop f olds news)
        (weightLoop g olds' news) := by
  intro news
  induction news with
  | nil =>
    intro olds olds' h h' _
    rw [List.length_eq_zero_iff.1 h, List.length_eq_zero_iff.1 h']
    exact ⟨rfl, rfl⟩
  | cons n ns ih =>
    intro olds olds' h h' hf
    cases olds with
    | nil => simp at h
    | cons o os =>
      cases olds' with
      | nil => simp at h'
      | cons o' os' =>
        simp only [weightLoop]
        have e : f o.value n.value = g o'.value n.value := hf 0 n.value (by simp) (by simp)
        rw [e]
        refine SameOutcome.bind SameOutcome.refl_eq fun x y hxy => ?_
        subst hxy
        refine SameOutcome.bind SameOutcome.refl_eq fun w w' hw => ?_
        subst hw
        refine SameOutcome.bind SameOutcome.refl_eq fun a a' ha => ?_
        subst ha
        refine SameOutcome.bind (ih os os' (by simpa using h) (by simpa using h') ?_) ?_
        · intro i y h1 h2
          have := hf (i + 1) y (by simpa using h1) (by simpa using h2)
          simpa using this
        · rintro ⟨l, b⟩ ⟨l', b'⟩ ⟨e1, e2⟩
          simp only at e2
          cases e1
          exact ⟨rfl, by simp [e2]⟩

theorem reweight_same {f g : SV → SV → Outcome K} {c d : Cloud K SV} (h : c.Same d)
    (hf : ∀ (i : Nat) (y : SV) (h1 : i < c.old.length) (h2 : i < d.old.length),
      f c.old[i].value y = g d.old[i].value y) :
    SameOutcome (fun x y => x.1.1 = y.1.1 ∧ Same x.1.2 y.1.2) (c.reweight f) (d.reweight g) := by
  unfold reweight
  rw [← h.post]
  refine SameOutcome.bind (weightLoop_same c.post.listGet c.old d.old h.old h.old' hf) ?_
  rintro ⟨l, b⟩ ⟨l', b'⟩ ⟨e1, e2⟩
  cases e1
  simp only at e2
  cases hp : c.post.listUpdateW l with
  | abort => simp only [hp]; trivial
  | ub => simp only [hp]; trivial
  | ok r =>
    obtain ⟨b, p⟩ := r
    have hl := listUpdateW_length hp
    simp only [hp]
    exact ⟨rfl, rfl, e2.trans hl.symm, e2.trans hl.symm, h.old.trans hl.symm, h.old'.trans hl.symm⟩

theorem resample_same {dflt : SV} {root : Nat → K → K} {us : Nat → K} {c d : Cloud K SV} (h : c.Same d) :
    SameOutcome (fun x y => x.1 = y.1 ∧ Same x.2 y.2) (c.resample dflt root .multinomial us)
      (d.resample dflt root .multinomial us) := by
  unfold resample drawUnweighted
  simp only
  rw [← h.post]
  have key : ∀ (c' : Cloud K SV), SameOutcome (fun x y => x = y)
      (c.post.sampleList root .ripley ((List.range c.post.numSamples).map us) >>= fun ts =>
        match ts with
        | some ts => (pure ts : Outcome (List SV))
        | none => pure c.unweighted)
      (c.post.sampleList root .ripley ((List.range c.post.numSamples).map us) >>= fun ts =>
        match ts with
        | some ts => (pure ts : Outcome (List SV))
        | none => pure c'.unweighted) := by
    intro c'
    simp only [MCPdf.sampleList]
    split
    · trivial
    · cases c.post.ripleyLoop _ 0 c.post.cum with
      | abort => trivial
      | ub => trivial
      | ok ts => exact rfl
  refine SameOutcome.bind (key d) fun ts ts' e => ?_
  subst e
  cases hp : c.post.listUpdateU dflt ts with
  | abort => trivial
  | ub => trivial
  | ok r =>
    obtain ⟨b, p⟩ := r
    have hl := listUpdateU_length hp
    exact ⟨rfl, rfl, h.new.trans hl.symm, h.new'.trans hl.symm, h.old.trans hl.symm,
      h.old'.trans hl.symm⟩

theorem resampleIfDegenerate_same {dflt : SV} {root : Nat → K → K} {threshold : K} {us : Nat → K}
    {c d : Cloud K SV} (h : c.Same d) :
    SameOutcome (fun x y => x.1 = y.1 ∧ Same x.2 y.2)
      (c.resampleIfDegenerate dflt root .multinomial threshold us)
      (d.resampleIfDegenerate dflt root .multinomial threshold us) := by
  unfold resampleIfDegenerate
  have e : c.sumSquares = d.sumSquares := by simp only [sumSquares, h.post]
  rw [e]
  refine SameOutcome.bind SameOutcome.refl_eq fun s s' hs => ?_
  subst hs
  have h' : Same { c with new := c.post.listGet } { d with new := d.post.listGet } :=
    ⟨h.post, rfl, by rw [h.post], h.old, h.old'⟩
  split
  · exact resample_same h'
  · exact ⟨rfl, h'⟩

end Cloud

namespace ParticleFilter

/-- Same particles, dynamic multinomial resampling with the same threshold, same proposal. -/
structure Same (f g : ParticleFilter R SV K) : Prop where
  cloud : f.cloud.Same g.cloud
  dynamic : f.dynamic = true
  dynamic' : g.dynamic = true
  threshold : f.threshold = g.threshold
  scheme : f.scheme = .multinomial
  scheme' : g.scheme = .multinomial
  proposal : f.proposal = g.proposal
  anew : Cloud.DrawsAnew f.proposal

theorem weightStep_same {c : UpdateCall R SV MV K} {mm : Model SV MV K} {f g : ParticleFilter R SV K}
    (h : f.Same g) (ho : c.sys = none ∨ f.cloud.old = g.cloud.old) :
    SameOutcome (fun x y => x.1 = y.1 ∧ Same x.2 y.2) (f.weightStep c mm) (g.weightStep c mm) := by
  unfold weightStep
  rw [← h.proposal]
  refine SameOutcome.bind (Cloud.reweight_same h.cloud ?_) ?_
  · intro i y h1 h2
    rcases ho with ho | ho
    · simp only [Cloud.factor, ho]
    · simp only [ho]
  · rintro ⟨⟨b, c1⟩, s⟩ ⟨⟨b', c2⟩, s'⟩ ⟨e1, e2⟩
    refine ⟨e1, e2, h.dynamic, h.dynamic', ?_, ?_, ?_, ?_, h.anew⟩ <;>
      first | rfl | exact h.threshold | exact h.scheme | exact h.scheme'

theorem dynamicStep_same {dflt : SV} {root : Nat → K → K} {us : Nat → K} {f g : ParticleFilter R SV K}
    (h : f.Same g) :
    SameOutcome (fun x y => x.1 = y.1 ∧ Same x.2 y.2) (f.dynamicStep dflt root us)
      (g.dynamicStep dflt root us) := by
  unfold dynamicStep
  rw [if_pos h.dynamic, if_pos h.dynamic', h.scheme, h.scheme', h.threshold]
  refine SameOutcome.bind (Cloud.resampleIfDegenerate_same h.cloud) ?_
  rintro ⟨b, c1⟩ ⟨b', c2⟩ ⟨e1, e2⟩
  refine ⟨e1, e2, h.dynamic, h.dynamic', ?_, ?_, ?_, ?_, h.anew⟩ <;>
      first | rfl | exact h.threshold | exact h.scheme | exact h.scheme' | exact h.proposal

theorem update_same {dflt : SV} {root : Nat → K → K} {noise : Noise R K} {c : UpdateCall R SV MV K}
    {f g : ParticleFilter R SV K} (h : f.Same g) :
    SameOutcome (fun x y => x.1 = y.1 ∧ Same x.2 y.2) (f.update dflt root noise c)
      (g.update dflt root noise c) := by
  unfold update
  refine SameOutcome.bind (R := fun (x y : Bool × ParticleFilter R SV K) =>
    x.1 = y.1 ∧ Same x.2 y.2 ∧ (x.1 = true → c.sys = none ∨ x.2.cloud.old = y.2.cloud.old)) ?_ ?_
  · unfold sysPart
    cases hs : c.sys with
    | none => exact ⟨rfl, h, fun _ => Or.inl rfl⟩
    | some m =>
      have e : ∀ f : ParticleFilter R SV K, f.dynamic = true →
          staticStep dflt root noise.static f = .ok (true, f) := by
        intro f hf
        unfold staticStep
        rw [if_neg (by simp [hf])]
        rfl
      simp only [andStep, if_true, e f h.dynamic, e g h.dynamic', Outcome.ok_bind]
      unfold proposalStep
      rw [← h.proposal]
      refine SameOutcome.bind (Cloud.propose_same h.anew m c.u noise.prop h.cloud f.sample g.sample) ?_
      rintro ⟨⟨b, c1⟩, s⟩ ⟨⟨b', c2⟩, s'⟩ ⟨e1, e2, e3⟩
      refine ⟨e1, ⟨e2, h.dynamic, h.dynamic', ?_, ?_, ?_, ?_, h.anew⟩, fun _ => Or.inr e3⟩ <;>
        first | rfl | exact h.threshold | exact h.scheme | exact h.scheme'
  · rintro ⟨b, f1⟩ ⟨b', g1⟩ ⟨e1, h1, ho⟩
    simp only at e1 h1 ho
    subst e1
    unfold measPart
    cases c.meas with
    | none => exact ⟨rfl, h1⟩
    | some mm =>
      refine SameOutcome.bind (R := fun (x y : Bool × ParticleFilter R SV K) =>
        x.1 = y.1 ∧ Same x.2 y.2) ?_ ?_
      · unfold andStep
        cases b with
        | true => simpa using weightStep_same h1 (ho rfl)
        | false => exact ⟨rfl, h1⟩
      · rintro ⟨b2, f2⟩ ⟨b2', g2⟩ ⟨e2, h2⟩
        simp only at e2
        subst e2
        unfold andStep
        cases b2 with
        | true => simpa using dynamicStep_same h2
        | false => exact ⟨rfl, h2⟩

/-- Number of particles, threshold and proposal. -/
def Keeps (f f' : ParticleFilter R SV K) : Prop :=
  f'.cloud.post.samples.length = f.cloud.post.samples.length ∧ f'.threshold = f.threshold ∧
    f'.proposal = f.proposal

theorem Keeps.trans {f g k : ParticleFilter R SV K} (h : Keeps f g) (h' : Keeps g k) : Keeps f k :=
  ⟨h'.1.trans h.1, h'.2.1.trans h.2.1, h'.2.2.trans h.2.2⟩

theorem resample_length {dflt : SV} {root : Nat → K → K} {scheme : Scheme} {us : Nat → K}
    {c c' : Cloud K SV} {b : Bool} (h : c.resample dflt root scheme us = .ok (b, c')) :
    c'.post.samples.length = c.post.samples.length := by
  simp only [Cloud.resample, Outcome.bind_eq_ok, Outcome.pure_eq, Outcome.ok.injEq, Prod.mk.injEq,
    Prod.exists] at h
  obtain ⟨_, _, _, _, hp, _, rfl⟩ := h
  exact Cloud.listUpdateU_length hp

theorem staticStep_keeps {dflt : SV} {root : Nat → K → K} {us : Nat → K} {f f' : ParticleFilter R SV K}
    {b : Bool} (h : f.staticStep dflt root us = .ok (b, f')) : f.Keeps f' := by
  unfold staticStep at h
  split at h
  · simp only [Outcome.bind_eq_ok, Outcome.pure_eq, Outcome.ok.injEq, Prod.mk.injEq, Prod.exists] at h
    obtain ⟨_, _, hr, _, rfl⟩ := h
    exact ⟨resample_length hr, rfl, rfl⟩
  · cases h
    exact ⟨rfl, rfl, rfl⟩

theorem dynamicStep_keeps {dflt : SV} {root : Nat → K → K} {us : Nat → K} {f f' : ParticleFilter R SV K}
    {b : Bool} (h : f.dynamicStep dflt root us = .ok (b, f')) : f.Keeps f' := by
  unfold dynamicStep at h
  split at h
  · simp only [Outcome.bind_eq_ok, Outcome.pure_eq, Outcome.ok.injEq, Prod.mk.injEq, Prod.exists,
      Cloud.resampleIfDegenerate] at h
    obtain ⟨_, _, ⟨_, _, hr⟩, _, rfl⟩ := h
    refine ⟨?_, rfl, rfl⟩
    split at hr
    · exact (resample_length hr :)
    · cases hr; rfl
  · cases h
    exact ⟨rfl, rfl, rfl⟩

theorem proposalStep_keeps {m : SysModel R SV K} {u : SV} {rs : Nat → R} {f f' : ParticleFilter R SV K}
    {b : Bool} (h : f.proposalStep m u rs = .ok (b, f')) : f.Keeps f' := by
  simp only [proposalStep, Cloud.propose, Outcome.bind_eq_ok, Outcome.pure_eq, Outcome.ok.injEq,
    Prod.mk.injEq, Prod.exists] at h
  obtain ⟨_, _, _, ⟨_, _, _, _, _, hp, ⟨_, rfl⟩, _⟩, _, rfl⟩ := h
  exact ⟨Cloud.listUpdateW_length hp, rfl, rfl⟩

theorem weightStep_keeps {c : UpdateCall R SV MV K} {mm : Model SV MV K} {f f' : ParticleFilter R SV K}
    {b : Bool} (h : f.weightStep c mm = .ok (b, f')) : f.Keeps f' := by
  simp only [weightStep, Cloud.reweight, Outcome.bind_eq_ok, Outcome.pure_eq, Outcome.ok.injEq,
    Prod.mk.injEq, Prod.exists] at h
  obtain ⟨_, _, _, ⟨_, _, _, _, _, hp, ⟨_, rfl⟩, _⟩, _, rfl⟩ := h
  exact ⟨Cloud.listUpdateW_length hp, rfl, rfl⟩

theorem andStep_keeps {r r' : Bool × ParticleFilter R SV K}
    {step : ParticleFilter R SV K → Outcome (Bool × ParticleFilter R SV K)}
    (hs : ∀ {f f' b}, step f = .ok (b, f') → Keeps f f') (h : andStep r step = .ok r') :
    Keeps r.2 r'.2 := by
  unfold andStep at h
  split at h
  · exact hs h
  · cases h; exact ⟨rfl, rfl, rfl⟩

theorem update_keeps {dflt : SV} {root : Nat → K → K} {noise : Noise R K} {c : UpdateCall R SV MV K}
    {f f' : ParticleFilter R SV K} {b : Bool} (h : f.update dflt root noise c = .ok (b, f')) :
    f.Keeps f' := by
  unfold update at h
  rw [Outcome.bind_eq_ok] at h
  obtain ⟨r1, h1, h2⟩ := h
  have k1 : Keeps f r1.2 := by
    unfold sysPart at h1
    split at h1
    · cases h1; exact ⟨rfl, rfl, rfl⟩
    · rw [Outcome.bind_eq_ok] at h1
      obtain ⟨r0, h0, h1⟩ := h1
      exact (andStep_keeps staticStep_keeps h0).trans (andStep_keeps proposalStep_keeps h1)
  refine k1.trans ?_
  unfold measPart at h2
  split at h2
  · cases h2; exact ⟨rfl, rfl, rfl⟩
  · rw [Outcome.bind_eq_ok] at h2
    obtain ⟨r0, h0, h1⟩ := h2
    exact (andStep_keeps weightStep_keeps h0).trans (andStep_keeps dynamicStep_keeps h1)

end ParticleFilter

end BFL
