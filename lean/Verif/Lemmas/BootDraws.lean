import Verif.Lemmas.StateMap

/-!
# A bootstrap filter only draws from its system model
-/

set_option linter.unusedSectionVars false

namespace BFL.Props

open Spec ParticleFilter

variable {R SV MV K : Type} [Field K] [LinearOrder K]

/-- Two system models that take the same arguments and draw the same; the densities may differ. -/
structure DrawsAlike (m m' : SysModel R SV K) : Prop where
  draw : m'.draw = m.draw
  without : m'.model.without = m.model.without
  args : m'.model.pdf.map (·.numArgs) = m.model.pdf.map (·.numArgs)

/-- The same filter, up to the pointer to the proposal. -/
def SameParticles (f f' : ParticleFilter R SV K) : Prop := f' = { f with proposal := f'.proposal }

theorem drawOne_alike {m m' : SysModel R SV K} (h : DrawsAlike m m') (u : SV) (r : R) (x prev : SV) :
    Cloud.drawOne m'.proposal m' u r x prev = Cloud.drawOne m.proposal m u r x prev := by
  obtain ⟨h1, h2, h3⟩ := h
  have hw : m'.model.withoutInputs = m.model.withoutInputs := by
    unfold Model.withoutInputs
    rw [h2]
  unfold Cloud.drawOne SysModel.proposal
  rw [hw]
  revert h3
  cases m.model.pdf <;> cases m'.model.pdf <;> intro h3
  · rfl
  · simp at h3
  · simp at h3
  · rename_i p p'
    have hn : p'.numArgs = p.numArgs := by simpa using h3
    simp only [Option.map_some, Cloud.deref, Outcome.ok_bind, Cloud.propArgs, hn, h1]

theorem proposeLoop_alike {q q' : Option (Proposal R SV K)} {m m' : SysModel R SV K} {u : SV}
    (h : ∀ r x prev, Cloud.drawOne q' m' u r x prev = Cloud.drawOne q m u r x prev) (rs : Nat → R) :
    ∀ (i : Nat) (os ns : List (WSample K SV)) (prev : SV),
      Cloud.proposeLoop q' m' u rs i os ns prev = Cloud.proposeLoop q m u rs i os ns prev := by
  intro i os
  induction os generalizing i with
  | nil => intro ns prev; rfl
  | cons o os ih =>
    intro ns prev
    simp only [Cloud.proposeLoop, h]
    congr 1
    funext x
    cases ns with
    | nil => rfl
    | cons n ns => simp only [ih]

theorem propose_alike {q q' : Option (Proposal R SV K)} {m m' : SysModel R SV K} {u : SV}
    (h : ∀ r x prev, Cloud.drawOne q' m' u r x prev = Cloud.drawOne q m u r x prev) (rs : Nat → R) (c : Cloud K SV)
    (prev : SV) : Cloud.propose q' m' u rs c prev = Cloud.propose q m u rs c prev := by
  simp only [Cloud.propose, proposeLoop_alike h]

/-- Results that are the same up to the pointer to the proposal. -/
def SameOutcome (x y : Bool × ParticleFilter R SV K) : Prop := y.1 = x.1 ∧ SameParticles x.2 y.2

theorem andStep_alike {x y : Bool × ParticleFilter R SV K} (h : SameOutcome x y)
    {step step' : ParticleFilter R SV K → Outcome (Bool × ParticleFilter R SV K)}
    (hs : SameParticles x.2 y.2 → Same SameOutcome (step x.2) (step' y.2)) :
    Same SameOutcome (andStep x step) (andStep y step') := by
  unfold andStep
  rw [h.1]
  split
  · exact hs h.2
  · exact h

theorem staticStep_alike (d : SV) (root : Nat → K → K) (us : Nat → K) {f f' : ParticleFilter R SV K}
    (h : SameParticles f f') : Same SameOutcome (f.staticStep d root us) (f'.staticStep d root us) := by
  unfold SameParticles at h
  unfold staticStep
  rw [h]
  simp only
  split
  · refine Same.bind (Same.refl _) ?_
    rintro ⟨b, cl⟩ _ rfl
    exact Same.ok ⟨rfl, rfl⟩
  · exact Same.ok ⟨rfl, rfl⟩

theorem dynamicStep_alike (d : SV) (root : Nat → K → K) (us : Nat → K) {f f' : ParticleFilter R SV K}
    (h : SameParticles f f') : Same SameOutcome (f.dynamicStep d root us) (f'.dynamicStep d root us) := by
  unfold SameParticles at h
  unfold dynamicStep
  rw [h]
  simp only
  split
  · refine Same.bind (Same.refl _) ?_
    rintro ⟨b, cl⟩ _ rfl
    exact Same.ok ⟨rfl, rfl⟩
  · exact Same.ok ⟨rfl, rfl⟩

theorem proposalStep_alike {m m' : SysModel R SV K} (hm : DrawsAlike m m') (u : SV) (rs : Nat → R)
    {f f' : ParticleFilter R SV K} (h : SameParticles f f') (hf : f.proposal = m.proposal)
    (hf' : f'.proposal = m'.proposal) : Same SameOutcome (f.proposalStep m u rs) (f'.proposalStep m' u rs) := by
  unfold SameParticles at h
  unfold proposalStep
  rw [hf', h, hf, propose_alike (drawOne_alike hm u)]
  refine Same.bind (Same.refl _) ?_
  rintro ⟨⟨b, cl⟩, last⟩ _ rfl
  exact Same.ok ⟨rfl, rfl⟩

theorem weightStep_alike {c c' : UpdateCall R SV MV K} (hs : c.sys = none) (hs' : c'.sys = none) (hz : c'.z = c.z)
    (hp : c'.s = c.s) (mm : Model SV MV K) {f f' : ParticleFilter R SV K} (h : SameParticles f f') :
    Same SameOutcome (f.weightStep c mm) (f'.weightStep c' mm) := by
  unfold SameParticles at h
  unfold weightStep
  have : Cloud.factor f'.proposal c'.sys c'.u mm c'.z c'.s = Cloud.factor f.proposal c.sys c.u mm c.z c.s := by
    funext x y
    rw [hs, hs', hz, hp]
    rfl
  rw [this, h]
  refine Same.bind (Same.refl _) ?_
  rintro ⟨⟨b, cl⟩, last⟩ _ rfl
  exact Same.ok ⟨rfl, rfl⟩

theorem staticStep_proposal {d : SV} {root : Nat → K → K} {us : Nat → K} {f : ParticleFilter R SV K}
    {r : Bool × ParticleFilter R SV K} (h : f.staticStep d root us = .ok r) : r.2.proposal = f.proposal := by
  unfold staticStep at h
  split at h
  · simp only [Outcome.bind_eq_ok, Outcome.pure_eq, Outcome.ok.injEq] at h
    obtain ⟨_, _, rfl⟩ := h
    rfl
  · cases h
    rfl

/-- One update of two bootstrap filters with system models that draw alike. -/
theorem bootUpdate_alike (d : SV) (root : Nat → K → K) (noise : Noise R K) {m m' : SysModel R SV K}
    (hm : DrawsAlike m m') (u : SV) (mm : Option (Model SV MV K)) (z : MV) (s : SV) {f f' : ParticleFilter R SV K}
    (h : SameParticles f f') :
    Same SameOutcome (f.bootUpdate d root noise ⟨some m, u, mm, z, s⟩)
      (f'.bootUpdate d root noise ⟨some m', u, mm, z, s⟩) := by
  unfold bootUpdate
  refine Same.bind (r := SameOutcome) ?_ ?_
  · simp only [bootSys, update, sysPart, measPart]
    have h' : SameParticles { f with proposal := m.proposal } { f' with proposal := m'.proposal } := by
      unfold SameParticles at h ⊢
      rw [h]
    have h1 := staticStep_alike d root noise.static h'
    simp only [andStep, if_true]
    cases ha : staticStep d root noise.static { f with proposal := m.proposal } with
    | abort =>
      rw [ha] at h1
      cases hb : staticStep d root noise.static { f' with proposal := m'.proposal } <;> rw [hb] at h1 <;>
        first | exact h1 | exact h1.elim
    | ub =>
      rw [ha] at h1
      cases hb : staticStep d root noise.static { f' with proposal := m'.proposal } <;> rw [hb] at h1 <;>
        first | exact h1 | exact h1.elim
    | ok x =>
      rw [ha] at h1
      cases hb : staticStep d root noise.static { f' with proposal := m'.proposal } with
      | abort => rw [hb] at h1; exact h1.elim
      | ub => rw [hb] at h1; exact h1.elim
      | ok y =>
        rw [hb] at h1
        simp only [Outcome.ok_bind]
        refine Same.bind (r := SameOutcome) ?_ fun a b hab => hab
        have h1' : SameOutcome x y := h1
        rw [h1'.1]
        split
        · exact proposalStep_alike hm u noise.prop h1'.2 (staticStep_proposal ha) (staticStep_proposal hb)
        · exact h1'
  · intro x y hxy
    unfold bootMeas
    cases mm with
    | none => exact hxy
    | some mm =>
      simp only [update, sysPart, measPart, Outcome.ok_bind]
      refine Same.bind (r := SameOutcome) ?_ ?_
      · refine Same.bind (r := SameOutcome) ?_ ?_
        · exact andStep_alike (x := (true, x.2)) (y := (true, y.2)) ⟨rfl, hxy.2⟩
            (weightStep_alike rfl rfl rfl rfl mm)
        · intro a b hab
          exact andStep_alike hab (dynamicStep_alike d root noise.dynamic)
      · rintro ⟨b, g⟩ ⟨b', g'⟩ ⟨h1, h2⟩
        simp only at h1 h2
        exact Same.ok ⟨by simp only [h1, hxy.1], h2⟩

end BFL.Props
