import Verif.Lemmas.StateMap
import Verif.Lemmas.Moments
import Mathlib.Data.Matrix.Mul
import Mathlib.LinearAlgebra.Matrix.Notation
import Mathlib.Tactic.FinCases
import Mathlib.Tactic.Linarith

set_option linter.unusedSectionVars false
set_option linter.unusedSimpArgs false

/-!
# C108: particle filters do not depend on how states are described
-/

namespace BFL.Props

open Spec

variable {R SV SW MV MW K : Type} [Field K] [LinearOrder K] [IsStrictOrderedRing K]

/-- Two filters in the same situation. -/
structure SameFilter (φ : SV → SW) (d : SV) (d' : SW) (q : Option (Proposal R SV K))
    (q' : Option (Proposal R SW K)) (f : ParticleFilter R SV K) (f' : ParticleFilter R SW K) : Prop where
  cloud : SameCloud φ f.cloud f'.cloud
  sample : Held φ d d' f.sample f'.sample
  timestep : f'.timestep = f.timestep
  dynamic : f'.dynamic = f.dynamic
  period : f'.period = f.period
  threshold : f'.threshold = f.threshold
  scheme : f'.scheme = f.scheme
  proposal : f.proposal = q
  proposal' : f'.proposal = q'

/-- Two results of a step: the same return value, and filters in the same situation. -/
def SameResult (φ : SV → SW) (d : SV) (d' : SW) (q : Option (Proposal R SV K))
    (q' : Option (Proposal R SW K)) (x : Bool × ParticleFilter R SV K) (y : Bool × ParticleFilter R SW K) :
    Prop := y.1 = x.1 ∧ SameFilter φ d d' q q' x.2 y.2

variable {φ : SV → SW} {d : SV} {d' : SW} {c : K} {q : Option (Proposal R SV K)}
  {q' : Option (Proposal R SW K)}

theorem andStep_same {x : Bool × ParticleFilter R SV K} {y : Bool × ParticleFilter R SW K}
    (h : SameResult φ d d' q q' x y) {step : ParticleFilter R SV K → Outcome (Bool × ParticleFilter R SV K)}
    {step' : ParticleFilter R SW K → Outcome (Bool × ParticleFilter R SW K)}
    (hs : SameFilter φ d d' q q' x.2 y.2 → Same (SameResult φ d d' q q') (step x.2) (step' y.2)) :
    Same (SameResult φ d d' q q') (andStep x step) (andStep y step') := by
  unfold andStep
  rw [h.1]
  split
  · exact hs h.2
  · exact h

theorem proposalStep_same {u : SV} {u' : SW} {m : SysModel R SV K} {m' : SysModel R SW K}
    (hq : Option.Rel (SameProposal φ d d' c u u') q q') (hm : SameSystem φ d d' c u u' m m')
    (rs : Nat → R) {f : ParticleFilter R SV K} {f' : ParticleFilter R SW K}
    (h : SameFilter φ d d' q q' f f') :
    Same (SameResult φ d d' q q') (f.proposalStep m u rs) (f'.proposalStep m' u' rs) := by
  unfold ParticleFilter.proposalStep
  rw [h.proposal, h.proposal']
  refine Same.bind (propose_same hq hm rs h.cloud h.sample) ?_
  rintro ⟨⟨b, cl⟩, last⟩ ⟨⟨b', cl'⟩, last'⟩ ⟨h1, h2, h3⟩
  refine Same.ok ⟨h1, h2, h3, ?_, h.dynamic, h.period, h.threshold, h.scheme, rfl, rfl⟩
  simp only [h.timestep]

theorem weightStep_same (hc : 0 < c) {cz : K} (hz : 0 < cz) {a : UpdateCall R SV MV K}
    {a' : UpdateCall R SW MW K} (hs : Option.Rel (SameSystem φ d d' c a.u a'.u) a.sys a'.sys)
    (hq : a.sys ≠ none → Option.Rel (SameProposal φ d d' c a.u a'.u) q q') {mm : Model SV MV K}
    {mm' : Model SW MW K} (hm : SameModel φ a.s a'.s (fun z z' => z = a.z ∧ z' = a'.z) cz mm mm')
    {f : ParticleFilter R SV K} {f' : ParticleFilter R SW K} (h : SameFilter φ d d' q q' f f') :
    Same (SameResult φ d d' q q') (f.weightStep a mm) (f'.weightStep a' mm') := by
  unfold ParticleFilter.weightStep
  rw [h.proposal, h.proposal']
  refine Same.bind (reweight_same hz (fun x y => factor_same hc hz hs hq hm x y) h.cloud) ?_
  rintro ⟨⟨b, cl⟩, sum⟩ ⟨⟨b', cl'⟩, sum'⟩ ⟨h1, h2, h3⟩
  exact Same.ok ⟨h1, h2, h.sample, h.timestep, h.dynamic, h.period, h.threshold, h.scheme, rfl, rfl⟩

theorem staticStep_same (root : Nat → K → K) (us : Nat → K) {f : ParticleFilter R SV K}
    {f' : ParticleFilter R SW K} (h : SameFilter φ d d' q q' f f') :
    Same (SameResult φ d d' q q') (f.staticStep d root us) (f'.staticStep d' root us) := by
  unfold ParticleFilter.staticStep
  rw [h.dynamic, h.timestep, h.period, h.scheme]
  split
  · refine Same.bind (resample_same d d' root f.scheme us h.cloud) ?_
    rintro ⟨b, cl⟩ ⟨b', cl'⟩ ⟨h1, h2⟩
    refine Same.ok ⟨h1, h2, h.sample, ?_, ?_, ?_, ?_, ?_, h.proposal, h.proposal'⟩ <;>
      simp only [h.timestep, h.period, h.threshold]
  · exact Same.ok ⟨rfl, h⟩

theorem dynamicStep_same (root : Nat → K → K) (us : Nat → K) {f : ParticleFilter R SV K}
    {f' : ParticleFilter R SW K} (h : SameFilter φ d d' q q' f f') :
    Same (SameResult φ d d' q q') (f.dynamicStep d root us) (f'.dynamicStep d' root us) := by
  unfold ParticleFilter.dynamicStep
  rw [h.dynamic, h.threshold, h.scheme]
  split
  · refine Same.bind (resampleIfDegenerate_same d d' root f.scheme f.threshold us h.cloud) ?_
    rintro ⟨b, cl⟩ ⟨b', cl'⟩ ⟨h1, h2⟩
    refine Same.ok ⟨h1, h2, h.sample, ?_, ?_, ?_, ?_, ?_, h.proposal, h.proposal'⟩ <;>
      simp only [h.timestep, h.period, h.threshold]
  · exact Same.ok ⟨rfl, h⟩

theorem update_same (hc : 0 < c) (root : Nat → K → K) (noise : Noise R K) {a : UpdateCall R SV MV K}
    {a' : UpdateCall R SW MW K} (ha : SameCall φ d d' c a a')
    (hq : a.sys ≠ none → Option.Rel (SameProposal φ d d' c a.u a'.u) q q') {f : ParticleFilter R SV K}
    {f' : ParticleFilter R SW K} (h : SameFilter φ d d' q q' f f') :
    Same (SameResult φ d d' q q') (f.update d root noise a) (f'.update d' root noise a') := by
  unfold ParticleFilter.update
  obtain ⟨hs, cz, hz, hm⟩ := ha
  refine Same.bind (r := SameResult φ d d' q q') ?_ ?_
  · unfold ParticleFilter.sysPart
    revert hs hq
    cases a.sys <;> cases a'.sys <;> intro hq hs <;> cases hs
    · exact Same.ok ⟨rfl, h⟩
    · rename_i hs
      refine Same.bind (andStep_same (show SameResult φ d d' q q' (true, f) (true, f') from ⟨rfl, h⟩)
        (staticStep_same root noise.static)) ?_
      intro x y hxy
      exact andStep_same hxy (proposalStep_same (hq (by simp)) hs noise.prop)
  · intro x y hxy
    unfold ParticleFilter.measPart
    revert hm
    cases a.meas <;> cases a'.meas <;> intro hm <;> cases hm
    · exact hxy
    · rename_i hm
      refine Same.bind (andStep_same hxy (weightStep_same hc hz hs hq hm)) ?_
      intro x y hxy
      exact andStep_same hxy (dynamicStep_same root noise.dynamic)

theorem proposal_same {u : SV} {u' : SW} {m : SysModel R SV K} {m' : SysModel R SW K}
    (hm : SameSystem φ d d' c u u' m m') :
    Option.Rel (SameProposal φ d d' c u u') m.proposal m'.proposal := by
  have := hm.model.pdf
  unfold SysModel.proposal
  revert this
  cases m.model.pdf <;> cases m'.model.pdf <;> intro this <;> cases this
  · exact .none
  · rename_i hpdf
    exact .some ⟨hpdf.numArgs, hpdf.density, hm.draw⟩

theorem bootUpdate_same (hc : 0 < c) (root : Nat → K → K) (noise : Noise R K) {a : UpdateCall R SV MV K}
    {a' : UpdateCall R SW MW K} (ha : SameCall φ d d' c a a') {f : ParticleFilter R SV K}
    {f' : ParticleFilter R SW K} (h : SameFilter φ d d' q q' f f') :
    Same (fun x y => ∃ q q', SameResult φ d d' q q' x y) (f.bootUpdate d root noise a)
      (f'.bootUpdate d' root noise a') := by
  obtain ⟨sys, u, meas, z, s⟩ := a
  obtain ⟨sys', u', meas', z', s'⟩ := a'
  obtain ⟨hs, cz, hz, hm⟩ := ha
  simp only at hs hm
  unfold ParticleFilter.bootUpdate
  refine Same.bind (r := fun x y => ∃ q q', SameResult φ d d' q q' x y) ?_ ?_
  · unfold ParticleFilter.bootSys
    cases hs with
    | none => exact Same.ok ⟨q, q', rfl, h⟩
    | @some m m' hm =>
      have hp := proposal_same hm
      simp only
      refine Same.mono (r := SameResult φ d d' m.proposal m'.proposal)
        (update_same hc root noise ⟨.some hm, 1, one_pos, .none⟩ (fun _ => hp) ?_)
        (fun x y hxy => ⟨_, _, hxy⟩)
      exact ⟨h.cloud, h.sample, h.timestep, h.dynamic, h.period, h.threshold, h.scheme, rfl, rfl⟩
  · rintro ⟨b, g⟩ ⟨b', g'⟩ ⟨q, q', h1, h2⟩
    simp only at h1 h2
    subst h1
    unfold ParticleFilter.bootMeas
    cases hm with
    | none => exact Same.ok ⟨q, q', rfl, h2⟩
    | some hm =>
      simp only
      refine Same.bind (update_same (q := q) (q' := q') hc root noise
        ⟨.none, cz, hz, .some hm⟩ (fun h => absurd rfl h) h2) ?_
      rintro ⟨x, k⟩ ⟨x', k'⟩ ⟨h3, h4⟩
      simp only at h3
      subst h3
      exact Same.ok ⟨q, q', rfl, h4⟩

theorem run_same {step : Noise R K → UpdateCall R SV MV K → ParticleFilter R SV K →
      Outcome (Bool × ParticleFilter R SV K)}
    {step' : Noise R K → UpdateCall R SW MW K → ParticleFilter R SW K →
      Outcome (Bool × ParticleFilter R SW K)}
    {rel : ParticleFilter R SV K → ParticleFilter R SW K → Prop}
    {as : List (Noise R K × UpdateCall R SV MV K)} {as' : List (Noise R K × UpdateCall R SW MW K)}
    (h : List.Forall₂ (fun a a' => ∀ f f', rel f f' →
      Same (fun x y => y.1 = x.1 ∧ rel x.2 y.2) (step a.1 a.2 f) (step' a'.1 a'.2 f')) as as') :
    ∀ {f : ParticleFilter R SV K} {f' : ParticleFilter R SW K}, rel f f' →
    Same (fun x y => y.1 = x.1 ∧ rel x.2 y.2) (f.run step as) (f'.run step' as') := by
  induction h with
  | nil => intro f f' h; exact Same.ok ⟨rfl, h⟩
  | @cons a a' as as' ha _ ih =>
    intro f f' h
    obtain ⟨n, a⟩ := a
    obtain ⟨n', a'⟩ := a'
    simp only [ParticleFilter.run]
    refine Same.bind (ha f f' h) ?_
    rintro ⟨b, g⟩ ⟨b', g'⟩ ⟨h1, h2⟩
    refine Same.bind (ih h2) ?_
    rintro ⟨x, k⟩ ⟨x', k'⟩ ⟨h3, h4⟩
    refine Same.ok ⟨?_, h4⟩
    simp only at h1 h3
    rw [h1, h3]

theorem make_same {prior : MCPdf K SV} (hp : ∀ s ∈ prior.samples, ∀ w, s.weight = some w → 0 ≤ w)
    (q : Option (Proposal R SV K)) (q' : Option (Proposal R SW K)) (period : Nat) (threshold : K)
    (scheme : Scheme) :
    Same (SameFilter φ d d' q q') (ParticleFilter.make d prior q period threshold scheme)
      (ParticleFilter.make d' (movedPdf φ prior) q' period threshold scheme) := by
  unfold ParticleFilter.make
  refine Same.bind (listSetW_moved φ d d' (MCPdf.make prior.numSamples d)
    (MCPdf.make (movedPdf φ prior).numSamples d') (by simp [MCPdf.make, movedPdf, MCPdf.numSamples])
    (by simp [MCPdf.make, movedPdf, MCPdf.numSamples]) rfl hp) ?_
  rintro ⟨b, post⟩ _ rfl
  refine Same.bind (Same.refl _) ?_
  intro _ _ _
  refine Same.bind (Same.refl _) ?_
  rintro dyn _ rfl
  exact Same.ok ⟨⟨rfl, rfl, by simp [movedPdf, MCPdf.listGet], rfl⟩, Or.inr ⟨rfl, rfl⟩, rfl, rfl, rfl, rfl, rfl, rfl, rfl⟩

/-- C108. A particle filter is built and run twice, with the same random numbers: once on states `x`,
once on states `φ x`, with models, proposal and prior that say the same about corresponding states. Both
runs end in the same way; if they return, they return the same value, and the posterior of the second is
the posterior of the first with every particle moved by `φ` and all weights kept. `φ` need not be
invertible. -/
theorem C108_particle (φ : SV → SW) (d : SV) (d' : SW) (c : K) (hc : 0 < c) (root : Nat → K → K)
    (q : Option (Proposal R SV K)) (q' : Option (Proposal R SW K)) (prior : MCPdf K SV)
    (hp : ∀ s ∈ prior.samples, ∀ w, s.weight = some w → 0 ≤ w) (period : Nat) (threshold : K)
    (scheme : Scheme) (as : List (Noise R K × UpdateCall R SV MV K))
    (as' : List (Noise R K × UpdateCall R SW MW K)) (ha : SameHistory φ d d' c as as')
    (hq : List.Forall₂ (fun a a' => Option.Rel (SameProposal φ d d' c a.2.u a'.2.u) q q') as as') :
    Same (fun x y => y.1 = x.1 ∧ y.2.postGet = movedPdf φ x.2.postGet)
      (ParticleFilter.make d prior q period threshold scheme >>= fun f =>
        f.run (ParticleFilter.update d root) as)
      (ParticleFilter.make d' (movedPdf φ prior) q' period threshold scheme >>= fun f =>
        f.run (ParticleFilter.update d' root) as') := by
  refine Same.bind (make_same (φ := φ) (d := d) (d' := d') hp q q' period threshold scheme) ?_
  intro f f' h
  refine Same.mono (run_same (rel := SameFilter φ d d' q q') ?_ h) (fun x y hxy => ⟨hxy.1, hxy.2.cloud.post⟩)
  clear h
  unfold SameHistory at ha
  induction ha with
  | nil => exact .nil
  | @cons a a' as as' h _ ih =>
    cases hq with
    | cons h1 h2 =>
      refine .cons (fun f f' hf => ?_) (ih h2)
      rw [h.1]
      exact update_same hc root a.1 h.2 (fun _ => h1) hf

/-- C108 for bootstrap filters, whose proposal is the system model of each update. -/
theorem C108_bootstrap (φ : SV → SW) (d : SV) (d' : SW) (c : K) (hc : 0 < c) (root : Nat → K → K)
    (prior : MCPdf K SV) (hp : ∀ s ∈ prior.samples, ∀ w, s.weight = some w → 0 ≤ w) (period : Nat)
    (threshold : K) (scheme : Scheme) (as : List (Noise R K × UpdateCall R SV MV K))
    (as' : List (Noise R K × UpdateCall R SW MW K)) (ha : SameHistory φ d d' c as as') :
    Same (fun x y => y.1 = x.1 ∧ y.2.postGet = movedPdf φ x.2.postGet)
      (ParticleFilter.make d prior none period threshold scheme >>= fun f =>
        f.run (ParticleFilter.bootUpdate d root) as)
      (ParticleFilter.make d' (movedPdf φ prior) none period threshold scheme >>= fun f =>
        f.run (ParticleFilter.bootUpdate d' root) as') := by
  refine Same.bind (make_same (φ := φ) (d := d) (d' := d') hp none none period threshold scheme) ?_
  intro f f' h
  refine Same.mono (run_same (rel := fun f f' => ∃ q q', SameFilter φ d d' q q' f f') ?_ ⟨_, _, h⟩)
    (fun x y hxy => ⟨hxy.1, ?_⟩)
  · clear h
    unfold SameHistory at ha
    induction ha with
    | nil => exact .nil
    | @cons a a' as as' h _ ih =>
      refine .cons (fun f f' hf => ?_) ih
      rw [h.1]
      obtain ⟨q, q', hf⟩ := hf
      refine Same.mono (bootUpdate_same hc root a.1 h.2 hf) ?_
      rintro x y ⟨q, q', h1, h2⟩
      exact ⟨h1, q, q', h2⟩
  · obtain ⟨_, _, _, hxy⟩ := hxy
    exact hxy.cloud.post

theorem average_map {X Y : Type} (f : X → Y) (xs : List X) (ws : List K) (g : Y → K) :
    average (xs.map f) ws g = average xs ws (fun x => g (f x)) := by
  simp only [average, List.zipWith_map_left]

theorem meanVector_moved {n k : Nat} (T : Matrix (Fin k) (Fin n) K) (t : Fin k → K)
    (xs : List (Fin n → K)) (ws : List K) (hl : xs.length = ws.length) (hd : IsDistribution ws) :
    meanVector (xs.map (fun x => T.mulVec x + t)) ws = T.mulVec (meanVector xs ws) + t := by
  funext i
  simp only [meanVector, average_map, Pi.add_apply, Matrix.mulVec, dotProduct]
  rw [average_add, average_finset, average_const hl, hd.2, one_mul]
  congr 1
  refine Finset.sum_congr rfl fun j _ => ?_
  rw [average_smul]

theorem covMatrix_moved {n k : Nat} (T : Matrix (Fin k) (Fin n) K) (t : Fin k → K)
    (xs : List (Fin n → K)) (ws : List K) (hl : xs.length = ws.length) (hd : IsDistribution ws) :
    covMatrix (xs.map (fun x => T.mulVec x + t)) ws = T * covMatrix xs ws * T.transpose := by
  have hm := meanVector_moved T t xs ws hl hd
  ext i j
  simp only [covMatrix, hm, average_map, Matrix.of_apply, Matrix.mul_apply, Matrix.transpose_apply]
  have e : ∀ x : Fin n → K, ((T.mulVec x + t) i - (T.mulVec (meanVector xs ws) + t) i)
      * ((T.mulVec x + t) j - (T.mulVec (meanVector xs ws) + t) j)
      = ∑ b, ∑ a, (T i a * T j b) * ((x a - meanVector xs ws a)
        * (x b - meanVector xs ws b)) := by
    intro x
    simp only [Pi.add_apply, add_sub_add_right_eq_sub, Matrix.mulVec, dotProduct, ← Finset.sum_sub_distrib,
      ← mul_sub]
    rw [Finset.sum_mul_sum, Finset.sum_comm]
    refine Finset.sum_congr rfl fun b _ => Finset.sum_congr rfl fun a _ => ?_
    ring
  simp only [e]
  rw [average_finset]
  refine Finset.sum_congr rfl fun b _ => ?_
  rw [average_finset, Finset.sum_mul]
  refine Finset.sum_congr rfl fun a _ => ?_
  rw [average_smul]
  ring

/-- C108, the reported moments: if all particles are moved by `x ↦ T x + t`, the reported mean is moved
in the same way, and the reported covariance `C` becomes `T C Tᵀ`. -/
theorem C108_moments {n k : Nat} (T : Matrix (Fin k) (Fin n) K) (t : Fin k → K)
    (p : MCPdf K (Fin n → K)) (ws : List K) (hw : p.samples.map (·.weight) = ws.map some)
    (hd : IsDistribution ws) (hcum : p.cum = runningSums 0 ws) (hs : p.sumWeights = 1) :
    ∃ m C, p.meanGet = .ok m ∧ p.covGet = .ok C ∧
      (movedPdf (fun x => T.mulVec x + t) p).meanGet = .ok (T.mulVec m + t) ∧
      (movedPdf (fun x => T.mulVec x + t) p).covGet = .ok (T * C * T.transpose) := by
  have hg : MCPdf.Good p ws := ⟨hw, hd, hcum, hs⟩
  have hg' : MCPdf.Good (movedPdf (fun x => T.mulVec x + t) p) ws := by
    refine ⟨?_, hd, hcum, hs⟩
    rw [← hw]
    simp [movedPdf, moved, Function.comp_def]
  have hl : (p.samples.map (·.value)).length = ws.length := by
    have := congrArg List.length hw
    simpa using this
  have hv : (movedPdf (fun x => T.mulVec x + t) p).samples.map (·.value)
      = (p.samples.map (·.value)).map (fun x => T.mulVec x + t) := by
    simp [movedPdf, moved, Function.comp_def]
  refine ⟨_, _, MCPdf.meanGet_eq hg, MCPdf.covGet_eq hg, ?_, ?_⟩
  · rw [MCPdf.meanGet_eq hg', hv, meanVector_moved T t _ ws hl hd]
  · rw [MCPdf.covGet_eq hg', hv, covMatrix_moved T t _ ws hl hd]

end BFL.Props
