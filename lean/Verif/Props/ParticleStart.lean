import Verif.Props.ParticleFilterSetup

/-!
# Filters started from given particles
-/

set_option linter.unusedSectionVars false

namespace BFL.Props

open Spec MCPdf ParticleFilter

variable {R SV MV K : Type} [Field K] [LinearOrder K] [IsStrictOrderedRing K]

theorem setW_holds {dflt : SV} {q : MCPdf K SV} (hq : History dflt q) {ps : List (SV × K)}
    (hn : Normalised ps) :
    ∃ p, q.listSetW dflt (ps.map fun a => { value := a.1, weight := some a.2 }) = .ok (true, p) ∧
      Holds p ps := by
  have hw : HasWeights (ps.map fun a => ({ value := a.1, weight := some a.2 } : WSample K SV))
      (ps.map Prod.snd) := by
    simp [HasWeights]
  have ha : Admissible (ps.map fun a => ({ value := a.1, weight := some a.2 } : WSample K SV)) := by
    intro s hs w hsw
    rw [List.mem_map] at hs
    obtain ⟨a, ha, rfl⟩ := hs
    simp only [Option.some.injEq] at hsw
    rw [← hsw]
    exact hn.1 _ (List.mem_map_of_mem ha)
  obtain ⟨p, h1, h2, h3, h4, h5⟩ := C07_set_weighted hq ha hw (by rw [hn.2]; exact one_pos)
  refine ⟨p, h1, ?_⟩
  simp only [hn.2, div_one] at h4
  unfold Holds
  unfold HasWeights at h4
  apply List.ext_getElem
  · have := congrArg List.length h4
    simpa using this
  · intro k k1 k2
    have e1 : (p.listGet.map (·.value))[k]'(by simpa using k1) = (ps[k]'(by simpa using k2)).1 := by
      simp only [h3]; simp
    have e2 : (p.listGet.map (·.weight))[k]'(by simpa using k1) =
        some (ps[k]'(by simpa using k2)).2 := by
      simp only [h4]; simp
    simp only [List.getElem_map] at e1 e2 ⊢
    rw [← e1, ← e2]

/-- Every normalised particle set can be stored in an `MCPdf`, and a filter can be constructed from
it. -/
theorem start_exists (dflt : SV) {ps : List (SV × K)} (hn : Normalised ps)
    (q : Option (Proposal R SV K)) {period : Nat} {threshold : K} (scheme : Scheme)
    (hp : ¬ (period = 0 ∧ threshold = 0) ∧ ¬ (period ≠ 0 ∧ threshold ≠ 0)) :
    ∃ (prior : MCPdf K SV) (f : ParticleFilter R SV K), Assigned dflt prior ∧ Holds prior ps ∧
      Admissible prior.listGet ∧
      ParticleFilter.make dflt prior q period threshold scheme = .ok f ∧ Holds f.postGet ps := by
  obtain ⟨prior, h1, h2⟩ := setW_holds (q := MCPdf.make ps.length dflt) ⟨_, [], rfl⟩ hn
  have ha : Admissible prior.listGet := by
    intro s hs w hsw
    rw [h2, List.mem_map] at hs
    obtain ⟨a, ha, rfl⟩ := hs
    simp only [Option.some.injEq] at hsw
    rw [← hsw]
    exact hn.1 _ (List.mem_map_of_mem ha)
  obtain ⟨post, h3, h4⟩ := setW_holds (q := MCPdf.make prior.numSamples dflt) ⟨_, [], rfl⟩ hn
  refine ⟨prior, ⟨⟨post, prior.listGet, prior.listGet, []⟩, dflt, 0, decide (period = 0), period,
      threshold, scheme, q⟩,
    ⟨_, .setW _, ⟨ps.length, [], rfl⟩, ?_, h1⟩, h2, ha, ?_, h4⟩
  · rw [← h2]; exact ha
  · unfold ParticleFilter.make
    rw [h2, h3]
    simp [policy, hp.1, hp.2, cassert]

end BFL.Props
