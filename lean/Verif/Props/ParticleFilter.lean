import Verif.Props.ParticleFilterFixture
import Mathlib.Algebra.Order.Chebyshev
import Mathlib.Tactic.NormNum
import Mathlib.Tactic.Linarith
import Mathlib.Tactic.FieldSimp

/-!
# Properties C26-C29 and C31 of `ParticleFilter` and `BootstrapFilter`

The vocabulary (`Reached`, `Holds`, `IsLikelihood`, `IsTransition`, `IsProposal`, `Draws`) is in
`Verif/Props/ParticleFilterSetup.lean`; `Moved`, `Reweighted` and `Resampled` are in
`Verif/Spec/Particles.lean`.
-/

set_option linter.unusedSectionVars false

namespace BFL.Props

open Spec MCPdf ParticleFilter

variable {R SV MV K : Type} [Field K] [LinearOrder K] [IsStrictOrderedRing K]

variable {dflt : SV} {root : Nat → K → K} {period : Nat} {threshold : K}

theorem Reached.ready {f : ParticleFilter R SV K} {n : Nat}
    (h : Reached MV dflt root period threshold .multinomial f n) {ps : List (SV × K)}
    (hh : Holds f.postGet ps) (hn : Normalised ps) : Ready period threshold n f ps :=
  ⟨h.params.1, h.params.2, h.live hh hn⟩

/-! ## C26 -/

/-- Measurement update, any history: particles keep value and order, every weight is multiplied by
the likelihood and renormalised; then the particles are resampled if the effective size is below
the threshold. If all products are zero, `Update` returns `false`. -/
theorem C26_measurement (hroot : IsRoot root) {f : ParticleFilter R SV K} {n : Nat}
    (hr : Reached MV dflt root period threshold .multinomial f n) {ps : List (SV × K)}
    (hh : Holds f.postGet ps) (hn : Normalised ps)
    {mm : Model SV MV K} {L : MV → SV → SV → K} (hl : IsLikelihood mm L)
    {noise : Noise R K} (hus : Uniforms noise.dynamic) (u s : SV) (z : MV) :
    let g : Nat → K := fun i => if h : i < ps.length then L z ps[i].1 s else 0
    (0 < totalWeight g ps → ∃ f' ps1 ps2,
      f.update dflt root noise ⟨none, u, some mm, z, s⟩ = .ok (true, f') ∧
      Reweighted g ps ps1 ∧ Normalised ps1 ∧
      (effectiveSize ps1 < threshold →
        Resampled (selectors root noise.dynamic ps.length) ps1 ps2) ∧
      (¬ effectiveSize ps1 < threshold → ps2 = ps1) ∧
      Holds f'.postGet ps2 ∧ Normalised ps2) ∧
    (totalWeight g ps = 0 → ∃ f',
      f.update dflt root noise ⟨none, u, some mm, z, s⟩ = .ok (false, f') ∧
      ∃ ps', Holds f'.postGet ps' ∧ ps'.map Prod.fst = ps.map Prod.fst ∧
        ∀ a ∈ ps', a.2 = 0) := by
  intro g
  have h := hr.ready hh hn
  have hg : ∀ i, 0 ≤ g i := by
    intro i
    by_cases hi : i < ps.length
    · simp only [g, hi, dif_pos]; exact hl.nonneg _ _ _
    · simp [g, hi]
  obtain ⟨h1, h2⟩ := measPart_ready (dflt := dflt) (noise := noise)
    (c := ⟨none, u, some mm, z, s⟩) hroot hus rfl h hg (by
      intro i hi
      simp only [Cloud.factor, hl.likelihood, g, hi, dif_pos])
  constructor
  · intro hpos
    obtain ⟨f', ps1, ps2, k1, k2, k3, k4, k5, k6⟩ := h1 hpos
    exact ⟨f', ps1, ps2, k1, k3, k4, k5, k6, k2.live.samples, k2.live.dist⟩
  · intro h0
    obtain ⟨f', k1, k2⟩ := h2 h0
    refine ⟨f', k1, _, k2, ?_, ?_⟩
    · apply List.ext_getElem <;> simp
    · intro a ha
      have hnn : ∀ x ∈ (ps.mapIdx fun i a => (a.1, a.2 * g i)).map Prod.snd, 0 ≤ x := by
        intro x hx
        simp only [List.mem_map, List.mem_mapIdx] at hx
        obtain ⟨_, ⟨i, hi, rfl⟩, rfl⟩ := hx
        exact mul_nonneg (h.live.nonneg _ (List.getElem_mem hi)) (hg i)
      have hle := List.single_le_sum hnn a.2 (List.mem_map_of_mem ha)
      rw [← Cloud.totalWeight_eq, h0] at hle
      exact le_antisymm hle (hnn _ (List.mem_map_of_mem ha))

/-- The fixture meets the hypotheses of `C26_measurement`: measurement 1 with threshold 2 triggers
resampling. -/
example :=
  C26_measurement Fixture.root_isRoot (Fixture.start_reached .multinomial Fixture.policy_dynamic)
    Fixture.start_holds Fixture.start_normalised Fixture.meas_isLikelihood
    Fixture.noise_uniform.2 0 0 1

example : Fixture.observe ((Fixture.start 1 0 .multinomial).update 0 Fixture.root Fixture.noise
    ⟨none, 0, some Fixture.meas, 1, 0⟩) = .ok (true, [⟨0, some (1/4)⟩, ⟨1, some (3/4)⟩]) := by
  decide +kernel

example : Fixture.observe ((Fixture.start 0 2 .multinomial).update 0 Fixture.root Fixture.noise
    ⟨none, 0, some Fixture.meas, 1, 0⟩) = .ok (true, [⟨1, some (1/2)⟩, ⟨1, some (1/2)⟩]) := by
  decide +kernel

/-- One update with system model and measurement without sensor parameters, any history: resampling
if due, then every particle moves to a draw of the proposal, then its weight is multiplied by
likelihood times transition density over proposal density (at the moved particle, given where it
came from) and renormalised, then resampling if the effective size is below the threshold.
The measurement model must not take sensor parameters; see `C26_sensor_false`. -/
theorem C26_full_partial (hroot : IsRoot root) {f : ParticleFilter R SV K} {n : Nat}
    (hr : Reached MV dflt root period threshold .multinomial f n) {ps : List (SV × K)}
    (hh : Holds f.postGet ps) (hn : Normalised ps)
    {m : SysModel R SV K} {T : SV → SV → SV → K} (hm : IsTransition m T)
    {q : Proposal R SV K} {Q : SV → SV → SV → K} (hf : f.proposal = some q) (hq : IsProposal q m Q)
    {mm : Model SV MV K} {L : MV → SV → SV → K} (hl : IsLikelihood mm L) (hs : ¬ WithSensor mm)
    {noise : Noise R K} (hus : Uniforms noise.static) (hud : Uniforms noise.dynamic)
    (u s : SV) (z : MV) :
    ∃ ps1 ps2, (0 < n ∧ period ∣ n → Resampled (selectors root noise.static ps.length) ps ps1) ∧
      (¬ (0 < n ∧ period ∣ n) → ps1 = ps) ∧ Moved (Draws q m u noise.prop) ps1 ps2 ∧
      ∀ g : Nat → K, (∀ i (h1 : i < ps1.length) (h2 : i < ps2.length), g i =
          importance (L z ps2[i].1 s) (T ps1[i].1 u ps2[i].1) (Q ps1[i].1 u ps2[i].1)) →
        (0 < totalWeight g ps2 → ∃ f' ps3 ps4,
          f.update dflt root noise ⟨some m, u, some mm, z, s⟩ = .ok (true, f') ∧
          Reweighted g ps2 ps3 ∧ Normalised ps3 ∧
          (effectiveSize ps3 < threshold →
            Resampled (selectors root noise.dynamic ps.length) ps3 ps4) ∧
          (¬ effectiveSize ps3 < threshold → ps4 = ps3) ∧
          Holds f'.postGet ps4 ∧ Normalised ps4) ∧
        (totalWeight g ps2 = 0 → ∃ f',
          f.update dflt root noise ⟨some m, u, some mm, z, s⟩ = .ok (false, f')) := by
  have h := hr.ready hh hn
  obtain ⟨f1, ps1, ps2, h1, h2, h3, h4, h5, h6, h7⟩ :=
    sysPart_ready (dflt := dflt) (c := ⟨some m, u, some mm, z, s⟩) hroot hm hq hus rfl hf h
  refine ⟨ps1, ps2, h5, h6, h7, ?_⟩
  intro g hg
  have hl12 : ps2.length = ps1.length := h7.1
  have hl1 : ps1.length = ps.length := by
    by_cases hc : 0 < n ∧ period ∣ n
    · exact (h5 hc).1
    · rw [h6 hc]
  let g' : Nat → K := fun i => if i < ps2.length then g i else 0
  have hg' : ∀ i, 0 ≤ g' i := by
    intro i
    by_cases hi : i < ps2.length
    · simp only [g', hi, if_true]
      rw [hg i (hl12 ▸ hi) hi]
      unfold importance
      split
      · exact le_rfl
      · refine mul_nonneg (hl.nonneg _ _ _) (div_nonneg ?_ (hq.density _ _ _).1)
        obtain ⟨p, _, hp⟩ := hm
        exact (hp _ _ _).1
    · simp [g', hi]
  have htw : totalWeight g' ps2 = totalWeight g ps2 := by
    unfold totalWeight
    apply Finset.sum_congr rfl
    intro i _
    simp [g']
  obtain ⟨k1, k2⟩ := measPart_ready (dflt := dflt) (noise := noise)
    (c := ⟨some m, u, some mm, z, s⟩) hroot hud rfl h2 hg' (by
      intro i hi
      rw [h3, factor_eq hm hq hl hs]
      simp only [g', hi, if_true, h4, List.getElem_map, wrap_value]
      rw [hg i (hl12 ▸ hi) hi])
  rw [htw] at k1 k2
  constructor
  · intro hpos
    obtain ⟨f', ps3, ps4, l1, l2, l3, l4, l5, l6⟩ := k1 hpos
    refine ⟨f', ps3, ps4, ?_, ?_, l4, ?_, l6, l2.live.samples, l2.live.dist⟩
    · simp only [update, h1, Outcome.ok_bind, l1]
    · obtain ⟨e1, e2⟩ := l3
      refine ⟨e1, fun i hi => ?_⟩
      rw [e2 i hi, htw]
      simp [g', hi]
    · rw [← hl1, ← hl12]; exact l5
  · intro h0
    obtain ⟨f', l1, _⟩ := k2 h0
    exact ⟨f', by simp only [update, h1, Outcome.ok_bind, l1]⟩

/-- The fixture meets the hypotheses of `C26_full_partial`. -/
example :=
  C26_full_partial Fixture.root_isRoot (Fixture.start_reached .multinomial Fixture.policy_static)
    Fixture.start_holds Fixture.start_normalised Fixture.sys_isTransition rfl
    Fixture.prop_isProposal Fixture.meas_isLikelihood Fixture.meas_without
    Fixture.noise_uniform.1 Fixture.noise_uniform.2 0 0 2

/-- Particle 0 stays, particle 1 moves to 2; the factors are 1/4 * (1/4)/(1/2) and
3/4 * (3/4)/(1/2). -/
example : Fixture.observe ((Fixture.start 1 0 .multinomial).update 0 Fixture.root Fixture.noise
    ⟨some Fixture.sys, 0, some Fixture.meas, 2, 0⟩) =
      .ok (true, [⟨0, some (1/10)⟩, ⟨2, some (9/10)⟩]) := by
  decide +kernel

/-- With sensor parameters the transition and proposal densities are ignored: the same update
multiplies by the likelihood alone, whatever the proposal is. -/
theorem C26_sensor (hroot : IsRoot root) {f : ParticleFilter R SV K} {n : Nat}
    (hr : Reached MV dflt root period threshold .multinomial f n) {ps : List (SV × K)}
    (hh : Holds f.postGet ps) (hn : Normalised ps)
    {m : SysModel R SV K} {T : SV → SV → SV → K} (hm : IsTransition m T)
    {q : Proposal R SV K} {Q : SV → SV → SV → K} (hf : f.proposal = some q) (hq : IsProposal q m Q)
    {mm : Model SV MV K} {L : MV → SV → SV → K} (hl : IsLikelihood mm L) (hs : WithSensor mm)
    {noise : Noise R K} (hus : Uniforms noise.static) (hud : Uniforms noise.dynamic)
    (u s : SV) (z : MV) :
    ∃ ps1 ps2, (0 < n ∧ period ∣ n → Resampled (selectors root noise.static ps.length) ps ps1) ∧
      (¬ (0 < n ∧ period ∣ n) → ps1 = ps) ∧ Moved (Draws q m u noise.prop) ps1 ps2 ∧
      ∀ g : Nat → K, (∀ i (h2 : i < ps2.length), g i = L z ps2[i].1 s) →
        (0 < totalWeight g ps2 → ∃ f' ps3 ps4,
          f.update dflt root noise ⟨some m, u, some mm, z, s⟩ = .ok (true, f') ∧
          Reweighted g ps2 ps3 ∧
          (effectiveSize ps3 < threshold →
            Resampled (selectors root noise.dynamic ps.length) ps3 ps4) ∧
          (¬ effectiveSize ps3 < threshold → ps4 = ps3) ∧
          Holds f'.postGet ps4 ∧ Normalised ps4) := by
  have h := hr.ready hh hn
  obtain ⟨f1, ps1, ps2, h1, h2, h3, h4, h5, h6, h7⟩ :=
    sysPart_ready (dflt := dflt) (c := ⟨some m, u, some mm, z, s⟩) hroot hm hq hus rfl hf h
  refine ⟨ps1, ps2, h5, h6, h7, ?_⟩
  intro g hg
  have hl12 : ps2.length = ps1.length := h7.1
  have hl1 : ps1.length = ps.length := by
    by_cases hc : 0 < n ∧ period ∣ n
    · exact (h5 hc).1
    · rw [h6 hc]
  let g' : Nat → K := fun i => if i < ps2.length then g i else 0
  have hg' : ∀ i, 0 ≤ g' i := by
    intro i
    by_cases hi : i < ps2.length
    · simp only [g', hi, if_true]
      rw [hg i hi]
      exact hl.nonneg _ _ _
    · simp [g', hi]
  have htw : totalWeight g' ps2 = totalWeight g ps2 := by
    unfold totalWeight
    apply Finset.sum_congr rfl
    intro i _
    simp [g']
  obtain ⟨k1, _⟩ := measPart_ready (dflt := dflt) (noise := noise)
    (c := ⟨some m, u, some mm, z, s⟩) hroot hud rfl h2 hg' (by
      intro i hi
      rw [h3, factor_sensor hq.arg0 hl hs]
      simp only [g', hi, if_true, hg i hi])
  rw [htw] at k1
  intro hpos
  obtain ⟨f', ps3, ps4, l1, l2, l3, l4, l5, l6⟩ := k1 hpos
  refine ⟨f', ps3, ps4, ?_, ?_, ?_, l6, l2.live.samples, l2.live.dist⟩
  · simp only [update, h1, Outcome.ok_bind, l1]
  · obtain ⟨e1, e2⟩ := l3
    refine ⟨e1, fun i hi => ?_⟩
    rw [e2 i hi, htw]
    simp [g', hi]
  · rw [← hl1, ← hl12]; exact l5

example :=
  C26_sensor Fixture.root_isRoot (Fixture.start_reached .multinomial Fixture.policy_static)
    Fixture.start_holds Fixture.start_normalised Fixture.sys_isTransition rfl
    Fixture.prop_isProposal Fixture.measS_isLikelihood Fixture.measS_with
    Fixture.noise_uniform.1 Fixture.noise_uniform.2 0 0 0

/-- Hence C26 fails with sensor parameters: in the fixture (all hypotheses of `C26_full_partial`
except the one on sensor parameters hold) particle 0 stays, particle 1 moves to 2, and the new
weights are 3/4 and 1/4, where importance weighting gives 1/2 and 1/2. -/
theorem C26_sensor_false :
    ∃ (f : ParticleFilter Nat Nat ℚ) (ps : List (Nat × ℚ)) (m : SysModel Nat Nat ℚ)
      (q : Proposal Nat Nat ℚ) (mm : Model Nat Nat ℚ) (L : Nat → Nat → Nat → ℚ)
      (T Q : Nat → Nat → Nat → ℚ) (noise : Noise Nat ℚ) (f' : ParticleFilter Nat Nat ℚ)
      (ps2 ps3 : List (Nat × ℚ)),
      Reached Nat 0 Fixture.root 1 0 .multinomial f 0 ∧ Holds f.postGet ps ∧ Normalised ps ∧
      IsTransition m T ∧ f.proposal = some q ∧ IsProposal q m Q ∧ IsLikelihood mm L ∧
      WithSensor mm ∧ Moved (Draws q m 0 noise.prop) ps ps2 ∧
      f.update 0 Fixture.root noise ⟨some m, 0, some mm, 0, 0⟩ = .ok (true, f') ∧
      Holds f'.postGet ps3 ∧
      ¬ ∃ g : Nat → ℚ, (∀ i (h1 : i < ps.length) (h2 : i < ps2.length), g i =
          importance (L 0 ps2[i].1 0) (T ps[i].1 0 ps2[i].1) (Q ps[i].1 0 ps2[i].1)) ∧
        Reweighted g ps2 ps3 := by
  obtain ⟨f', h1, h2⟩ := Fixture.observe_eq (x := (Fixture.start 1 0 .multinomial).update 0
    Fixture.root Fixture.noise ⟨some Fixture.sys, 0, some Fixture.measS, 0, 0⟩) (b := true)
    (l := [⟨0, some (3/4)⟩, ⟨2, some (1/4)⟩]) (by decide +kernel)
  refine ⟨Fixture.start 1 0 .multinomial, [(0, 1/2), (1, 1/2)], Fixture.sys, Fixture.prop,
    Fixture.measS, Fixture.LS, Fixture.T, Fixture.Q, Fixture.noise, f',
    [(0, 1/2), (2, 1/2)], [(0, 3/4), (2, 1/4)],
    Fixture.start_reached .multinomial Fixture.policy_static, Fixture.start_holds,
    Fixture.start_normalised, Fixture.sys_isTransition, rfl, Fixture.prop_isProposal,
    Fixture.measS_isLikelihood, Fixture.measS_with, ⟨rfl, ?_⟩, h1, h2, ?_⟩
  · intro i hi
    match i, hi with
    | 0, _ => exact ⟨⟨0, rfl⟩, rfl⟩
    | 1, _ => exact ⟨⟨0, rfl⟩, rfl⟩
  · rintro ⟨g, hg, _, h⟩
    have g0 := hg 0 (by decide) (by decide)
    have g1 := hg 1 (by decide) (by decide)
    have e0 := h 0 (by decide)
    simp only [totalWeight, List.length_cons, List.length_nil, List.getElem_cons_zero,
      Prod.mk.injEq, Nat.reduceAdd, Fin.sum_univ_two] at e0
    simp [importance, Fixture.LS, Fixture.T, Fixture.Q] at g0 g1 e0
    rw [g0, g1] at e0
    norm_num at e0

/-! ## C27 -/

/-- Resampling (multinomial scheme) of any reachable filter with normalised weights: it succeeds,
the number of particles is unchanged, every new value is the value of a previous particle of
positive weight, all weights are `1/N`. -/
theorem C27_multinomial_partial (hroot : IsRoot root) {f : ParticleFilter R SV K} {n : Nat}
    (hr : Reached MV dflt root period threshold .multinomial f n) {ps : List (SV × K)}
    (hh : Holds f.postGet ps) (hn : Normalised ps) {us : Nat → K} (hus : Uniforms us) :
    ∃ c ps', f.cloud.resample dflt root .multinomial us = .ok (true, c) ∧ Holds c.post ps' ∧
      ps'.length = ps.length ∧
      ∀ b ∈ ps', b.2 = 1 / (ps.length : K) ∧ ∃ a ∈ ps, 0 < a.2 ∧ b.1 = a.1 := by
  obtain ⟨ps', c', h1, h2, _, h4⟩ :=
    Cloud.resample_live hroot.1 hroot.2 dflt hus (hr.live hh hn)
  refine ⟨c', ps', h1, h2.samples, h4.1, ?_⟩
  intro b hb
  obtain ⟨i, hi, rfl⟩ := List.getElem_of_mem hb
  obtain ⟨j, hj, hinv, he⟩ := h4.2 i hi
  refine ⟨by rw [he], ps[j], List.getElem_mem hj, ?_, by rw [he]⟩
  obtain ⟨hj', g1, g2⟩ := hinv
  rw [massBelow_succ hj'] at g2
  have : 0 < (ps.map Prod.snd)[j] := by linarith
  simpa using this

example :=
  C27_multinomial_partial Fixture.root_isRoot
    (Fixture.start_reached .multinomial Fixture.policy_static) Fixture.start_holds
    Fixture.start_normalised Fixture.noise_uniform.1

/-- The other schemes of the interface are accepted and do nothing: resampling reports success and
leaves the particles as they are. -/
theorem C27_schemes_false {scheme : Scheme} (hs : scheme ≠ .multinomial)
    {f : ParticleFilter R SV K} {n : Nat}
    (hr : Reached MV dflt root period threshold scheme f n) (us : Nat → K) :
    ∃ c, f.cloud.resample dflt root scheme us = .ok (true, c) ∧ c.post = f.postGet := by
  have hp := hr.params.1
  obtain ⟨ps, h1, _, _, _, _, h6, _⟩ := hp.inv
  have hun := hp.unweighted hs
  refine ⟨⟨f.cloud.post, f.cloud.old, f.cloud.new, []⟩, ?_, rfl⟩
  have hd : f.cloud.drawUnweighted root scheme us = .ok [] := by
    unfold Cloud.drawUnweighted
    cases scheme <;> simp_all
  unfold Cloud.resample
  rw [hd]
  have hne : ¬ ([] : List SV).length = f.cloud.post.samples.length := by
    rw [h1]; simp; intro h; simp [h] at h6
  simp only [Outcome.ok_bind, listUpdateU, hne, if_false, Outcome.pure_eq]

example :=
  C27_schemes_false (scheme := .systematic) (by decide)
    (Fixture.start_reached .systematic Fixture.policy_static) (fun _ => 3/4)

/-- `EKParticleFilter` resamples by copying weighted particles, and so violates C27: two particles
of weight 1/4 and 3/4, both drawn once, keep unequal weights. -/
theorem C27_ek_false : ∃ (p p' : MCPdf ℚ Nat) (us : Nat → ℚ), Assigned 0 p ∧ Uniforms us ∧
    Holds p [(7, 1/4), (8, 3/4)] ∧
    ekResample (fun _ x => x) us p [(), ()] = .ok (true, p', [(), ()]) ∧
    Holds p' [(7, 1/4), (8, 3/4)] := by
  refine ⟨⟨[⟨7, some (1/4)⟩, ⟨8, some (3/4)⟩], [0, 1/4, 1], 1⟩,
    ⟨[⟨7, some (1/4)⟩, ⟨8, some (3/4)⟩], [0, 1/4, 1], 1⟩,
    fun i => if i = 0 then 1/4 else 1, ?_, ?_, rfl, by decide +kernel, rfl⟩
  · exact ⟨MCPdf.make 5 0, .setW [⟨7, some 1⟩, ⟨8, some 3⟩], ⟨5, [], rfl⟩,
      by simp [Assigns, Admissible], by decide +kernel⟩
  · intro i
    by_cases h : i = 0 <;> simp [h] ; norm_num

/-! ## C28 -/

/-- Fixed period: on a system update after `n` earlier system updates, the particles are resampled
before they move if `n` is a positive multiple of the period, and not otherwise. -/
theorem C28_schedule (hroot : IsRoot root) {f : ParticleFilter R SV K} {n : Nat}
    (hr : Reached MV dflt root period threshold .multinomial f n) {ps : List (SV × K)}
    (hh : Holds f.postGet ps) (hn : Normalised ps)
    {m : SysModel R SV K} {T : SV → SV → SV → K} (hm : IsTransition m T)
    {q : Proposal R SV K} {Q : SV → SV → SV → K} (hf : f.proposal = some q) (hq : IsProposal q m Q)
    {noise : Noise R K} (hus : Uniforms noise.static) (u s : SV) (z : MV) :
    ∃ f' ps1 ps2, f.update dflt root noise ⟨some m, u, none, z, s⟩ = .ok (true, f') ∧
      (0 < n ∧ period ∣ n → Resampled (selectors root noise.static ps.length) ps ps1) ∧
      (¬ (0 < n ∧ period ∣ n) → ps1 = ps) ∧
      Moved (Draws q m u noise.prop) ps1 ps2 ∧ Holds f'.postGet ps2 ∧ Normalised ps2 := by
  obtain ⟨f1, ps1, ps2, h1, h2, _, _, h5, h6, h7⟩ :=
    sysPart_ready (dflt := dflt) (c := ⟨some m, u, none, z, s⟩) hroot hm hq hus rfl hf
      (hr.ready hh hn)
  refine ⟨f1, ps1, ps2, ?_, h5, h6, h7, h2.live.samples, h2.live.dist⟩
  simp only [update, h1, Outcome.ok_bind, measPart]

example :=
  C28_schedule (MV := Nat) Fixture.root_isRoot
    (Fixture.start_reached .multinomial Fixture.policy_static)
    Fixture.start_holds Fixture.start_normalised Fixture.sys_isTransition rfl
    Fixture.prop_isProposal Fixture.noise_uniform.1 0 0 0

/-- Period 1: no resampling before the first system update, but before the second, where both
copies are of particle 2. -/
example : Fixture.observe (ParticleFilter.run (MV := Nat) (ParticleFilter.update 0 Fixture.root)
      [(Fixture.noise, ⟨some Fixture.sys, 0, none, 0, 0⟩)] (Fixture.start 1 0 .multinomial)) =
        .ok (true, [⟨0, some (1/2)⟩, ⟨2, some (1/2)⟩]) ∧
    Fixture.observe (ParticleFilter.run (MV := Nat) (ParticleFilter.update 0 Fixture.root)
      [(Fixture.noise, ⟨some Fixture.sys, 0, none, 0, 0⟩),
       (Fixture.noise, ⟨some Fixture.sys, 0, none, 0, 0⟩)] (Fixture.start 1 0 .multinomial)) =
        .ok (true, [⟨2, some (1/2)⟩, ⟨3, some (1/2)⟩]) := by
  decide +kernel

/-- The effective sample size of normalised weights lies between 1 and the number of particles. -/
theorem C28_effective_size {ps : List (SV × K)} (h : Normalised ps) :
    1 ≤ effectiveSize ps ∧ effectiveSize ps ≤ ps.length := by
  have hs := Cloud.sumSq_pos h
  have hsum : ∑ i : Fin ps.length, ps[i].2 = 1 := by
    have := h.2
    rw [← this, ← List.sum_ofFn]
    congr 1
    apply List.ext_getElem <;> simp
  have hsq : ∑ i : Fin ps.length, ps[i].2 ^ 2 = (ps.map fun a => a.2 ^ 2).sum := by
    rw [← List.sum_ofFn]
    congr 1
    apply List.ext_getElem <;> simp
  unfold effectiveSize
  constructor
  · rw [le_div_iff₀ hs, one_mul, ← hsq, ← hsum]
    apply Finset.sum_le_sum
    intro i _
    have h0 : 0 ≤ ps[i].2 := h.1 _ (List.mem_map_of_mem (List.getElem_mem i.2))
    have h1 : ps[i].2 ≤ 1 := by
      rw [← hsum]
      exact Finset.single_le_sum (f := fun j : Fin ps.length => ps[j].2)
        (fun j _ => h.1 _ (List.mem_map_of_mem (List.getElem_mem j.2))) (Finset.mem_univ i)
    nlinarith
  · rw [div_le_iff₀ hs, ← hsq]
    have := sq_sum_le_card_mul_sum_sq (s := (Finset.univ : Finset (Fin ps.length)))
      (f := fun i => ps[i].2)
    rw [hsum] at this
    simpa using this

example : effectiveSize ([(0, 1/4), (1, 3/4)] : List (Nat × ℚ)) = 8/5 := by decide +kernel

/-! ## C29 -/

/-- The system pdf as a proposal. -/
theorem IsTransition.isProposal {m : SysModel R SV K} {T : SV → SV → SV → K} (hm : IsTransition m T)
    (hd : ∀ r x u prev, ∃ y, m.draw r (argsFor m x u) prev = .ok y) :
    ∃ q, m.proposal = some q ∧ q.draw = m.draw ∧ IsProposal q m T := by
  obtain ⟨p, hp, h⟩ := hm
  obtain ⟨hpdf, hor⟩ := make_one hp
  refine ⟨_, by rw [SysModel.proposal, hpdf]; rfl, rfl, ?_, ?_, ?_, hd⟩
  · rcases hor with ⟨h1, _⟩ | ⟨h1, _⟩ <;> simp [h1]
  · intro hw
    rcases hor with ⟨h1, h2⟩ | ⟨h1, _⟩
    · rw [h2] at hw; simp at hw
    · simp [h1]
  · intro x u y
    refine ⟨(h x u y).1, ?_⟩
    have := (h x u y).2
    rcases hor with ⟨h1, h2⟩ | ⟨h1, h2⟩
    · simpa [argsFor, h2, h1] using this
    · simpa [argsFor, h2, h1] using this

/-- `Update(sys, u, meas, z, s)` on the bootstrap filter, any history: resampling if due, every
particle moves to a draw of the system pdf, its weight is multiplied by the likelihood alone and
renormalised, then resampling if the effective size is below the threshold. The result is `true`,
or `false` exactly when all products are zero. -/
theorem C29_update (hroot : IsRoot root) {f : ParticleFilter R SV K} {n : Nat}
    (hr : Reached MV dflt root period threshold .multinomial f n) {ps : List (SV × K)}
    (hh : Holds f.postGet ps) (hn : Normalised ps)
    {m : SysModel R SV K} {T : SV → SV → SV → K} (hm : IsTransition m T)
    (hd : ∀ r x u prev, ∃ y, m.draw r (argsFor m x u) prev = .ok y)
    {mm : Model SV MV K} {L : MV → SV → SV → K} (hl : IsLikelihood mm L)
    {noise : Noise R K} (hus : Uniforms noise.static) (hud : Uniforms noise.dynamic)
    (u s : SV) (z : MV) :
    ∃ ps1 ps2, (0 < n ∧ period ∣ n → Resampled (selectors root noise.static ps.length) ps ps1) ∧
      (¬ (0 < n ∧ period ∣ n) → ps1 = ps) ∧
      Moved (fun i x y => ∃ prev, m.draw (noise.prop i) (argsFor m x u) prev = .ok y) ps1 ps2 ∧
      ∀ g : Nat → K, (∀ i (h2 : i < ps2.length), g i = L z ps2[i].1 s) →
        (0 < totalWeight g ps2 → ∃ f' ps3 ps4,
          f.bootUpdate dflt root noise ⟨some m, u, some mm, z, s⟩ = .ok (true, f') ∧
          Reweighted g ps2 ps3 ∧
          (effectiveSize ps3 < threshold →
            Resampled (selectors root noise.dynamic ps.length) ps3 ps4) ∧
          (¬ effectiveSize ps3 < threshold → ps4 = ps3) ∧
          Holds f'.postGet ps4 ∧ Normalised ps4) ∧
        (totalWeight g ps2 = 0 → ∃ f',
          f.bootUpdate dflt root noise ⟨some m, u, some mm, z, s⟩ = .ok (false, f')) := by
  obtain ⟨q, hq1, hq2, hq3⟩ := hm.isProposal hd
  have h := (Reached.proposalSet (some q) hr).ready (ps := ps) hh hn
  obtain ⟨f1, ps1, ps2, h1, h2, h3, h4, h5, h6, h7⟩ :=
    sysPart_ready (dflt := dflt) (c := ⟨some m, u, none, z, s⟩) hroot hm hq3 hus rfl rfl h
  have h7' : Moved (fun i x y => ∃ prev, m.draw (noise.prop i) (argsFor m x u) prev = .ok y)
      ps1 ps2 := by
    unfold Draws at h7
    simpa only [hq2] using h7
  refine ⟨ps1, ps2, h5, h6, h7', ?_⟩
  intro g hg
  have hl12 : ps2.length = ps1.length := h7.1
  have hl1 : ps1.length = ps.length := by
    by_cases hc : 0 < n ∧ period ∣ n
    · exact (h5 hc).1
    · rw [h6 hc]
  let g' : Nat → K := fun i => if i < ps2.length then g i else 0
  have hg' : ∀ i, 0 ≤ g' i := by
    intro i
    by_cases hi : i < ps2.length
    · simp only [g', hi, if_true]
      rw [hg i hi]
      exact hl.nonneg _ _ _
    · simp [g', hi]
  have htw : totalWeight g' ps2 = totalWeight g ps2 := by
    unfold totalWeight
    apply Finset.sum_congr rfl
    intro i _
    simp [g']
  obtain ⟨k1, k2⟩ := measPart_ready (dflt := dflt) (noise := noise)
    (c := ⟨none, u, some mm, z, s⟩) hroot hud rfl h2 hg' (by
      intro i hi
      simp only [Cloud.factor, hl.likelihood, g', hi, if_true, hg i hi])
  rw [htw] at k1 k2
  have hsys : f.bootSys dflt root noise ⟨some m, u, some mm, z, s⟩ = .ok (true, f1) := by
    simp only [bootSys, update, hq1, h1, Outcome.ok_bind, measPart]
  constructor
  · intro hpos
    obtain ⟨f', ps3, ps4, l1, l2, l3, l4, l5, l6⟩ := k1 hpos
    refine ⟨f', ps3, ps4, ?_, ?_, ?_, l6, l2.live.samples, l2.live.dist⟩
    · simp only [bootUpdate, hsys, Outcome.ok_bind, bootMeas, update, sysPart, l1,
        Outcome.pure_eq, Bool.and_self]
    · obtain ⟨e1, e2⟩ := l3
      refine ⟨e1, fun i hi => ?_⟩
      rw [e2 i hi, htw]
      simp [g', hi]
    · rw [← hl1, ← hl12]; exact l5
  · intro h0
    obtain ⟨f', l1, _⟩ := k2 h0
    refine ⟨f', ?_⟩
    simp only [bootUpdate, hsys, Outcome.ok_bind, bootMeas, update, sysPart, l1,
      Outcome.pure_eq, Bool.and_true]

example :=
  C29_update Fixture.root_isRoot (Fixture.start_reached .multinomial Fixture.policy_static)
    Fixture.start_holds Fixture.start_normalised Fixture.sys_isTransition
    (fun r x u prev => ⟨x + r % 2, rfl⟩) Fixture.meas_isLikelihood
    Fixture.noise_uniform.1 Fixture.noise_uniform.2 0 0 2

example : Fixture.observe ((Fixture.start 1 0 .multinomial).bootUpdate 0 Fixture.root Fixture.noise
    ⟨some Fixture.sys, 0, some Fixture.meas, 2, 0⟩) =
      .ok (true, [⟨0, some (1/4)⟩, ⟨2, some (3/4)⟩]) := by
  decide +kernel

/-- The bootstrap filter does exactly what a particle filter does whose proposal is the system
pdf, provided the system pdf gives positive density to whatever it draws (or the measurement model
takes sensor parameters). -/
theorem C29_equals_pf (hroot : IsRoot root) {f : ParticleFilter R SV K} {n : Nat}
    (hr : Reached MV dflt root period threshold .multinomial f n) {ps : List (SV × K)}
    (hh : Holds f.postGet ps) (hn : Normalised ps)
    {m : SysModel R SV K} {T : SV → SV → SV → K} (hm : IsTransition m T)
    (hd : ∀ r x u prev, ∃ y, m.draw r (argsFor m x u) prev = .ok y)
    {mm : Model SV MV K} {L : MV → SV → SV → K} (hl : IsLikelihood mm L)
    (hpos : WithSensor mm ∨ ∀ r x u prev y, m.draw r (argsFor m x u) prev = .ok y → T x u y ≠ 0)
    {noise : Noise R K} (hus : Uniforms noise.static) (u s : SV) (z : MV) :
    f.bootUpdate dflt root noise ⟨some m, u, some mm, z, s⟩ =
      ParticleFilter.update dflt root noise ⟨some m, u, some mm, z, s⟩
        { f with proposal := m.proposal } := by
  obtain ⟨q, hq1, hq2, hq3⟩ := hm.isProposal hd
  have h := (Reached.proposalSet (some q) hr).ready (ps := ps) hh hn
  obtain ⟨f1, ps1, ps2, h1, h2, h3, h4, h5, h6, h7⟩ :=
    sysPart_ready (dflt := dflt) (c := ⟨some m, u, none, z, s⟩) hroot hm hq3 hus rfl rfl h
  have h1' : sysPart dflt root noise ⟨some m, u, some mm, z, s⟩
      (true, { f with proposal := some q }) = .ok (true, f1) := h1
  have hsys : f.bootSys dflt root noise ⟨some m, u, some mm, z, s⟩ = .ok (true, f1) := by
    simp only [bootSys, update, hq1, h1, Outcome.ok_bind, measPart]
  have hw : f1.cloud.reweight (Cloud.factor f1.proposal none u mm z s) =
      f1.cloud.reweight (Cloud.factor f1.proposal (some m) u mm z s) := by
    unfold Cloud.reweight
    rw [Cloud.weightLoop_congr (f' := Cloud.factor f1.proposal (some m) u mm z s)]
    rw [show f1.cloud.post.listGet = ps2.map wrap from h2.live.samples, h4, h3]
    intro i ho hi
    simp only [List.length_map] at ho hi
    simp only [List.getElem_map, wrap_value]
    have hlik : Cloud.factor (some q) none u mm z s ps1[i].1 ps2[i].1 = .ok (L z ps2[i].1 s) := by
      simp only [Cloud.factor, hl.likelihood]
    rw [hlik]
    by_cases hs : WithSensor mm
    · rw [factor_sensor hq3.arg0 hl hs]
    · rw [factor_eq hm hq3 hl hs]
      obtain ⟨_, h7⟩ := h7
      obtain ⟨⟨prev, hdr⟩, _⟩ := h7 i ho
      rw [hq2] at hdr
      have hne := (hpos.resolve_left hs) _ _ _ _ _ hdr
      simp [importance, hne]
  have hws : f1.weightStep ⟨none, u, some mm, z, s⟩ mm =
      f1.weightStep ⟨some m, u, some mm, z, s⟩ mm := by
    simp only [weightStep, hw]
  simp only [bootUpdate, hsys, Outcome.ok_bind, bootMeas, update, sysPart]
  rw [hq1]
  simp only [sysPart] at h1'
  rw [h1', Outcome.ok_bind]
  simp only [measPart, andStep, if_true, hws]
  rcases f1.weightStep ⟨some m, u, some mm, z, s⟩ mm with ⟨b, f2⟩ | _ | _
  · cases b
    · simp
    · simp only [Outcome.ok_bind, if_true]
      rcases f2.dynamicStep dflt root noise.dynamic with ⟨b, f3⟩ | _ | _ <;> simp
  · rfl
  · rfl

example :=
  C29_equals_pf Fixture.root_isRoot (Fixture.start_reached .multinomial Fixture.policy_static)
    Fixture.start_holds Fixture.start_normalised Fixture.sys_isTransition
    (fun r x u prev => ⟨x + r % 2, rfl⟩) Fixture.meas_isLikelihood
    (.inr (by
      intro r x u prev y h
      have hy : x + r % 2 = y := by simpa [Fixture.sys, Fixture.draw, argsFor] using h
      subst hy
      rcases Nat.mod_two_eq_zero_or_one r with hr | hr <;> simp [Fixture.T, hr]))
    Fixture.noise_uniform.1 0 0 2

/-- The result of a bootstrap update is `true` exactly when both halves, run one after the other on
their own, return `true`. -/
theorem C29_flag {f f1 f2 : ParticleFilter R SV K} {noise : Noise R K} {m : SysModel R SV K}
    {mm : Model SV MV K} {u s : SV} {z : MV} {b1 b2 : Bool}
    (h1 : f.bootUpdate dflt root noise ⟨some m, u, none, z, s⟩ = .ok (b1, f1))
    (h2 : f1.bootUpdate dflt root noise ⟨none, u, some mm, z, s⟩ = .ok (b2, f2)) :
    ∃ b, f.bootUpdate dflt root noise ⟨some m, u, some mm, z, s⟩ = .ok (b, f2) ∧
      (b = true ↔ b1 = true ∧ b2 = true) := by
  simp only [bootUpdate, bootMeas, Outcome.bind_eq_ok, Outcome.ok.injEq, Prod.exists] at h1
  obtain ⟨b, f', h3, h4⟩ := h1
  simp only [Prod.mk.injEq] at h4
  obtain ⟨rfl, rfl⟩ := h4
  have h3' : f.bootSys dflt root noise ⟨some m, u, some mm, z, s⟩ = .ok (b, f') := h3
  simp only [bootUpdate, bootSys, Outcome.ok_bind, bootMeas, Outcome.bind_eq_ok,
    Outcome.pure_eq, Outcome.ok.injEq, Prod.mk.injEq, Prod.exists, Bool.and_true] at h2
  obtain ⟨b', f'', h5, rfl, rfl⟩ := h2
  refine ⟨b' && b, ?_, by cases b <;> cases b' <;> simp⟩
  simp only [bootUpdate, h3', Outcome.ok_bind, bootMeas, h5, Outcome.pure_eq]

/-! ## C31 -/

/-- The time step counts the updates with a system model, whatever history of updates and results.
Partial: this is the particle filter and bootstrap filter only. -/
theorem C31_particle_partial {scheme : Scheme} {f : ParticleFilter R SV K} {n : Nat}
    (hr : Reached MV dflt root period threshold scheme f n) : f.timestep = n :=
  hr.params.2

end BFL.Props
