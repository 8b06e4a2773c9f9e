import Verif.Lemmas.ParticleRun

/-!
# Updates of the particle filters with resampling
-/

set_option linter.unusedSectionVars false

namespace BFL.Props

open Spec MCPdf ParticleFilter

variable {R X MV : Type} {dflt : X} {root : Nat → ℝ → ℝ} {period : Nat} {threshold : ℝ}

/-- A resampling step that is due if `on`. -/
def ResampledIf (on : Prop) (v : Nat → ℝ) (ps ps' : List (X × ℝ)) : Prop :=
  (on → Resampled v ps ps') ∧ (¬ on → ps' = ps)

theorem ResampledIf.length {on : Prop} {v : Nat → ℝ} {ps ps' : List (X × ℝ)}
    (h : ResampledIf on v ps ps') : ps'.length = ps.length := by
  by_cases ho : on
  · exact (h.1 ho).1
  · rw [h.2 ho]

/-- The update `step` with arguments `c`: resampling if due, move and weights, and resampling if
due. -/
def StepRuns (root : Nat → ℝ → ℝ) (step : Noise R ℝ → UpdateCall R X MV ℝ → ParticleFilter R X ℝ →
      Outcome (Bool × ParticleFilter R X ℝ)) (period : Nat) (threshold : ℝ)
    (good : ParticleFilter R X ℝ → Prop) (c : UpdateCall R X MV ℝ) (mv : R → X → X)
    (G : X → X → ℝ) : Prop :=
  ∀ {f : ParticleFilter R X ℝ} {n : Nat} {ps : List (X × ℝ)} {noise : Noise R ℝ},
    Ready period threshold n f ps → good f → Uniforms noise.static → Uniforms noise.dynamic →
    ∃ ps1, ResampledIf (c.sys.isSome = true ∧ 0 < n ∧ period ∣ n)
        (selectors root noise.static ps.length) ps ps1 ∧
      (0 < advanceTotal mv G noise.prop ps1 → ∃ f' ps2, step noise c f = .ok (true, f') ∧ good f' ∧
        Ready period threshold (n + if c.sys.isSome = true then 1 else 0) f' ps2 ∧
        ResampledIf (c.meas.isSome = true ∧
            effectiveSize (advance mv G noise.prop ps1) < threshold)
          (selectors root noise.dynamic ps.length) (advance mv G noise.prop ps1) ps2)

theorem sys_resampled (hroot : IsRoot root) {q : Proposal R X ℝ} {m : SysModel R X ℝ}
    {Q T : X → X → X → ℝ} (hm : IsTransition m T) (hq : IsProposal q m Q) {noise : Noise R ℝ}
    (hus : Uniforms noise.static) {c : UpdateCall R X MV ℝ} (hc : c.sys = some m) {mv : R → X → X}
    (hd : ∀ r x prev, q.draw r (argsFor m x c.u) prev = .ok (mv r x)) {n : Nat}
    {f : ParticleFilter R X ℝ} (hf : f.proposal = some q) {ps : List (X × ℝ)}
    (h : Ready period threshold n f ps) :
    ∃ f' ps1, sysPart dflt root noise c (true, f) = .ok (true, f') ∧
      ResampledIf (0 < n ∧ period ∣ n) (selectors root noise.static ps.length) ps ps1 ∧
      Ready period threshold (n + 1) f' (moved mv noise.prop ps1) ∧ f'.proposal = some q ∧
      f'.cloud.old = ps1.map wrap := by
  obtain ⟨f', ps1, ps2, h1, h2, h3, h4, h5, h6, h7⟩ :=
    sysPart_ready (dflt := dflt) hroot hm hq hus hc hf h
  have e : ps2 = moved mv noise.prop ps1 := by
    obtain ⟨hl, h7⟩ := h7
    apply List.ext_getElem
    · simp [moved, hl]
    · intro i i1 i2
      have i3 : i < ps1.length := hl ▸ i1
      obtain ⟨⟨prev, k1⟩, k2⟩ := h7 i i3
      rw [hd, Outcome.ok.injEq] at k1
      simp only [moved, List.getElem_mapIdx]
      rw [k1, ← k2]
  rw [e] at h2
  exact ⟨f', ps1, h1, ⟨h5, h6⟩, h2, h3, h4⟩

theorem meas_resampled (hroot : IsRoot root) {noise : Noise R ℝ} (hus : Uniforms noise.dynamic)
    {c : UpdateCall R X MV ℝ} {mm : Model X MV ℝ} (hc : c.meas = some mm) {n : Nat}
    {f : ParticleFilter R X ℝ} {ps : List (X × ℝ)} (h : Ready period threshold n f ps)
    {g : Nat → ℝ} (hg : ∀ i < ps.length, 0 ≤ g i)
    (hf : ∀ i (hi : i < ps.length), Cloud.factor f.proposal c.sys c.u mm c.z c.s
      (f.cloud.old[i]'(h.live.old ▸ hi)).value ps[i].1 = .ok (g i))
    (hpos : 0 < (ps.mapIdx fun i a => a.2 * g i).sum) :
    ∃ f' ps2, measPart dflt root noise c (true, f) = .ok (true, f') ∧
      Ready period threshold n f' ps2 ∧ f'.proposal = f.proposal ∧
      ResampledIf (effectiveSize (ps.mapIdx fun i a =>
          (a.1, a.2 * g i / (ps.mapIdx fun i a => a.2 * g i).sum)) < threshold)
        (selectors root noise.dynamic ps.length)
        (ps.mapIdx fun i a => (a.1, a.2 * g i / (ps.mapIdx fun i a => a.2 * g i).sum)) ps2 := by
  let g' : Nat → ℝ := fun i => if i < ps.length then g i else 0
  have hg' : ∀ i, 0 ≤ g' i := by
    intro i
    simp only [g']
    split
    · exact hg i ‹_›
    · exact le_rfl
  have htot : totalWeight g' ps = (ps.mapIdx fun i a => a.2 * g i).sum := by
    unfold totalWeight
    rw [← List.sum_ofFn]
    congr 1
    apply List.ext_getElem
    · simp
    · intro i i1 i2
      simp only [List.length_mapIdx] at i2
      simp [g']
  obtain ⟨h1, _⟩ := measPart_ready (dflt := dflt) (noise := noise) hroot hus hc h hg' (by
    intro i hi
    rw [hf i hi]
    simp [g', hi])
  rw [htot] at h1
  obtain ⟨f', ps1, ps2, k1, k2, k3, k4, k5, k6⟩ := h1 hpos
  have e : ps1 = ps.mapIdx fun i a =>
      (a.1, a.2 * g i / (ps.mapIdx fun i a => a.2 * g i).sum) := by
    obtain ⟨hl, k3⟩ := k3
    apply List.ext_getElem
    · simp [hl]
    · intro i i1 i2
      have i3 : i < ps.length := hl ▸ i1
      rw [k3 i i3, htot]
      simp [g', i3]
  rw [← e]
  exact ⟨f', ps2, k1, k2, measPart_proposal h.par k1, k5, k6⟩

theorem ResampledIf.off {on : Prop} {v : Nat → ℝ} {ps : List (X × ℝ)} (h : ¬ on) :
    ResampledIf on v ps ps :=
  ⟨fun ho => absurd ho h, fun _ => rfl⟩

theorem ResampledIf.congr {on on' : Prop} {v : Nat → ℝ} {ps ps' : List (X × ℝ)}
    (h : ResampledIf on v ps ps') (he : on' ↔ on) : ResampledIf on' v ps ps' :=
  ⟨fun ho => h.1 (he.1 ho), fun ho => h.2 fun h' => ho (he.2 h')⟩

theorem length_advance (mv : R → X → X) (G : X → X → ℝ) (ρ : Nat → R) (ps : List (X × ℝ)) :
    (advance mv G ρ ps).length = ps.length := by
  simp [advance]

/-- A measurement-only update of either filter. -/
theorem meas_runs (hroot : IsRoot root) {mm : Model X MV ℝ}
    {L : MV → X → X → ℝ} (hl : IsLikelihood mm L) (u s : X) (z : MV) {f : ParticleFilter R X ℝ}
    {n : Nat} {ps : List (X × ℝ)} {noise : Noise R ℝ} (h : Ready period threshold n f ps)
    (hud : Uniforms noise.dynamic)
    (hpos : 0 < advanceTotal (fun _ a => a) (fun _ y => L z y s) noise.prop ps) :
    ∃ f' ps2, f.update dflt root noise ⟨none, u, some mm, z, s⟩ = .ok (true, f') ∧
      Ready period threshold n f' ps2 ∧ f'.proposal = f.proposal ∧
      ResampledIf (effectiveSize (advance (fun _ a => a) (fun _ y => L z y s) noise.prop ps) <
          threshold) (selectors root noise.dynamic ps.length)
        (advance (fun _ a => a) (fun _ y => L z y s) noise.prop ps) ps2 := by
  let g : Nat → ℝ := fun i => if h : i < ps.length then L z ps[i].1 s else 0
  have hgi : ∀ i (hi : i < ps.length), g i = L z ps[i].1 s := fun i hi => by simp [g, hi]
  obtain ⟨e1, e2⟩ := advance_eq (fun (_ : R) (a : X) => a) (fun _ y => L z y s) noise.prop ps hgi
  rw [moved_id] at e1 e2
  obtain ⟨f', ps2, k1, k2, k3, k4⟩ := meas_resampled (dflt := dflt) (noise := noise)
    (c := ⟨none, u, some mm, z, s⟩) hroot hud rfl h (g := g)
    (fun i hi => by rw [hgi i hi]; exact hl.nonneg _ _ _)
    (by intro i hi; rw [hgi i hi]; simp only [Cloud.factor, hl.likelihood])
    (by rw [e1]; exact hpos)
  rw [e2] at k4
  exact ⟨f', ps2, k1, k2, k3, k4⟩

theorem runs_measurement (hroot : IsRoot root) {mm : Model X MV ℝ}
    {L : MV → X → X → ℝ} (hl : IsLikelihood mm L) (u s : X) (z : MV) (q : Proposal R X ℝ) :
    StepRuns root (fun noise c f => ParticleFilter.update dflt root noise c f) period threshold
      (fun f => f.proposal = some q) ⟨none, u, some mm, z, s⟩ (fun _ a => a)
      (fun _ y => L z y s) := by
  intro f n ps noise h hq _ hud
  refine ⟨ps, .off (by simp), fun hpos => ?_⟩
  obtain ⟨f', ps2, k1, k2, k3, k4⟩ := meas_runs (dflt := dflt) hroot hl u s z h hud hpos
  exact ⟨f', ps2, k1, k3.trans hq, k2, k4.congr (by simp)⟩

theorem runs_full (hroot : IsRoot root) {m : SysModel R X ℝ}
    {T Q : X → X → X → ℝ} {q : Proposal R X ℝ} (hm : IsTransition m T) (hq : IsProposal q m Q)
    {mm : Model X MV ℝ} {L : MV → X → X → ℝ} (hl : IsLikelihood mm L) (hs : ¬ WithSensor mm)
    {u : X} {mv : R → X → X} (hd : ∀ r x prev, q.draw r (argsFor m x u) prev = .ok (mv r x))
    (s : X) (z : MV) :
    StepRuns root (fun noise c f => ParticleFilter.update dflt root noise c f) period threshold
      (fun f => f.proposal = some q) ⟨some m, u, some mm, z, s⟩ mv
      (fun x y => importance (L z y s) (T x u y) (Q x u y)) := by
  intro f n ps noise h hp hus hud
  obtain ⟨f1, ps1, h1, h1', h2, h3, h4⟩ := sys_resampled (dflt := dflt)
    (c := ⟨some m, u, some mm, z, s⟩) hroot hm hq hus rfl hd hp h
  refine ⟨ps1, h1'.congr (by simp), fun hpos => ?_⟩
  let G : X → X → ℝ := fun x y => importance (L z y s) (T x u y) (Q x u y)
  let g : Nat → ℝ := fun i =>
    if h : i < ps1.length then G ps1[i].1 (mv (noise.prop i) ps1[i].1) else 0
  have hgi : ∀ i (hi : i < ps1.length), g i = G ps1[i].1 (mv (noise.prop i) ps1[i].1) :=
    fun i hi => by simp [g, hi]
  obtain ⟨e1, e2⟩ := advance_eq mv G noise.prop ps1 hgi
  have hlen : (moved mv noise.prop ps1).length = ps1.length := by simp [moved]
  obtain ⟨f', ps2, k1, k2, k3, k4⟩ := meas_resampled (dflt := dflt) (noise := noise)
    (c := ⟨some m, u, some mm, z, s⟩) hroot hud rfl h2 (g := g)
    (fun i hi => by
      rw [hgi i (hlen ▸ hi)]
      simp only [G]
      unfold importance
      split
      · exact le_rfl
      · refine mul_nonneg (hl.nonneg _ _ _) (div_nonneg ?_ (hq.density _ _ _).1)
        obtain ⟨p, _, hp⟩ := hm
        exact (hp _ _ _).1)
    (by
      intro i hi
      rw [h3, factor_eq hm hq hl hs, hgi i (hlen ▸ hi)]
      simp only [h4, List.getElem_map, wrap_value, moved, List.getElem_mapIdx, G])
    (by rw [e1]; exact hpos)
  rw [e2, hlen, h1'.length] at k4
  refine ⟨f', ps2, ?_, k3.trans h3, k2, k4.congr (by simp [G])⟩
  simp only [update, h1, Outcome.ok_bind, k1]

theorem runs_system (hroot : IsRoot root) {m : SysModel R X ℝ}
    {T Q : X → X → X → ℝ} {q : Proposal R X ℝ} (hm : IsTransition m T) (hq : IsProposal q m Q)
    {u : X} {mv : R → X → X} (hd : ∀ r x prev, q.draw r (argsFor m x u) prev = .ok (mv r x))
    (s : X) (z : MV) :
    StepRuns root (fun noise c f => ParticleFilter.update dflt root noise c f) period threshold
      (fun f => f.proposal = some q) ⟨some m, u, none, z, s⟩ mv (fun _ _ => 1) := by
  intro f n ps noise h hp hus hud
  obtain ⟨f1, ps1, h1, h1', h2, h3, h4⟩ := sys_resampled (dflt := dflt)
    (c := ⟨some m, u, (none : Option (Model X MV ℝ)), z, s⟩) hroot hm hq hus rfl hd hp h
  refine ⟨ps1, h1'.congr (by simp), fun hpos => ?_⟩
  have hn1 : Normalised ps1 := by
    have := h2.live.dist
    refine (congrArg IsDistribution ?_).mp this
    apply List.ext_getElem <;> simp [moved]
  rw [advance_one hn1]
  refine ⟨f1, _, ?_, h3, h2, .off (by simp)⟩
  simp only [update, h1, Outcome.ok_bind, measPart]

theorem boot_resampled (hroot : IsRoot root) {m : SysModel R X ℝ} {T : X → X → X → ℝ}
    (hm : IsTransition m T) {u : X} {mv : R → X → X}
    (hd : ∀ r x u prev, ∃ y, m.draw r (argsFor m x u) prev = .ok y)
    (hd' : ∀ r x prev, m.draw r (argsFor m x u) prev = .ok (mv r x)) (s : X) (z : MV)
    (mm : Option (Model X MV ℝ)) {f : ParticleFilter R X ℝ} {n : Nat} {ps : List (X × ℝ)}
    {noise : Noise R ℝ} (h : Ready period threshold n f ps) (hus : Uniforms noise.static) :
    ∃ f' ps1, f.bootSys dflt root noise ⟨some m, u, mm, z, s⟩ = .ok (true, f') ∧
      ResampledIf (0 < n ∧ period ∣ n) (selectors root noise.static ps.length) ps ps1 ∧
      Ready period threshold (n + 1) f' (moved mv noise.prop ps1) := by
  obtain ⟨q, hq1, hq2, hq3⟩ := hm.isProposal hd
  have h' : Ready period threshold n { f with proposal := some q } ps :=
    ⟨⟨h.par.inv, h.par.hperiod, h.par.hthreshold, h.par.hscheme, h.par.dynamic, h.par.policy,
      h.par.unweighted⟩, h.step, h.live⟩
  obtain ⟨f1, ps1, h1, h1', h2, h3, h4⟩ := sys_resampled (dflt := dflt)
    (c := ⟨some m, u, (none : Option (Model X MV ℝ)), z, s⟩) hroot hm hq3 hus rfl
    (by rw [hq2]; exact hd') rfl h'
  refine ⟨f1, ps1, ?_, h1', h2⟩
  simp only [bootSys, update, hq1, h1, Outcome.ok_bind, measPart]

theorem runs_boot_system (hroot : IsRoot root) {m : SysModel R X ℝ} {T : X → X → X → ℝ}
    (hm : IsTransition m T) {u : X} {mv : R → X → X}
    (hd : ∀ r x u prev, ∃ y, m.draw r (argsFor m x u) prev = .ok y)
    (hd' : ∀ r x prev, m.draw r (argsFor m x u) prev = .ok (mv r x)) (s : X) (z : MV) :
    StepRuns root (fun noise c f => ParticleFilter.bootUpdate dflt root noise c f) period threshold
      (fun _ => True) ⟨some m, u, none, z, s⟩ mv (fun _ _ => 1) := by
  intro f n ps noise h _ hus hud
  obtain ⟨f1, ps1, h1, h1', h2⟩ := boot_resampled (dflt := dflt) hroot hm hd hd' s z none h hus
  refine ⟨ps1, h1'.congr (by simp), fun hpos => ?_⟩
  have hn1 : Normalised ps1 := by
    have := h2.live.dist
    refine (congrArg IsDistribution ?_).mp this
    apply List.ext_getElem <;> simp [moved]
  rw [advance_one hn1]
  refine ⟨f1, _, ?_, trivial, h2, .off (by simp)⟩
  simp only [bootUpdate, h1, Outcome.ok_bind, bootMeas]

theorem runs_boot_measurement (hroot : IsRoot root) {mm : Model X MV ℝ}
    {L : MV → X → X → ℝ} (hl : IsLikelihood mm L) (u s : X) (z : MV) :
    StepRuns (R := R) root (fun noise c f => ParticleFilter.bootUpdate dflt root noise c f) period
      threshold (fun _ => True) ⟨none, u, some mm, z, s⟩ (fun _ a => a) (fun _ y => L z y s) := by
  intro f n ps noise h _ _ hud
  refine ⟨ps, .off (by simp), fun hpos => ?_⟩
  obtain ⟨f', ps2, k1, k2, _, k4⟩ := meas_runs (dflt := dflt) hroot hl u s z h hud hpos
  refine ⟨f', ps2, ?_, trivial, k2, k4.congr (by simp)⟩
  simp only [bootUpdate, bootSys, Outcome.ok_bind, bootMeas, k1, Outcome.pure_eq, Bool.and_self]

theorem runs_boot_full (hroot : IsRoot root) {m : SysModel R X ℝ}
    {T : X → X → X → ℝ} (hm : IsTransition m T) {u : X} {mv : R → X → X}
    (hd : ∀ r x u prev, ∃ y, m.draw r (argsFor m x u) prev = .ok y)
    (hd' : ∀ r x prev, m.draw r (argsFor m x u) prev = .ok (mv r x))
    {mm : Model X MV ℝ} {L : MV → X → X → ℝ} (hl : IsLikelihood mm L) (s : X) (z : MV) :
    StepRuns root (fun noise c f => ParticleFilter.bootUpdate dflt root noise c f) period threshold
      (fun _ => True) ⟨some m, u, some mm, z, s⟩ mv (fun _ y => L z y s) := by
  intro f n ps noise h _ hus hud
  obtain ⟨f1, ps1, h1, h1', h2⟩ := boot_resampled (dflt := dflt) hroot hm hd hd' s z (some mm) h hus
  refine ⟨ps1, h1'.congr (by simp), fun hpos => ?_⟩
  have e : advanceTotal (fun _ a => a) (fun _ y => L z y s) noise.prop (moved mv noise.prop ps1) =
      advanceTotal mv (fun _ y => L z y s) noise.prop ps1 := by
    unfold advanceTotal moved
    congr 1
    apply List.ext_getElem <;> simp
  have e2 : advance (fun _ a => a) (fun _ y => L z y s) noise.prop (moved mv noise.prop ps1) =
      advance mv (fun _ y => L z y s) noise.prop ps1 := by
    unfold advance
    rw [e]
    unfold moved
    apply List.ext_getElem <;> simp
  have hlen : (moved mv noise.prop ps1).length = ps1.length := by simp [moved]
  obtain ⟨f', ps2, k1, k2, _, k4⟩ := meas_runs (dflt := dflt) hroot hl u s z h2 hud
    (by rw [e]; exact hpos)
  rw [e2, hlen, h1'.length] at k4
  refine ⟨f', ps2, ?_, trivial, k2, k4.congr (by simp)⟩
  simp only [bootUpdate, h1, Outcome.ok_bind, bootMeas, k1, Outcome.pure_eq, Bool.and_self]

end BFL.Props
