import Verif.Lemmas.ParticleConvergence
import Verif.Props.ParticleFilter
import Verif.Props.ParticleStart
import Verif.Spec.Sampling

/-!
# Runs of the particle filters without resampling
-/

set_option linter.unusedSectionVars false

namespace BFL.Props

open Spec MCPdf ParticleFilter

variable {R X MV : Type} {dflt : X} {root : Nat → ℝ → ℝ} {period : Nat} {threshold : ℝ}

/-- Total weight after every particle moved and was weighted. -/
def advanceTotal (mv : R → X → X) (G : X → X → ℝ) (ρ : Nat → R) (ps : List (X × ℝ)) : ℝ :=
  (ps.mapIdx fun i a => a.2 * G a.1 (mv (ρ i) a.1)).sum

/-- The particles moved and weighted. -/
noncomputable def advance (mv : R → X → X) (G : X → X → ℝ) (ρ : Nat → R) (ps : List (X × ℝ)) : List (X × ℝ) :=
  ps.mapIdx fun i a => (mv (ρ i) a.1, a.2 * G a.1 (mv (ρ i) a.1) / advanceTotal mv G ρ ps)

theorem measPart_proposal {noise : Noise R ℝ} {c : UpdateCall R X MV ℝ} {b b' : Bool}
    {f f' : ParticleFilter R X ℝ} {scheme : Scheme} (hp : Params period threshold scheme f)
    (h : measPart dflt root noise c (b, f) = .ok (b', f')) : f'.proposal = f.proposal := by
  unfold measPart at h
  split at h
  · simp only [Outcome.ok.injEq, Prod.mk.injEq] at h
    rw [h.2]
  · simp only [Outcome.bind_eq_ok, Prod.exists] at h
    obtain ⟨b1, f1, h1, h2⟩ := h
    have e1 : Params period threshold scheme f1 ∧ f1.proposal = f.proposal := by
      unfold andStep at h1
      split at h1
      · obtain ⟨g1, _, g3⟩ := weightStep_params hp h1
        exact ⟨g1, g3⟩
      · simp only [Outcome.ok.injEq, Prod.mk.injEq] at h1
        rw [← h1.2]; exact ⟨hp, rfl⟩
    unfold andStep at h2
    split at h2
    · obtain ⟨_, _, g3⟩ := dynamicStep_params e1.1 h2
      rw [g3, e1.2]
    · simp only [Outcome.ok.injEq, Prod.mk.injEq] at h2
      rw [← h2.2, e1.2]

/-- The particles moved, weights kept. -/
def moved (mv : R → X → X) (ρ : Nat → R) (ps : List (X × ℝ)) : List (X × ℝ) :=
  ps.mapIdx fun i a => (mv (ρ i) a.1, a.2)

theorem moved_id (ρ : Nat → R) (ps : List (X × ℝ)) : moved (fun _ a => a) ρ ps = ps := by
  apply List.ext_getElem <;> simp [moved]

theorem sys_moved (hroot : IsRoot root) {q : Proposal R X ℝ} {m : SysModel R X ℝ}
    {Q T : X → X → X → ℝ} (hm : IsTransition m T) (hq : IsProposal q m Q) {noise : Noise R ℝ}
    (hus : Uniforms noise.static) {c : UpdateCall R X MV ℝ} (hc : c.sys = some m) {mv : R → X → X}
    (hd : ∀ r x prev, q.draw r (argsFor m x c.u) prev = .ok (mv r x)) {n : Nat}
    {f : ParticleFilter R X ℝ} (hf : f.proposal = some q) {ps : List (X × ℝ)}
    (h : Ready period threshold n f ps) (hno : ¬ (0 < n ∧ period ∣ n)) :
    ∃ f', sysPart dflt root noise c (true, f) = .ok (true, f') ∧
      Ready period threshold (n + 1) f' (moved mv noise.prop ps) ∧ f'.proposal = some q ∧
      f'.cloud.old = ps.map wrap := by
  obtain ⟨f', ps1, ps2, h1, h2, h3, h4, _, h6, h7⟩ :=
    sysPart_ready (dflt := dflt) hroot hm hq hus hc hf h
  obtain rfl := h6 hno
  have e : ps2 = moved mv noise.prop ps1 := by
    obtain ⟨hl, h7⟩ := h7
    apply List.ext_getElem
    · simp [moved, hl]
    · intro i i1 i2
      have i3 : i < ps1.length := hl ▸ i1
      obtain ⟨⟨prev, k1⟩, k2⟩ := h7 i i3
      rw [hd, Outcome.ok.injEq] at k1
      simp only [moved, List.getElem_mapIdx]
      rw [k1, ← k2]
  rw [← e]
  exact ⟨f', h1, h2, h3, h4⟩

theorem meas_weighted (hroot : IsRoot root) {noise : Noise R ℝ} (hus : Uniforms noise.dynamic)
    {c : UpdateCall R X MV ℝ} {mm : Model X MV ℝ} (hc : c.meas = some mm) {n : Nat}
    {f : ParticleFilter R X ℝ} {ps : List (X × ℝ)} (h : Ready period threshold n f ps)
    {g : Nat → ℝ} (hg : ∀ i < ps.length, 0 ≤ g i)
    (hf : ∀ i (hi : i < ps.length), Cloud.factor f.proposal c.sys c.u mm c.z c.s
      (f.cloud.old[i]'(h.live.old ▸ hi)).value ps[i].1 = .ok (g i)) (ht : threshold ≤ 1)
    (hpos : 0 < (ps.mapIdx fun i a => a.2 * g i).sum) :
    ∃ f', measPart dflt root noise c (true, f) = .ok (true, f') ∧
      Ready period threshold n f' (ps.mapIdx fun i a =>
        (a.1, a.2 * g i / (ps.mapIdx fun i a => a.2 * g i).sum)) ∧ f'.proposal = f.proposal := by
  let g' : Nat → ℝ := fun i => if i < ps.length then g i else 0
  have hg' : ∀ i, 0 ≤ g' i := by
    intro i
    simp only [g']
    split
    · exact hg i ‹_›
    · exact le_rfl
  have htot : totalWeight g' ps = (ps.mapIdx fun i a => a.2 * g i).sum := by
    unfold totalWeight
    rw [← List.sum_ofFn]
    congr 1
    apply List.ext_getElem
    · simp
    · intro i i1 i2
      simp only [List.length_mapIdx] at i2
      simp [g']
  obtain ⟨h1, _⟩ := measPart_ready (dflt := dflt) (noise := noise) hroot hus hc h hg' (by
    intro i hi
    rw [hf i hi]
    simp [g', hi])
  rw [htot] at h1
  obtain ⟨f', ps1, ps2, k1, k2, k3, k4, _, k6⟩ := h1 hpos
  have hno : ¬ effectiveSize ps1 < threshold :=
    not_lt.2 (ht.trans (C28_effective_size k4).1)
  obtain rfl := k6 hno
  have e : ps2 = ps.mapIdx fun i a =>
      (a.1, a.2 * g i / (ps.mapIdx fun i a => a.2 * g i).sum) := by
    obtain ⟨hl, k3⟩ := k3
    apply List.ext_getElem
    · simp [hl]
    · intro i i1 i2
      have i3 : i < ps.length := hl ▸ i1
      rw [k3 i i3, htot]
      simp [g', i3]
  rw [← e]
  exact ⟨f', k1, k2, measPart_proposal h.par k1⟩

/-- The update `step` with arguments `c` moves and weights every particle, if no resampling is
due. -/
def StepOK (step : Noise R ℝ → UpdateCall R X MV ℝ → ParticleFilter R X ℝ →
      Outcome (Bool × ParticleFilter R X ℝ)) (period : Nat) (threshold : ℝ)
    (good : ParticleFilter R X ℝ → Prop) (c : UpdateCall R X MV ℝ) (mv : R → X → X)
    (G : X → X → ℝ) : Prop :=
  ∀ {f : ParticleFilter R X ℝ} {n : Nat} {ps : List (X × ℝ)} {noise : Noise R ℝ},
    Ready period threshold n f ps → good f → Uniforms noise.static → Uniforms noise.dynamic →
    ¬ (0 < n ∧ period ∣ n) → 0 < advanceTotal mv G noise.prop ps →
    ∃ f' n', step noise c f = .ok (true, f') ∧ n' ≤ n + 1 ∧ good f' ∧
      Ready period threshold n' f' (advance mv G noise.prop ps)

theorem advance_eq (mv : R → X → X) (G : X → X → ℝ) (ρ : Nat → R) (ps : List (X × ℝ)) {g : Nat → ℝ}
    (hg : ∀ i (hi : i < ps.length), g i = G ps[i].1 (mv (ρ i) ps[i].1)) :
    ((moved mv ρ ps).mapIdx fun i a => a.2 * g i) =
      (ps.mapIdx fun i a => a.2 * G a.1 (mv (ρ i) a.1)) ∧
    ((moved mv ρ ps).mapIdx fun i a =>
      (a.1, a.2 * g i / ((moved mv ρ ps).mapIdx fun i a => a.2 * g i).sum)) =
      advance mv G ρ ps := by
  have h1 : ((moved mv ρ ps).mapIdx fun i a => a.2 * g i) =
      (ps.mapIdx fun i a => a.2 * G a.1 (mv (ρ i) a.1)) := by
    apply List.ext_getElem
    · simp [moved]
    · intro i i1 i2
      simp only [List.length_mapIdx] at i2
      simp [moved, hg i i2]
  refine ⟨h1, ?_⟩
  rw [h1]
  apply List.ext_getElem
  · simp [moved, advance]
  · intro i i1 i2
    simp only [advance, List.length_mapIdx] at i2
    simp [moved, advance, advanceTotal, hg i i2]

/-- A measurement-only update of either filter. -/
theorem meas_ok (hroot : IsRoot root) (ht : threshold ≤ 1) {mm : Model X MV ℝ}
    {L : MV → X → X → ℝ} (hl : IsLikelihood mm L) (u s : X) (z : MV) {f : ParticleFilter R X ℝ}
    {n : Nat} {ps : List (X × ℝ)} {noise : Noise R ℝ} (h : Ready period threshold n f ps)
    (hud : Uniforms noise.dynamic)
    (hpos : 0 < advanceTotal (fun _ a => a) (fun _ y => L z y s) noise.prop ps) :
    ∃ f', f.update dflt root noise ⟨none, u, some mm, z, s⟩ = .ok (true, f') ∧
      Ready period threshold n f' (advance (fun _ a => a) (fun _ y => L z y s) noise.prop ps) ∧
      f'.proposal = f.proposal := by
  let g : Nat → ℝ := fun i => if h : i < ps.length then L z ps[i].1 s else 0
  have hgi : ∀ i (hi : i < ps.length), g i = L z ps[i].1 s := fun i hi => by simp [g, hi]
  obtain ⟨e1, e2⟩ := advance_eq (fun (_ : R) (a : X) => a) (fun _ y => L z y s) noise.prop ps hgi
  rw [moved_id] at e1 e2
  obtain ⟨f', k1, k2, k3⟩ := meas_weighted (dflt := dflt) (noise := noise)
    (c := ⟨none, u, some mm, z, s⟩) hroot hud rfl h (g := g)
    (fun i hi => by rw [hgi i hi]; exact hl.nonneg _ _ _)
    (by intro i hi; rw [hgi i hi]; simp only [Cloud.factor, hl.likelihood]) ht
    (by rw [e1]; exact hpos)
  rw [e2] at k2
  exact ⟨f', k1, k2, k3⟩

theorem pf_measurement (hroot : IsRoot root) (ht : threshold ≤ 1) {mm : Model X MV ℝ}
    {L : MV → X → X → ℝ} (hl : IsLikelihood mm L) (u s : X) (z : MV) (q : Proposal R X ℝ) :
    StepOK (fun noise c f => ParticleFilter.update dflt root noise c f) period threshold
      (fun f => f.proposal = some q) ⟨none, u, some mm, z, s⟩ (fun _ a => a)
      (fun _ y => L z y s) := by
  intro f n ps noise h hq _ hud _ hpos
  obtain ⟨f', k1, k2, k3⟩ := meas_ok (dflt := dflt) hroot ht hl u s z h hud hpos
  exact ⟨f', n, k1, by omega, k3.trans hq, k2⟩

theorem pf_full (hroot : IsRoot root) (ht : threshold ≤ 1) {m : SysModel R X ℝ}
    {T Q : X → X → X → ℝ} {q : Proposal R X ℝ} (hm : IsTransition m T) (hq : IsProposal q m Q)
    {mm : Model X MV ℝ} {L : MV → X → X → ℝ} (hl : IsLikelihood mm L) (hs : ¬ WithSensor mm)
    {u : X} {mv : R → X → X} (hd : ∀ r x prev, q.draw r (argsFor m x u) prev = .ok (mv r x))
    (s : X) (z : MV) :
    StepOK (fun noise c f => ParticleFilter.update dflt root noise c f) period threshold
      (fun f => f.proposal = some q) ⟨some m, u, some mm, z, s⟩ mv
      (fun x y => importance (L z y s) (T x u y) (Q x u y)) := by
  intro f n ps noise h hp hus hud hno hpos
  obtain ⟨f1, h1, h2, h3, h4⟩ := sys_moved (dflt := dflt) (c := ⟨some m, u, some mm, z, s⟩) hroot hm
    hq hus rfl hd hp h hno
  let G : X → X → ℝ := fun x y => importance (L z y s) (T x u y) (Q x u y)
  let g : Nat → ℝ := fun i =>
    if h : i < ps.length then G ps[i].1 (mv (noise.prop i) ps[i].1) else 0
  have hgi : ∀ i (hi : i < ps.length), g i = G ps[i].1 (mv (noise.prop i) ps[i].1) :=
    fun i hi => by simp [g, hi]
  obtain ⟨e1, e2⟩ := advance_eq mv G noise.prop ps hgi
  have hlen : (moved mv noise.prop ps).length = ps.length := by simp [moved]
  obtain ⟨f', k1, k2, k3⟩ := meas_weighted (dflt := dflt) (noise := noise)
    (c := ⟨some m, u, some mm, z, s⟩) hroot hud rfl h2 (g := g)
    (fun i hi => by
      rw [hgi i (hlen ▸ hi)]
      simp only [G]
      unfold importance
      split
      · exact le_rfl
      · refine mul_nonneg (hl.nonneg _ _ _) (div_nonneg ?_ (hq.density _ _ _).1)
        obtain ⟨p, _, hp⟩ := hm
        exact (hp _ _ _).1)
    (by
      intro i hi
      rw [h3, factor_eq hm hq hl hs, hgi i (hlen ▸ hi)]
      simp only [h4, List.getElem_map, wrap_value, moved, List.getElem_mapIdx, G]) ht
    (by rw [e1]; exact hpos)
  rw [e2] at k2
  refine ⟨f', n + 1, ?_, le_rfl, k3.trans h3, k2⟩
  simp only [update, h1, Outcome.ok_bind, k1]

theorem advance_one {mv : R → X → X} {ρ : Nat → R} {ps : List (X × ℝ)} (hn : Normalised ps) :
    advance mv (fun _ _ => 1) ρ ps = moved mv ρ ps := by
  have h1 : advanceTotal mv (fun _ _ => 1) ρ ps = 1 := by
    refine Eq.trans ?_ hn.2
    unfold advanceTotal
    congr 1
    apply List.ext_getElem <;> simp
  unfold advance moved
  rw [h1]
  simp

theorem pf_system (hroot : IsRoot root) {m : SysModel R X ℝ}
    {T Q : X → X → X → ℝ} {q : Proposal R X ℝ} (hm : IsTransition m T) (hq : IsProposal q m Q)
    {u : X} {mv : R → X → X} (hd : ∀ r x prev, q.draw r (argsFor m x u) prev = .ok (mv r x))
    (s : X) (z : MV) :
    StepOK (fun noise c f => ParticleFilter.update dflt root noise c f) period threshold
      (fun f => f.proposal = some q) ⟨some m, u, none, z, s⟩ mv (fun _ _ => 1) := by
  intro f n ps noise h hp hus hud hno hpos
  obtain ⟨f1, h1, h2, h3, h4⟩ := sys_moved (dflt := dflt) (c := ⟨some m, u, (none : Option (Model X MV ℝ)), z, s⟩) hroot hm
    hq hus rfl hd hp h hno
  rw [advance_one h.live.dist]
  refine ⟨f1, n + 1, ?_, le_rfl, h3, h2⟩
  simp only [update, h1, Outcome.ok_bind, measPart]

theorem boot_sys (hroot : IsRoot root) {m : SysModel R X ℝ} {T : X → X → X → ℝ}
    (hm : IsTransition m T) {u : X} {mv : R → X → X}
    (hd : ∀ r x u prev, ∃ y, m.draw r (argsFor m x u) prev = .ok y)
    (hd' : ∀ r x prev, m.draw r (argsFor m x u) prev = .ok (mv r x)) (s : X) (z : MV)
    (mm : Option (Model X MV ℝ)) {f : ParticleFilter R X ℝ} {n : Nat} {ps : List (X × ℝ)}
    {noise : Noise R ℝ} (h : Ready period threshold n f ps) (hus : Uniforms noise.static)
    (hno : ¬ (0 < n ∧ period ∣ n)) :
    ∃ f', f.bootSys dflt root noise ⟨some m, u, mm, z, s⟩ = .ok (true, f') ∧
      Ready period threshold (n + 1) f' (moved mv noise.prop ps) ∧
      f'.cloud.old = ps.map wrap := by
  obtain ⟨q, hq1, hq2, hq3⟩ := hm.isProposal hd
  have h' : Ready period threshold n { f with proposal := some q } ps :=
    ⟨⟨h.par.inv, h.par.hperiod, h.par.hthreshold, h.par.hscheme, h.par.dynamic, h.par.policy,
      h.par.unweighted⟩, h.step, h.live⟩
  obtain ⟨f1, h1, h2, h3, h4⟩ := sys_moved (dflt := dflt)
    (c := ⟨some m, u, (none : Option (Model X MV ℝ)), z, s⟩) hroot hm hq3 hus rfl
    (by rw [hq2]; exact hd') rfl h' hno
  refine ⟨f1, ?_, h2, h4⟩
  simp only [bootSys, update, hq1, h1, Outcome.ok_bind, measPart]

theorem boot_system (hroot : IsRoot root) {m : SysModel R X ℝ} {T : X → X → X → ℝ}
    (hm : IsTransition m T) {u : X} {mv : R → X → X}
    (hd : ∀ r x u prev, ∃ y, m.draw r (argsFor m x u) prev = .ok y)
    (hd' : ∀ r x prev, m.draw r (argsFor m x u) prev = .ok (mv r x)) (s : X) (z : MV) :
    StepOK (fun noise c f => ParticleFilter.bootUpdate dflt root noise c f) period threshold
      (fun _ => True) ⟨some m, u, none, z, s⟩ mv (fun _ _ => 1) := by
  intro f n ps noise h _ hus hud hno hpos
  obtain ⟨f1, h1, h2, _⟩ := boot_sys (dflt := dflt) hroot hm hd hd' s z none h hus hno
  rw [advance_one h.live.dist]
  refine ⟨f1, n + 1, ?_, le_rfl, trivial, h2⟩
  simp only [bootUpdate, h1, Outcome.ok_bind, bootMeas]

theorem boot_measurement (hroot : IsRoot root) (ht : threshold ≤ 1) {mm : Model X MV ℝ}
    {L : MV → X → X → ℝ} (hl : IsLikelihood mm L) (u s : X) (z : MV) :
    StepOK (R := R) (fun noise c f => ParticleFilter.bootUpdate dflt root noise c f) period threshold
      (fun _ => True) ⟨none, u, some mm, z, s⟩ (fun _ a => a) (fun _ y => L z y s) := by
  intro f n ps noise h _ _ hud _ hpos
  obtain ⟨f', k1, k2, _⟩ := meas_ok (dflt := dflt) hroot ht hl u s z h hud hpos
  refine ⟨f', n, ?_, by omega, trivial, k2⟩
  simp only [bootUpdate, bootSys, Outcome.ok_bind, bootMeas, k1, Outcome.pure_eq, Bool.and_self]

theorem boot_full (hroot : IsRoot root) (ht : threshold ≤ 1) {m : SysModel R X ℝ}
    {T : X → X → X → ℝ} (hm : IsTransition m T) {u : X} {mv : R → X → X}
    (hd : ∀ r x u prev, ∃ y, m.draw r (argsFor m x u) prev = .ok y)
    (hd' : ∀ r x prev, m.draw r (argsFor m x u) prev = .ok (mv r x))
    {mm : Model X MV ℝ} {L : MV → X → X → ℝ} (hl : IsLikelihood mm L) (s : X) (z : MV) :
    StepOK (fun noise c f => ParticleFilter.bootUpdate dflt root noise c f) period threshold
      (fun _ => True) ⟨some m, u, some mm, z, s⟩ mv (fun _ y => L z y s) := by
  intro f n ps noise h _ hus hud hno hpos
  obtain ⟨f1, h1, h2, _⟩ := boot_sys (dflt := dflt) hroot hm hd hd' s z (some mm) h hus hno
  have e : advanceTotal (fun _ a => a) (fun _ y => L z y s) noise.prop (moved mv noise.prop ps) =
      advanceTotal mv (fun _ y => L z y s) noise.prop ps := by
    unfold advanceTotal moved
    congr 1
    apply List.ext_getElem <;> simp
  have e2 : advance (fun _ a => a) (fun _ y => L z y s) noise.prop (moved mv noise.prop ps) =
      advance mv (fun _ y => L z y s) noise.prop ps := by
    unfold advance
    rw [e]
    unfold moved
    apply List.ext_getElem <;> simp
  obtain ⟨f', k1, k2, _⟩ := meas_ok (dflt := dflt) hroot ht hl u s z h2 hud (by rw [e]; exact hpos)
  rw [e2] at k2
  refine ⟨f', n + 1, ?_, le_rfl, trivial, k2⟩
  simp only [bootUpdate, h1, Outcome.ok_bind, bootMeas, k1, Outcome.pure_eq, Bool.and_self]

/-- `N` particles with values and unnormalised weights given by `W`. -/
noncomputable def cloudAt (W : Nat → X × ℝ) (N : Nat) : List (X × ℝ) :=
  (List.range N).map fun i => ((W i).1, (W i).2 / ∑ j ∈ Finset.range N, (W j).2)

theorem sum_mapIdx_range (f : Nat → ℝ) (N : Nat) : ((List.range N).map f).sum =
    ∑ i ∈ Finset.range N, f i := by
  rw [Finset.sum_range, ← List.sum_ofFn]
  congr 1
  apply List.ext_getElem <;> simp

theorem advance_cloudAt {mv : R → X → X} {G : X → X → ℝ} {ρ : Nat → R} {W : Nat → X × ℝ} {N : Nat}
    (h0 : 0 < ∑ j ∈ Finset.range N, (W j).2) :
    let W' : Nat → X × ℝ := fun i => (mv (ρ i) (W i).1, (W i).2 * G (W i).1 (mv (ρ i) (W i).1))
    advanceTotal mv G ρ (cloudAt W N) =
      (∑ j ∈ Finset.range N, (W' j).2) / ∑ j ∈ Finset.range N, (W j).2 ∧
    advance mv G ρ (cloudAt W N) = cloudAt W' N := by
  intro W'
  set S := ∑ j ∈ Finset.range N, (W j).2 with hS
  have h1 : advanceTotal mv G ρ (cloudAt W N) = (∑ j ∈ Finset.range N, (W' j).2) / S := by
    unfold advanceTotal
    rw [Finset.sum_div, ← sum_mapIdx_range]
    congr 1
    apply List.ext_getElem
    · simp [cloudAt]
    · intro i i1 i2
      simp only [cloudAt, List.getElem_mapIdx, List.getElem_map, List.getElem_range, W', ← hS]
      ring
  refine ⟨h1, ?_⟩
  unfold advance
  rw [h1]
  apply List.ext_getElem
  · simp [cloudAt]
  · intro i i1 i2
    simp only [cloudAt, List.getElem_mapIdx, List.getElem_map, List.getElem_range, W', ← hS,
      Prod.mk.injEq, true_and]
    rw [div_mul_eq_mul_div, div_div_div_cancel_right₀ h0.ne']

theorem run_snoc (step : Noise R ℝ → UpdateCall R X MV ℝ → ParticleFilter R X ℝ →
      Outcome (Bool × ParticleFilter R X ℝ)) (a : Noise R ℝ × UpdateCall R X MV ℝ)
    {f2 f3 : ParticleFilter R X ℝ} (h2 : step a.1 a.2 f2 = .ok (true, f3)) :
    ∀ (l : List (Noise R ℝ × UpdateCall R X MV ℝ)) {f1 : ParticleFilter R X ℝ},
    ParticleFilter.run step l f1 = .ok (true, f2) → ParticleFilter.run step (l ++ [a]) f1 = .ok (true, f3)
  | [], f1, h => by
    simp only [ParticleFilter.run, Outcome.ok.injEq, Prod.mk.injEq, true_and] at h
    subst h
    simp only [List.nil_append, ParticleFilter.run, h2, Outcome.ok_bind, Outcome.pure_eq, Bool.and_true]
  | b :: l, f1, h => by
    simp only [ParticleFilter.run, Outcome.bind_eq_ok, Outcome.pure_eq, Outcome.ok.injEq, Prod.mk.injEq,
      Prod.exists] at h
    obtain ⟨b1, g1, k1, b2, g2, k2, k3, rfl⟩ := h
    simp only [Bool.and_eq_true] at k3
    obtain ⟨rfl, rfl⟩ := k3
    simp only [List.cons_append, ParticleFilter.run, k1, Outcome.ok_bind, run_snoc step a h2 l k2,
      Outcome.pure_eq, Bool.and_self]

theorem traj_nonneg {mv : Nat → R → X → X} {G : Nat → X → X → ℝ} (hG0 : ∀ t a b, 0 ≤ G t a b)
    (x : X) (ρ : Nat → R) : ∀ t, 0 ≤ (traj mv G x ρ t).2
  | 0 => zero_le_one
  | t + 1 => mul_nonneg (traj_nonneg hG0 x ρ t) (hG0 t _ _)

theorem traj_zero {mv : Nat → R → X → X} {G : Nat → X → X → ℝ} {x : X} {ρ : Nat → R} {t : Nat}
    (h : (traj mv G x ρ t).2 = 0) : ∀ k, (traj mv G x ρ (t + k)).2 = 0
  | 0 => h
  | k + 1 => by
    show (traj mv G x ρ (t + k)).2 * _ = 0
    rw [traj_zero h k, zero_mul]

theorem traj_sum_pos {mv : Nat → R → X → X} {G : Nat → X → X → ℝ} (hG0 : ∀ t a b, 0 ≤ G t a b)
    {x : Nat → X} {ρ : Nat → Nat → R} {N T : Nat}
    (h : 0 < ∑ i ∈ Finset.range N, (traj mv G (x i) (fun t => ρ t i) T).2) {t : Nat} (ht : t ≤ T) :
    0 < ∑ i ∈ Finset.range N, (traj mv G (x i) (fun t => ρ t i) t).2 := by
  by_contra hc
  have h0 : ∑ i ∈ Finset.range N, (traj mv G (x i) (fun t => ρ t i) t).2 = 0 :=
    le_antisymm (not_lt.1 hc) (Finset.sum_nonneg fun i _ => traj_nonneg hG0 _ _ _)
  rw [Finset.sum_eq_zero_iff_of_nonneg fun i _ => traj_nonneg hG0 _ _ _] at h0
  have : ∑ i ∈ Finset.range N, (traj mv G (x i) (fun t => ρ t i) T).2 = 0 := by
    apply Finset.sum_eq_zero
    intro i hi
    obtain ⟨k, rfl⟩ := Nat.exists_eq_add_of_le ht
    exact traj_zero (h0 i hi) k
  exact absurd this h.ne'

theorem run_ok {step : Noise R ℝ → UpdateCall R X MV ℝ → ParticleFilter R X ℝ →
      Outcome (Bool × ParticleFilter R X ℝ)} {good : ParticleFilter R X ℝ → Prop}
    {c : Nat → UpdateCall R X MV ℝ} {noise : Nat → Noise R ℝ} {mv : Nat → R → X → X}
    {G : Nat → X → X → ℝ} (hG0 : ∀ t a b, 0 ≤ G t a b) {T : Nat}
    (hok : ∀ t < T, StepOK step period threshold good (c t) (mv t) (G t))
    (hus : ∀ t, Uniforms (noise t).static ∧ Uniforms (noise t).dynamic)
    (hper : period = 0 ∨ T ≤ period) {x : Nat → X} {N : Nat} {f : ParticleFilter R X ℝ}
    (hf : Ready period threshold 0 f (cloudAt (fun i => (x i, 1)) N)) (hgood : good f)
    (hpos : 0 < ∑ i ∈ Finset.range N, (traj mv G (x i) (fun t => (noise t).prop i) T).2) :
    ∀ t ≤ T, ∃ f' n', ParticleFilter.run step ((List.range t).map fun t => (noise t, c t)) f = .ok (true, f') ∧
      n' ≤ t ∧ good f' ∧ Ready period threshold n' f'
        (cloudAt (fun i => traj mv G (x i) (fun t => (noise t).prop i) t) N)
  | 0, _ => ⟨f, 0, rfl, le_rfl, hgood, hf⟩
  | t + 1, ht => by
    obtain ⟨f1, n1, h1, h2, h3, h4⟩ := run_ok hG0 hok hus hper hf hgood hpos t (by omega)
    have hp0 := traj_sum_pos (ρ := fun t i => (noise t).prop i) hG0 hpos (t := t) (by omega)
    have hp1 := traj_sum_pos (ρ := fun t i => (noise t).prop i) hG0 hpos (t := t + 1) ht
    obtain ⟨e1, e2⟩ := advance_cloudAt (mv := mv t) (G := G t) (ρ := (noise t).prop) hp0
    have hno : ¬ (0 < n1 ∧ period ∣ n1) := by
      rintro ⟨a, b⟩
      rcases hper with rfl | hper
      · rw [Nat.zero_dvd] at b; omega
      · exact absurd (Nat.le_of_dvd a b) (by omega)
    obtain ⟨f2, n2, k1, k2, k3, k4⟩ := hok t (by omega) h4 h3 (hus t).1 (hus t).2 hno (by
      rw [e1]; exact div_pos hp1 hp0)
    rw [e2] at k4
    refine ⟨f2, n2, ?_, by omega, k3, k4⟩
    rw [List.range_succ, List.map_append]
    exact run_snoc step (noise t, c t) k1 _ h1

/-- A filter constructed from a normalised particle set is ready. -/
theorem pfMake_ready {prior : MCPdf ℝ X} {q : Option (Proposal R X ℝ)} {f : ParticleFilter R X ℝ}
    {ps : List (X × ℝ)} (hp : Holds prior ps) (hn : Normalised ps)
    (hf : ParticleFilter.make dflt prior q period threshold .multinomial = .ok f) :
    Ready period threshold 0 f ps ∧ f.proposal = q ∧ Holds f.postGet ps := by
  have ha : Admissible prior.listGet := by
    intro s hs w hsw
    rw [hp, List.mem_map] at hs
    obtain ⟨a, ha, rfl⟩ := hs
    simp only [Option.some.injEq] at hsw
    rw [← hsw]
    exact hn.1 _ (List.mem_map_of_mem ha)
  have hr : Reached PUnit dflt (fun _ y => y) period threshold .multinomial f 0 := .make ha hf
  obtain ⟨post, h3, h4⟩ := setW_holds (q := MCPdf.make prior.numSamples dflt) ⟨_, [], rfl⟩ hn
  have hpost : f.postGet = post ∧ f.proposal = q := by
    unfold ParticleFilter.make at hf
    rw [hp, h3] at hf
    simp only [Outcome.ok_bind, Outcome.bind_eq_ok, Outcome.pure_eq, Outcome.ok.injEq] at hf
    obtain ⟨_, _, _, _, rfl⟩ := hf
    exact ⟨rfl, rfl⟩
  have hh : Holds f.postGet ps := by rw [hpost.1]; exact h4
  exact ⟨hr.ready hh hn, hpost.2, hh⟩

theorem average_cloudAt (φ : X → ℝ) (W : Nat → X × ℝ) (N : Nat) :
    averageOver φ (cloudAt W N) =
      (∑ i ∈ Finset.range N, (W i).2 * φ (W i).1) / ∑ i ∈ Finset.range N, (W i).2 := by
  unfold averageOver cloudAt
  rw [List.map_map, Finset.sum_div, ← sum_mapIdx_range]
  congr 1
  apply List.map_congr_left
  intro i _
  simp only [Function.comp]
  ring

end BFL.Props
