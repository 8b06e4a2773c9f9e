import Verif.Lemmas.MixtureRun

/-!
# The updates of the mixture filters as moves and weights of every component
-/

set_option linter.unusedSectionVars false

namespace BFL.Props

open Spec MCPdf MixtureParticleFilter

variable {R X MV : Type} {dflt : X} {root : Nat → ℝ → ℝ} {period : Nat} {threshold : ℝ} {J : Nat}

/-- The update `step` with arguments `c`: every component is resampled if due, moved and weighted,
and resampled if due; the component weights are multiplied by the total weights of the components. -/
def MStepRuns (J : Nat) (root : Nat → ℝ → ℝ)
    (step : (Nat → Noise R ℝ) → UpdateCall R X MV ℝ → MixtureParticleFilter R X ℝ →
      Outcome (Bool × MixtureParticleFilter R X ℝ)) (period : Nat) (threshold : ℝ)
    (good : MixtureParticleFilter R X ℝ → Prop) (c : UpdateCall R X MV ℝ) (mv : R → X → X)
    (G : X → X → ℝ) : Prop :=
  ∀ {f : MixtureParticleFilter R X ℝ} {n : Nat} {cl : Fin J → Cloud ℝ X} {W : Fin J → ℝ}
    {ps : Fin J → List (X × ℝ)} {noise : Nat → Noise R ℝ},
    MReady period threshold n f cl W ps → good f → (∀ k : Fin J, Uniforms (noise k).static) →
    (∀ k : Fin J, Uniforms (noise k).dynamic) →
    ∃ ps1 : Fin J → List (X × ℝ), (∀ k : Fin J, ResampledIf (c.sys.isSome = true ∧ 0 < n ∧ period ∣ n)
        (selectors root (noise k).static (ps k).length) (ps k) (ps1 k)) ∧
      ((∀ k : Fin J, 0 < advanceTotal mv G (noise k).prop (ps1 k)) →
        ∃ f' cl' ps2, step noise c f = .ok (true, f') ∧ good f' ∧
          MReady period threshold (n + if c.sys.isSome = true then J else 0) f' cl'
            (rescaled W fun k => advanceTotal mv G (noise k).prop (ps1 k)) ps2 ∧
          ∀ k : Fin J, ResampledIf (c.meas.isSome = true ∧
              effectiveSize (advance mv G (noise k).prop (ps1 k)) < threshold)
            (selectors root (noise k).dynamic (ps k).length)
            (advance mv G (noise k).prop (ps1 k)) (ps2 k))

theorem rescaled_one {W : Fin J → ℝ} (h : ∑ k, W k = 1) : rescaled W (fun _ => 1) = W := by
  funext k
  simp [rescaled, h]

theorem mSys_resampled (hroot : IsRoot root) {q : Proposal R X ℝ} {m : SysModel R X ℝ}
    {Q T : X → X → X → ℝ} (hm : IsTransition m T) (hq : IsProposal q m Q)
    {noise : Nat → Noise R ℝ} (hus : ∀ k : Fin J, Uniforms (noise k).static)
    {c : UpdateCall R X MV ℝ} (hc : c.sys = some m) {mv : R → X → X}
    (hd : ∀ r x prev, q.draw r (argsFor m x c.u) prev = .ok (mv r x)) {n : Nat}
    {f : MixtureParticleFilter R X ℝ} (hf : f.proposal = some q) {cl : Fin J → Cloud ℝ X}
    {W : Fin J → ℝ} {ps : Fin J → List (X × ℝ)} (h : MReady period threshold n f cl W ps) :
    ∃ (f' : _) (cl' : _) (ps1 : Fin J → List (X × ℝ)), sysPart dflt root noise c (true, f) = .ok (true, f') ∧
      (∀ k : Fin J, ResampledIf (0 < n ∧ period ∣ n)
        (selectors root (noise k).static (ps k).length) (ps k) (ps1 k)) ∧
      MReady period threshold (n + J) f' cl' W (fun k => moved mv (noise k).prop (ps1 k)) ∧
      f'.proposal = some q ∧ ∀ k, (cl' k).old = (ps1 k).map wrap := by
  obtain ⟨f1, cl1, ps1, h1, h2, h3, h4⟩ := mStatic_ready (dflt := dflt) hroot hus h
  obtain ⟨f2, cl2, g1, g2, g3, g4⟩ := mPropose_ready hm hq hd noise (h3.trans hf) h2
  refine ⟨f2, cl2, ps1, ?_, h4, g2, g3, g4⟩
  simp only [sysPart, hc, andStep, if_true, h1, Outcome.ok_bind, g1]

theorem mMeas_resampled (hroot : IsRoot root) {noise : Nat → Noise R ℝ}
    (hus : ∀ k : Fin J, Uniforms (noise k).dynamic) {c : UpdateCall R X MV ℝ} {mm : Model X MV ℝ}
    (hc : c.meas = some mm) {n : Nat} {f : MixtureParticleFilter R X ℝ} {cl : Fin J → Cloud ℝ X}
    {W : Fin J → ℝ} {ps : Fin J → List (X × ℝ)} (h : MReady period threshold n f cl W ps)
    {g : Fin J → Nat → ℝ} (hg : ∀ k, ∀ i < (ps k).length, 0 ≤ g k i)
    (hf : ∀ k i (hi : i < (ps k).length), Cloud.factor f.proposal c.sys c.u mm c.z c.s
      ((cl k).old[i]'((h.live k).old ▸ hi)).value (ps k)[i].1 = .ok (g k i))
    (hpos : ∀ k, 0 < ((ps k).mapIdx fun i a => a.2 * g k i).sum) :
    ∃ f' cl' ps2, measPart dflt root noise c (true, f) = .ok (true, f') ∧
      MReady period threshold n f' cl'
        (rescaled W fun k => ((ps k).mapIdx fun i a => a.2 * g k i).sum) ps2 ∧
      f'.proposal = f.proposal ∧
      ∀ k : Fin J, ResampledIf (effectiveSize ((ps k).mapIdx fun i a =>
          (a.1, a.2 * g k i / ((ps k).mapIdx fun i a => a.2 * g k i).sum)) < threshold)
        (selectors root (noise k).dynamic (ps k).length)
        ((ps k).mapIdx fun i a =>
          (a.1, a.2 * g k i / ((ps k).mapIdx fun i a => a.2 * g k i).sum)) (ps2 k) := by
  obtain ⟨f1, cl1, h1, h2, h3⟩ := mWeight_ready h hg hf hpos
  obtain ⟨f2, cl2, ps2, k1, k2, k3, k4⟩ := mDynamic_ready (dflt := dflt) hroot hus h3
  simp only [List.length_mapIdx] at k4
  refine ⟨f2, cl2, ps2, ?_, k2, k3.trans h2, k4⟩
  simp only [measPart, hc, andStep, if_true, h1, Outcome.ok_bind, k1]

/-- A measurement-only update of either filter. -/
theorem mMeas_runs (hroot : IsRoot root) {mm : Model X MV ℝ}
    {L : MV → X → X → ℝ} (hl : IsLikelihood mm L) (u s : X) (z : MV)
    {f : MixtureParticleFilter R X ℝ} {n : Nat} {cl : Fin J → Cloud ℝ X} {W : Fin J → ℝ}
    {ps : Fin J → List (X × ℝ)} {noise : Nat → Noise R ℝ}
    (h : MReady period threshold n f cl W ps) (hud : ∀ k : Fin J, Uniforms (noise k).dynamic)
    (hpos : ∀ k : Fin J,
      0 < advanceTotal (fun _ a => a) (fun _ y => L z y s) (noise k).prop (ps k)) :
    ∃ f' cl' ps2, f.update dflt root noise ⟨none, u, some mm, z, s⟩ = .ok (true, f') ∧
      MReady period threshold n f' cl' (rescaled W fun k =>
        advanceTotal (fun _ a => a) (fun _ y => L z y s) (noise k).prop (ps k)) ps2 ∧
      f'.proposal = f.proposal ∧
      ∀ k : Fin J, ResampledIf
        (effectiveSize (advance (fun _ a => a) (fun _ y => L z y s) (noise k).prop (ps k)) <
          threshold) (selectors root (noise k).dynamic (ps k).length)
        (advance (fun _ a => a) (fun _ y => L z y s) (noise k).prop (ps k)) (ps2 k) := by
  let g : Fin J → Nat → ℝ := fun k i => if h : i < (ps k).length then L z (ps k)[i].1 s else 0
  have hgi : ∀ k i (hi : i < (ps k).length), g k i = L z (ps k)[i].1 s := fun k i hi => by
    simp [g, hi]
  have he := fun k : Fin J => advance_eq (fun (_ : R) (a : X) => a) (fun _ y => L z y s)
    (noise k).prop (ps k) (hgi k)
  simp only [moved_id] at he
  obtain ⟨f', cl', ps2, k1, k2, k3, k4⟩ := mMeas_resampled (dflt := dflt) (noise := noise)
    (c := ⟨none, u, some mm, z, s⟩) hroot hud rfl h (g := g)
    (fun k i hi => by rw [hgi k i hi]; exact hl.nonneg _ _ _)
    (by intro k i hi; rw [hgi k i hi]; simp only [Cloud.factor, hl.likelihood])
    (fun k => by rw [(he k).1]; exact hpos k)
  refine ⟨f', cl', ps2, k1, ?_, k3, fun k => ?_⟩
  · simp only [fun k => (he k).1] at k2
    exact k2
  · have := k4 k
    rw [(he k).2] at this
    exact this

theorem mRuns_measurement (hroot : IsRoot root) {mm : Model X MV ℝ}
    {L : MV → X → X → ℝ} (hl : IsLikelihood mm L) (u s : X) (z : MV) (q : Proposal R X ℝ) :
    MStepRuns J root (MixtureParticleFilter.update dflt root) period threshold
      (fun f => f.proposal = some q) ⟨none, u, some mm, z, s⟩ (fun _ a => a)
      (fun _ y => L z y s) := by
  intro f n cl W ps noise h hq _ hud
  refine ⟨ps, fun _ => .off (by simp), fun hpos => ?_⟩
  obtain ⟨f', cl', ps2, k1, k2, k3, k4⟩ := mMeas_runs (dflt := dflt) hroot hl u s z h hud hpos
  exact ⟨f', cl', ps2, k1, k3.trans hq, k2, fun k => (k4 k).congr (by simp)⟩

theorem mRuns_full (hroot : IsRoot root) {m : SysModel R X ℝ}
    {T Q : X → X → X → ℝ} {q : Proposal R X ℝ} (hm : IsTransition m T) (hq : IsProposal q m Q)
    {mm : Model X MV ℝ} {L : MV → X → X → ℝ} (hl : IsLikelihood mm L) (hs : ¬ WithSensor mm)
    {u : X} {mv : R → X → X} (hd : ∀ r x prev, q.draw r (argsFor m x u) prev = .ok (mv r x))
    (s : X) (z : MV) :
    MStepRuns J root (MixtureParticleFilter.update dflt root) period threshold
      (fun f => f.proposal = some q) ⟨some m, u, some mm, z, s⟩ mv
      (fun x y => importance (L z y s) (T x u y) (Q x u y)) := by
  intro f n cl W ps noise h hp hus hud
  obtain ⟨f1, cl1, ps1, h1, h1', h2, h3, h4⟩ := mSys_resampled (dflt := dflt)
    (c := ⟨some m, u, some mm, z, s⟩) hroot hm hq hus rfl hd hp h
  refine ⟨ps1, fun k => (h1' k).congr (by simp), fun hpos => ?_⟩
  let G : X → X → ℝ := fun x y => importance (L z y s) (T x u y) (Q x u y)
  let g : Fin J → Nat → ℝ := fun k i =>
    if h : i < (ps1 k).length then G (ps1 k)[i].1 (mv ((noise k).prop i) (ps1 k)[i].1) else 0
  have hgi : ∀ k i (hi : i < (ps1 k).length),
      g k i = G (ps1 k)[i].1 (mv ((noise k).prop i) (ps1 k)[i].1) := fun k i hi => by simp [g, hi]
  have he := fun k : Fin J => advance_eq mv G (noise k).prop (ps1 k) (hgi k)
  have hlen : ∀ k : Fin J, (moved mv (noise k).prop (ps1 k)).length = (ps1 k).length := fun k => by
    simp [moved]
  obtain ⟨f', cl', ps2, k1, k2, k3, k4⟩ := mMeas_resampled (dflt := dflt) (noise := noise)
    (c := ⟨some m, u, some mm, z, s⟩) hroot hud rfl h2 (g := g)
    (fun k i hi => by
      rw [hgi k i (hlen k ▸ hi)]
      simp only [G]
      unfold importance
      split
      · exact le_rfl
      · refine mul_nonneg (hl.nonneg _ _ _) (div_nonneg ?_ (hq.density _ _ _).1)
        obtain ⟨p, _, hp⟩ := hm
        exact (hp _ _ _).1)
    (by
      intro k i hi
      rw [h3, factor_eq hm hq hl hs, hgi k i (hlen k ▸ hi)]
      simp only [h4, List.getElem_map, wrap_value, moved, List.getElem_mapIdx, G])
    (fun k => by rw [(he k).1]; exact hpos k)
  refine ⟨f', cl', ps2, ?_, k3.trans h3, ?_, fun k => ?_⟩
  · simp only [update, h1, Outcome.ok_bind, k1]
  · simp only [fun k => (he k).1] at k2
    exact k2
  · have := k4 k
    rw [(he k).2, hlen, (h1' k).length] at this
    exact this.congr (by simp [G])

theorem advanceTotal_one {mv : R → X → X} {ρ : Nat → R} {ps : List (X × ℝ)} (hn : Normalised ps) :
    advanceTotal mv (fun _ _ => 1) ρ ps = 1 := by
  refine Eq.trans ?_ hn.2
  unfold advanceTotal
  congr 1
  apply List.ext_getElem <;> simp

theorem normalised_of_moved {mv : R → X → X} {ρ : Nat → R} {ps : List (X × ℝ)}
    (h : Normalised (moved mv ρ ps)) : Normalised ps := by
  refine (congrArg IsDistribution ?_).mp h
  apply List.ext_getElem <;> simp [moved]

theorem mRuns_system (hroot : IsRoot root) {m : SysModel R X ℝ}
    {T Q : X → X → X → ℝ} {q : Proposal R X ℝ} (hm : IsTransition m T) (hq : IsProposal q m Q)
    {u : X} {mv : R → X → X} (hd : ∀ r x prev, q.draw r (argsFor m x u) prev = .ok (mv r x))
    (s : X) (z : MV) :
    MStepRuns J root (MixtureParticleFilter.update dflt root) period threshold
      (fun f => f.proposal = some q) ⟨some m, u, none, z, s⟩ mv (fun _ _ => 1) := by
  intro f n cl W ps noise h hp hus hud
  obtain ⟨f1, cl1, ps1, h1, h1', h2, h3, h4⟩ := mSys_resampled (dflt := dflt)
    (c := ⟨some m, u, (none : Option (Model X MV ℝ)), z, s⟩) hroot hm hq hus rfl hd hp h
  refine ⟨ps1, fun k => (h1' k).congr (by simp), fun hpos => ?_⟩
  have hn1 : ∀ k, Normalised (ps1 k) := fun k => normalised_of_moved (h2.live k).dist
  refine ⟨f1, cl1, fun k => moved mv (noise k).prop (ps1 k), ?_, h3, ?_, fun k => ?_⟩
  · simp only [update, h1, Outcome.ok_bind, measPart]
  · have e : (fun k : Fin J => advanceTotal mv (fun _ _ => 1) (noise k).prop (ps1 k)) =
        fun _ => 1 := funext fun k => advanceTotal_one (hn1 k)
    rw [e, rescaled_one h.total]
    exact h2
  · rw [advance_one (hn1 k)]
    exact .off (by simp)

theorem mBoot_resampled (hroot : IsRoot root) {m : SysModel R X ℝ} {T : X → X → X → ℝ}
    (hm : IsTransition m T) {u : X} {mv : R → X → X}
    (hd : ∀ r x u prev, ∃ y, m.draw r (argsFor m x u) prev = .ok y)
    (hd' : ∀ r x prev, m.draw r (argsFor m x u) prev = .ok (mv r x)) (s : X) (z : MV)
    (mm : Option (Model X MV ℝ)) {f : MixtureParticleFilter R X ℝ} {n : Nat}
    {cl : Fin J → Cloud ℝ X} {W : Fin J → ℝ} {ps : Fin J → List (X × ℝ)}
    {noise : Nat → Noise R ℝ} (h : MReady period threshold n f cl W ps)
    (hus : ∀ k : Fin J, Uniforms (noise k).static) :
    ∃ (f' : _) (cl' : _) (ps1 : Fin J → List (X × ℝ)), f.bootSys dflt root noise ⟨some m, u, mm, z, s⟩ = .ok (true, f') ∧
      (∀ k : Fin J, ResampledIf (0 < n ∧ period ∣ n)
        (selectors root (noise k).static (ps k).length) (ps k) (ps1 k)) ∧
      MReady period threshold (n + J) f' cl' W (fun k => moved mv (noise k).prop (ps1 k)) := by
  obtain ⟨q, hq1, hq2, hq3⟩ := hm.isProposal hd
  have h' : MReady period threshold n { f with proposal := some q } cl W ps :=
    ⟨h.comps, h.live, h.weights, h.nonneg, h.total, h.hperiod, h.hthreshold, h.hscheme, h.dynamic,
      h.policy, h.step⟩
  obtain ⟨f1, cl1, ps1, h1, h1', h2, h3, h4⟩ := mSys_resampled (dflt := dflt)
    (c := ⟨some m, u, (none : Option (Model X MV ℝ)), z, s⟩) hroot hm hq3 hus rfl
    (by rw [hq2]; exact hd') rfl h'
  refine ⟨f1, cl1, ps1, ?_, h1', h2⟩
  simp only [bootSys, update, hq1, h1, Outcome.ok_bind, measPart]

theorem mRuns_boot_system (hroot : IsRoot root) {m : SysModel R X ℝ} {T : X → X → X → ℝ}
    (hm : IsTransition m T) {u : X} {mv : R → X → X}
    (hd : ∀ r x u prev, ∃ y, m.draw r (argsFor m x u) prev = .ok y)
    (hd' : ∀ r x prev, m.draw r (argsFor m x u) prev = .ok (mv r x)) (s : X) (z : MV) :
    MStepRuns J root (MixtureParticleFilter.bootUpdate dflt root) period threshold
      (fun _ => True) ⟨some m, u, none, z, s⟩ mv (fun _ _ => 1) := by
  intro f n cl W ps noise h _ hus hud
  obtain ⟨f1, cl1, ps1, h1, h1', h2⟩ :=
    mBoot_resampled (dflt := dflt) hroot hm hd hd' s z none h hus
  refine ⟨ps1, fun k => (h1' k).congr (by simp), fun hpos => ?_⟩
  have hn1 : ∀ k, Normalised (ps1 k) := fun k => normalised_of_moved (h2.live k).dist
  refine ⟨f1, cl1, fun k => moved mv (noise k).prop (ps1 k), ?_, trivial, ?_, fun k => ?_⟩
  · simp only [bootUpdate, h1, Outcome.ok_bind, bootMeas]
  · have e : (fun k : Fin J => advanceTotal mv (fun _ _ => 1) (noise k).prop (ps1 k)) =
        fun _ => 1 := funext fun k => advanceTotal_one (hn1 k)
    rw [e, rescaled_one h.total]
    exact h2
  · rw [advance_one (hn1 k)]
    exact .off (by simp)

theorem mRuns_boot_measurement (hroot : IsRoot root) {mm : Model X MV ℝ}
    {L : MV → X → X → ℝ} (hl : IsLikelihood mm L) (u s : X) (z : MV) :
    MStepRuns (R := R) J root (MixtureParticleFilter.bootUpdate dflt root) period
      threshold (fun _ => True) ⟨none, u, some mm, z, s⟩ (fun _ a => a) (fun _ y => L z y s) := by
  intro f n cl W ps noise h _ _ hud
  refine ⟨ps, fun _ => .off (by simp), fun hpos => ?_⟩
  obtain ⟨f', cl', ps2, k1, k2, _, k4⟩ := mMeas_runs (dflt := dflt) hroot hl u s z h hud hpos
  refine ⟨f', cl', ps2, ?_, trivial, k2, fun k => (k4 k).congr (by simp)⟩
  simp only [bootUpdate, bootSys, Outcome.ok_bind, bootMeas, k1, Outcome.pure_eq, Bool.and_self]

theorem advance_moved (mv : R → X → X) (g : X → ℝ) (ρ : Nat → R) (ps : List (X × ℝ)) :
    advanceTotal (fun _ a => a) (fun _ y => g y) ρ (moved mv ρ ps) =
      advanceTotal mv (fun _ y => g y) ρ ps ∧
    advance (fun _ a => a) (fun _ y => g y) ρ (moved mv ρ ps) =
      advance mv (fun _ y => g y) ρ ps := by
  have e : advanceTotal (fun _ a => a) (fun _ y => g y) ρ (moved mv ρ ps) =
      advanceTotal mv (fun _ y => g y) ρ ps := by
    unfold advanceTotal moved
    congr 1
    apply List.ext_getElem <;> simp
  refine ⟨e, ?_⟩
  unfold advance
  rw [e]
  unfold moved
  apply List.ext_getElem <;> simp

theorem mRuns_boot_full (hroot : IsRoot root) {m : SysModel R X ℝ}
    {T : X → X → X → ℝ} (hm : IsTransition m T) {u : X} {mv : R → X → X}
    (hd : ∀ r x u prev, ∃ y, m.draw r (argsFor m x u) prev = .ok y)
    (hd' : ∀ r x prev, m.draw r (argsFor m x u) prev = .ok (mv r x))
    {mm : Model X MV ℝ} {L : MV → X → X → ℝ} (hl : IsLikelihood mm L) (s : X) (z : MV) :
    MStepRuns J root (MixtureParticleFilter.bootUpdate dflt root) period threshold
      (fun _ => True) ⟨some m, u, some mm, z, s⟩ mv (fun _ y => L z y s) := by
  intro f n cl W ps noise h _ hus hud
  obtain ⟨f1, cl1, ps1, h1, h1', h2⟩ :=
    mBoot_resampled (dflt := dflt) hroot hm hd hd' s z (some mm) h hus
  refine ⟨ps1, fun k => (h1' k).congr (by simp), fun hpos => ?_⟩
  have e := fun k : Fin J => advance_moved mv (fun y => L z y s) (noise k).prop (ps1 k)
  have hlen : ∀ k : Fin J, (moved mv (noise k).prop (ps1 k)).length = (ps1 k).length := fun k => by
    simp [moved]
  obtain ⟨f', cl', ps2, k1, k2, _, k4⟩ := mMeas_runs (dflt := dflt) hroot hl u s z h2 hud
    (fun k => by rw [(e k).1]; exact hpos k)
  refine ⟨f', cl', ps2, ?_, trivial, ?_, fun k => ?_⟩
  · simp only [bootUpdate, h1, Outcome.ok_bind, bootMeas, k1, Outcome.pure_eq, Bool.and_self]
  · simp only [fun k => (e k).1] at k2
    exact k2
  · have := k4 k
    rw [(e k).2, hlen, (h1' k).length] at this
    exact this.congr (by simp)

end BFL.Props
