import Verif.Lemmas.ParticleResampleCloud
import Verif.Props.MixtureParticleFilter

/-!
# Updates of the mixture filters with resampling, component by component
-/

set_option linter.unusedSectionVars false

namespace BFL.Props

open Spec MCPdf MixtureParticleFilter

variable {R X MV : Type} {dflt : X} {root : Nat → ℝ → ℝ} {period : Nat} {threshold : ℝ} {J : Nat}

theorem eachComponent_all {step : Nat → Cloud ℝ X → Outcome (Bool × Cloud ℝ X)} :
    ∀ {J : Nat} (o : Nat) {cl cl' : Fin J → Cloud ℝ X},
      (∀ k : Fin J, step (o + k) (cl k) = .ok (true, cl' k)) →
      eachComponent step o (List.ofFn cl) = .ok (true, List.ofFn cl') := by
  intro J
  induction J with
  | zero => intro o cl cl' _; simp [eachComponent]
  | succ J ih =>
    intro o cl cl' h
    have h0 := h 0
    simp only [Fin.val_zero, Nat.add_zero] at h0
    have hr := ih (o + 1) (cl := fun k => cl k.succ) (cl' := fun k => cl' k.succ) (fun k => by
      have := h k.succ
      rw [Fin.val_succ, show o + (k.1 + 1) = o + 1 + k by omega] at this
      exact this)
    simp only [List.ofFn_succ, eachComponent, h0, Outcome.ok_bind, if_true, hr, Outcome.pure_eq]

theorem proposeLoop_all {q : Option (Proposal R X ℝ)} {m : SysModel R X ℝ} {u : X}
    {noise : Nat → Noise R ℝ} :
    ∀ {J : Nat} (o : Nat) {cl : Fin J → Cloud ℝ X} {Q : Fin J → Cloud ℝ X → Prop} (prev : X)
      (t : Nat),
      (∀ (k : Fin J) prev, ∃ c' last, Cloud.propose q m u (noise (o + k)).prop (cl k) prev =
        .ok ((true, c'), last) ∧ Q k c') →
      ∃ cl' last, proposeLoop q m u noise o (List.ofFn cl) prev t =
        .ok (true, List.ofFn cl', last, t + J) ∧ ∀ k, Q k (cl' k) := by
  intro J
  induction J with
  | zero =>
    intro o cl Q prev t _
    exact ⟨cl, prev, by simp [proposeLoop], fun k => k.elim0⟩
  | succ J ih =>
    intro o cl Q prev t h
    obtain ⟨c', last, h0, hQ⟩ := h 0 prev
    simp only [Fin.val_zero, Nat.add_zero] at h0
    obtain ⟨cl', last', h1, h2⟩ := ih (o + 1) (cl := fun k => cl k.succ)
      (Q := fun k => Q k.succ) last (t + 1) (fun k prev => by
        have := h k.succ prev
        rw [Fin.val_succ, show o + (k.1 + 1) = o + 1 + k by omega] at this
        exact this)
    refine ⟨Fin.cons c' cl', last', ?_, ?_⟩
    · simp only [List.ofFn_succ, proposeLoop, h0, Outcome.ok_bind, if_true, h1, Outcome.pure_eq,
        Fin.cons_zero, Fin.cons_succ]
      rw [show t + 1 + J = t + (J + 1) by omega]
    · intro k
      refine Fin.cases ?_ (fun k => ?_) k
      · exact hQ
      · exact h2 k

theorem reweightLoop_all {f : X → X → Outcome ℝ} :
    ∀ {J : Nat} {cl cl' : Fin J → Cloud ℝ X} {S : Fin J → ℝ},
      (∀ k, (cl k).reweight f = .ok ((true, cl' k), S k)) →
      reweightLoop f (List.ofFn cl) = .ok (List.ofFn cl', List.ofFn S) := by
  intro J
  induction J with
  | zero => intro cl cl' S _; simp [reweightLoop]
  | succ J ih =>
    intro cl cl' S h
    have hr := ih (cl := fun k => cl k.succ) (cl' := fun k => cl' k.succ)
      (S := fun k => S k.succ) fun k => h k.succ
    simp only [List.ofFn_succ, reweightLoop, h 0, Outcome.ok_bind, hr, Outcome.pure_eq]

/-- Mixture filter with `J` components that hold the particles `ps`, with component weights `W`,
before an update with time step `n`. -/
structure MReady (period : Nat) (threshold : ℝ) (n : Nat) (f : MixtureParticleFilter R X ℝ)
    (cl : Fin J → Cloud ℝ X) (W : Fin J → ℝ) (ps : Fin J → List (X × ℝ)) : Prop where
  comps : f.mix.comps = List.ofFn cl
  live : ∀ k, (cl k).Live (ps k)
  weights : f.mix.weights = List.ofFn W
  nonneg : ∀ k, 0 ≤ W k
  total : ∑ k, W k = 1
  hperiod : f.period = period
  hthreshold : f.threshold = threshold
  hscheme : f.scheme = .multinomial
  dynamic : f.dynamic = decide (period = 0)
  policy : ¬ (period = 0 ∧ threshold = 0) ∧ ¬ (period ≠ 0 ∧ threshold ≠ 0)
  step : f.timestep = n

section halves

variable {n : Nat} {f : MixtureParticleFilter R X ℝ} {cl : Fin J → Cloud ℝ X} {W : Fin J → ℝ}
  {ps : Fin J → List (X × ℝ)}

theorem MReady.pos (h : MReady period threshold n f cl W ps) : 0 < J := by
  rcases Nat.eq_zero_or_pos J with rfl | hJ
  · have := h.total
    simp at this
  · exact hJ

theorem mStatic_ready (hroot : IsRoot root) {noise : Nat → Noise R ℝ}
    (hus : ∀ k : Fin J, Uniforms (noise k).static) (h : MReady period threshold n f cl W ps) :
    ∃ f' cl' ps1, f.staticStep dflt root noise = .ok (true, f') ∧
      MReady period threshold n f' cl' W ps1 ∧ f'.proposal = f.proposal ∧
      ∀ k : Fin J, ResampledIf (0 < n ∧ period ∣ n) (selectors root (noise k).static (ps k).length) (ps k)
        (ps1 k) := by
  have hcond : (f.dynamic = false ∧ f.timestep % f.period = 0 ∧ f.timestep ≠ 0) ↔
      (0 < n ∧ period ∣ n) := by
    rw [h.dynamic, h.hperiod, h.step, Nat.dvd_iff_mod_eq_zero]
    constructor
    · rintro ⟨h1, h2, h3⟩; exact ⟨by omega, h2⟩
    · rintro ⟨h1, h2⟩
      refine ⟨?_, h2, by omega⟩
      simp only [decide_eq_false_iff_not]
      rintro rfl
      simp at h2
      omega
  by_cases hc : 0 < n ∧ period ∣ n
  · choose ps1 cl1 h1 h2 h3 h4 using fun k : Fin J =>
      Cloud.resample_live hroot.1 hroot.2 dflt (hus k) (h.live k)
    have he := eachComponent_all (step := fun i c =>
      c.resample dflt root f.scheme (noise i).static) 0 (cl := cl) (cl' := cl1) (fun k => by
        simp only [Nat.zero_add, h.hscheme]
        exact h1 k)
    refine ⟨{ f with mix := { f.mix with comps := List.ofFn cl1 } }, cl1, ps1, ?_,
      ⟨rfl, h2, h.weights, h.nonneg, h.total, h.hperiod, h.hthreshold, h.hscheme, h.dynamic,
        h.policy, h.step⟩, rfl, fun k => ⟨fun _ => h4 k, fun hn => absurd hc hn⟩⟩
    unfold staticStep
    rw [if_pos (hcond.2 hc), h.comps, he]
    rfl
  · refine ⟨f, cl, ps, ?_, h, rfl, fun k => .off hc⟩
    unfold staticStep
    rw [if_neg fun hn => hc (hcond.1 hn)]
    rfl

theorem mPropose_ready {q : Proposal R X ℝ} {m : SysModel R X ℝ} {Q T : X → X → X → ℝ}
    (hm : IsTransition m T) (hq : IsProposal q m Q) {u : X} {mv : R → X → X}
    (hd : ∀ r x prev, q.draw r (argsFor m x u) prev = .ok (mv r x)) (noise : Nat → Noise R ℝ)
    (hf : f.proposal = some q) (h : MReady period threshold n f cl W ps) :
    ∃ f' cl', f.proposalStep m u noise = .ok (true, f') ∧
      MReady period threshold (n + J) f' cl' W (fun k => moved mv (noise k).prop (ps k)) ∧
      f'.proposal = some q ∧ ∀ k, (cl' k).old = (ps k).map wrap := by
  obtain ⟨w, hw⟩ := hm.without
  have hdr : ∀ r x prev, Cloud.drawOne (some q) m u r x prev = .ok (mv r x) := by
    intro r x prev
    rw [drawOne_eq hw hq]
    exact hd r x prev
  have hone : ∀ (k : Fin J) prev, ∃ c' last,
      Cloud.propose (some q) m u (noise (0 + k)).prop (cl k) prev = .ok ((true, c'), last) ∧
        (c'.Live (moved mv (noise k).prop (ps k)) ∧ c'.old = (ps k).map wrap) := by
    intro k prev
    obtain ⟨ps', c', last, h1, h2, h3, _, hl, h5⟩ := Cloud.propose_live (q := some q) (u := u)
      (fun r x prev => ⟨_, hdr r x prev⟩) (noise (0 + k)).prop (h.live k) prev
    refine ⟨c', last, h1, ?_, h3⟩
    have e : ps' = moved mv (noise k).prop (ps k) := by
      apply List.ext_getElem
      · simp [moved, hl]
      · intro i i1 i2
        obtain ⟨⟨p, k1⟩, k2⟩ := h5 i (hl ▸ i1)
        rw [hdr, Outcome.ok.injEq, Nat.zero_add] at k1
        simp only [moved, List.getElem_mapIdx]
        rw [k1, ← k2]
    rw [← e]
    exact h2
  obtain ⟨cl', last, h1, h2⟩ := proposeLoop_all 0 f.sample f.timestep hone
  refine ⟨{ f with
      mix := { f.mix with comps := List.ofFn cl' }
      sample := last
      timestep := f.timestep + J }, cl', ?_,
    ⟨rfl, fun k => (h2 k).1, h.weights, h.nonneg, h.total, h.hperiod, h.hthreshold, h.hscheme,
      h.dynamic, h.policy, by rw [← h.step]⟩, hf, fun k => (h2 k).2⟩
  unfold proposalStep
  rw [hf, h.comps, h1]
  rfl

theorem mDynamic_ready (hroot : IsRoot root) {noise : Nat → Noise R ℝ}
    (hus : ∀ k : Fin J, Uniforms (noise k).dynamic) (h : MReady period threshold n f cl W ps) :
    ∃ f' cl' ps1, f.dynamicStep dflt root noise = .ok (true, f') ∧
      MReady period threshold n f' cl' W ps1 ∧ f'.proposal = f.proposal ∧
      ∀ k : Fin J, ResampledIf (effectiveSize (ps k) < threshold)
        (selectors root (noise k).dynamic (ps k).length) (ps k) (ps1 k) := by
  by_cases hp : period = 0
  · have hd : f.dynamic = true := by rw [h.dynamic]; simp [hp]
    choose ps1 cl1 h1 h2 h3 h4 h5 using fun k : Fin J =>
      Cloud.resampleIfDegenerate_live hroot.1 hroot.2 dflt (hus k) threshold (h.live k)
    have he := eachComponent_all (step := fun i c =>
      c.resampleIfDegenerate dflt root f.scheme f.threshold (noise i).dynamic) 0 (cl := cl)
      (cl' := cl1) (fun k => by
        simp only [Nat.zero_add, h.hscheme, h.hthreshold]
        exact h1 k)
    refine ⟨{ f with mix := { f.mix with comps := List.ofFn cl1 } }, cl1, ps1, ?_,
      ⟨rfl, h2, h.weights, h.nonneg, h.total, h.hperiod, h.hthreshold, h.hscheme, h.dynamic,
        h.policy, h.step⟩, rfl, fun k => ⟨h4 k, h5 k⟩⟩
    unfold dynamicStep
    rw [if_pos hd, h.comps, he]
    rfl
  · have hd : ¬ f.dynamic = true := by rw [h.dynamic]; simp [hp]
    have ht : threshold = 0 := by
      by_contra ht
      exact h.policy.2 ⟨hp, ht⟩
    refine ⟨f, cl, ps, ?_, h, rfl, fun k => .off ?_⟩
    · unfold dynamicStep
      rw [if_neg hd]
      rfl
    · rw [ht, not_lt]
      exact (one_div_pos.2 (Cloud.sumSq_pos (h.live k).dist)).le

/-- The component weights multiplied by `S` and divided by their total. -/
noncomputable def rescaled (W S : Fin J → ℝ) (k : Fin J) : ℝ := W k * S k / ∑ j, W j * S j

theorem sum_rescaled_pos {S : Fin J → ℝ} (h0 : ∀ k, 0 ≤ W k) (h1 : ∑ k, W k = 1)
    (hS : ∀ k, 0 < S k) : 0 < ∑ j, W j * S j := by
  obtain ⟨k, -, hk⟩ := Finset.exists_ne_zero_of_sum_ne_zero (by rw [h1]; exact one_ne_zero)
  exact Finset.sum_pos' (fun j _ => mul_nonneg (h0 j) (hS j).le)
    ⟨k, Finset.mem_univ _, mul_pos (lt_of_le_of_ne (h0 k) hk.symm) (hS k)⟩

theorem mWeight_ready {c : UpdateCall R X MV ℝ} {mm : Model X MV ℝ}
    (h : MReady period threshold n f cl W ps) {g : Fin J → Nat → ℝ}
    (hg : ∀ k, ∀ i < (ps k).length, 0 ≤ g k i)
    (hf : ∀ k i (hi : i < (ps k).length), Cloud.factor f.proposal c.sys c.u mm c.z c.s
      ((cl k).old[i]'((h.live k).old ▸ hi)).value (ps k)[i].1 = .ok (g k i))
    (hpos : ∀ k, 0 < ((ps k).mapIdx fun i a => a.2 * g k i).sum) :
    ∃ f' cl', f.weightStep c mm = .ok (true, f') ∧ f'.proposal = f.proposal ∧
      MReady period threshold n f' cl'
        (rescaled W fun k => ((ps k).mapIdx fun i a => a.2 * g k i).sum)
        (fun k => (ps k).mapIdx fun i a =>
          (a.1, a.2 * g k i / ((ps k).mapIdx fun i a => a.2 * g k i).sum)) := by
  let g' : Fin J → Nat → ℝ := fun k i => if i < (ps k).length then g k i else 0
  have hg' : ∀ k i, 0 ≤ g' k i := by
    intro k i
    simp only [g']
    split
    · exact hg k i ‹_›
    · exact le_rfl
  have htot : ∀ k, totalWeight (g' k) (ps k) = ((ps k).mapIdx fun i a => a.2 * g k i).sum := by
    intro k
    unfold totalWeight
    rw [← List.sum_ofFn]
    congr 1
    apply List.ext_getElem
    · simp
    · intro i i1 i2
      simp only [List.length_mapIdx] at i2
      simp [g']
  choose ps1 cl1 h1 h2 h3 h4 h5 using fun k : Fin J =>
    Cloud.reweight_live (h.live k) (hg' k) (f := Cloud.factor f.proposal c.sys c.u mm c.z c.s)
      (fun i hi => by rw [hf k i hi]; simp [g', hi]) (by rw [htot k]; exact hpos k)
  have e : ∀ k, ps1 k = (ps k).mapIdx fun i a =>
      (a.1, a.2 * g k i / ((ps k).mapIdx fun i a => a.2 * g k i).sum) := by
    intro k
    obtain ⟨hl, k3⟩ := h5 k
    apply List.ext_getElem
    · simp [hl]
    · intro i i1 i2
      have i3 : i < (ps k).length := hl ▸ i1
      rw [k3 i i3, htot]
      simp [g', i3]
  have hS0 : ∀ k, 0 < totalWeight (g' k) (ps k) := fun k => by rw [htot k]; exact hpos k
  have hloop := reweightLoop_all (f := Cloud.factor f.proposal c.sys c.u mm c.z c.s) h1
  have hJ := h.pos
  have hne : List.ofFn cl1 ≠ [] := by
    intro h0
    have := congrArg List.length h0
    simp at this
    omega
  have hz : List.zipWith (· * ·) (List.ofFn W) (List.ofFn fun k => totalWeight (g' k) (ps k)) =
      List.ofFn fun k => W k * totalWeight (g' k) (ps k) := by
    apply List.ext_getElem <;> simp
  have hnw := newWeights_eq (mix := { f.mix with comps := List.ofFn cl1 })
    (sums := List.ofFn fun k => totalWeight (g' k) (ps k))
    (by simp [h.weights]) (by simp) (by
      intro w hw
      rw [h.weights, List.mem_ofFn] at hw
      obtain ⟨k, rfl⟩ := hw
      exact h.nonneg k) (by
      intro w hw
      rw [List.mem_ofFn] at hw
      obtain ⟨k, rfl⟩ := hw
      exact (hS0 k).le) hne
  simp only [h.weights, hz] at hnw
  have hzn : ∀ w ∈ List.ofFn (fun k => W k * totalWeight (g' k) (ps k)), 0 ≤ w := by
    intro w hw
    rw [List.mem_ofFn] at hw
    obtain ⟨k, rfl⟩ := hw
    exact mul_nonneg (h.nonneg k) (hS0 k).le
  have hsum := sum_rescaled_pos h.nonneg h.total hS0
  have hset : Mixture.weightsSet { f.mix with comps := List.ofFn cl1 }
      (List.ofFn fun k => W k * totalWeight (g' k) (ps k)) =
      Mixture.renormalize ⟨f.mix.dim, List.ofFn cl1,
        List.ofFn fun k => W k * totalWeight (g' k) (ps k), f.mix.cum⟩ := by
    unfold Mixture.weightsSet
    rw [mapOutcome_mkProb_eq_ok.2 ⟨hzn, rfl⟩, Outcome.ok_bind, Mixture.testNotInit_ok hne,
      Outcome.ok_bind, cassert_true (by simp [Mixture.numComponents]), Outcome.ok_bind]
  rw [Mixture.renormalize_pos (by simp) hzn (by simpa [List.sum_ofFn] using hsum)] at hset
  have hmap : (List.ofFn fun k => W k * totalWeight (g' k) (ps k)).map
      (· / (List.ofFn fun k => W k * totalWeight (g' k) (ps k)).sum) =
      List.ofFn (rescaled W fun k => ((ps k).mapIdx fun i a => a.2 * g k i).sum) := by
    rw [List.map_ofFn, List.sum_ofFn]
    simp only [htot]
    rfl
  simp only [hmap] at hset
  simp only [htot] at hsum
  refine ⟨{ f with mix := ⟨f.mix.dim, List.ofFn cl1,
      List.ofFn (rescaled W fun k => ((ps k).mapIdx fun i a => a.2 * g k i).sum),
      runningSums 0 (List.ofFn (rescaled W fun k => ((ps k).mapIdx fun i a => a.2 * g k i).sum))⟩ },
    cl1, ?_, rfl, ⟨rfl, fun k => ?_, rfl, fun k => ?_, ?_, h.hperiod, h.hthreshold,
      h.hscheme, h.dynamic, h.policy, h.step⟩⟩
  · unfold weightStep
    rw [h.comps, hloop]
    simp only [Outcome.ok_bind]
    simp only [h.weights] at hset
    simp only [h.weights, hnw, Outcome.ok_bind, hset, Outcome.pure_eq]
  · rw [← e k]
    exact h2 k
  · exact div_nonneg (mul_nonneg (h.nonneg k) (hpos k).le) hsum.le
  · unfold rescaled
    rw [← Finset.sum_div]
    exact div_self hsum.ne'

end halves

end BFL.Props
