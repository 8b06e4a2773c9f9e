import Verif.Lemmas.MixtureLimit

/-!
# Runs of the mixture filters on random particle sets
-/

set_option linter.unusedSectionVars false

namespace BFL.Props

open MeasureTheory ProbabilityTheory Filter Spec MCPdf MixtureParticleFilter
open scoped ENNReal Topology

variable {R X MV Ω : Type} [MeasurableSpace X] [MeasurableSpace R] [MeasurableSpace Ω]
  {dflt : X} {period : Nat} {P : Measure Ω} [IsProbabilityMeasure P] {J : Nat}

theorem mRun_snoc (step : (Nat → Noise R ℝ) → UpdateCall R X MV ℝ → MixtureParticleFilter R X ℝ →
      Outcome (Bool × MixtureParticleFilter R X ℝ)) (a : (Nat → Noise R ℝ) × UpdateCall R X MV ℝ)
    {f2 f3 : MixtureParticleFilter R X ℝ} (h2 : step a.1 a.2 f2 = .ok (true, f3)) :
    ∀ (l : List ((Nat → Noise R ℝ) × UpdateCall R X MV ℝ)) {f1 : MixtureParticleFilter R X ℝ},
    MixtureParticleFilter.run step l f1 = .ok (true, f2) →
      MixtureParticleFilter.run step (l ++ [a]) f1 = .ok (true, f3)
  | [], f1, h => by
    simp only [MixtureParticleFilter.run, Outcome.ok.injEq, Prod.mk.injEq, true_and] at h
    subst h
    simp only [List.nil_append, MixtureParticleFilter.run, h2, Outcome.ok_bind, Outcome.pure_eq, Bool.and_self]
  | b :: l, f1, h => by
    simp only [MixtureParticleFilter.run, Outcome.bind_eq_ok, Outcome.pure_eq, Outcome.ok.injEq,
      Prod.mk.injEq, Prod.exists, Bool.and_eq_true] at h
    obtain ⟨b1, g, h3, b2, g', h4, ⟨rfl, rfl⟩, rfl⟩ := h
    simp only [List.cons_append, MixtureParticleFilter.run, h3, Outcome.ok_bind,
      mRun_snoc step a h2 l h4, Outcome.pure_eq, Bool.and_self]

theorem mMake_ready {dims : MCPdf ℝ X → Nat} {prior : Mixture ℝ (MCPdf ℝ X)}
    {q : Option (Proposal R X ℝ)} {threshold : ℝ} {f : MixtureParticleFilter R X ℝ}
    {cs : Fin J → MCPdf ℝ X} {W : Fin J → ℝ} {ps : Fin J → List (X × ℝ)} (hb : Built dims prior)
    (ha : ∀ p ∈ prior.comps, Assigned dflt p) (hc : prior.comps = List.ofFn cs)
    (hps : ∀ k, Holds (cs k) (ps k)) (hW : prior.weights = List.ofFn W) (hW1 : ∑ k, W k = 1)
    (h : MixtureParticleFilter.make dflt prior q period threshold .multinomial = .ok f) :
    MReady period threshold 0 f (fun k => freshCloud (cs k)) W ps ∧ f.proposal = q := by
  unfold MixtureParticleFilter.make at h
  simp only [Outcome.bind_eq_ok, Outcome.pure_eq, Outcome.ok.injEq] at h
  obtain ⟨post, h1, dyn, h2, rfl⟩ := h
  obtain ⟨hne, rfl⟩ := copy_of_tol hb.tol h1
  unfold ParticleFilter.policy at h2
  simp only [Outcome.bind_eq_ok, Outcome.pure_eq, Outcome.ok.injEq] at h2
  obtain ⟨_, h4, _, h5, rfl⟩ := h2
  rw [cassert_eq_ok] at h4 h5
  refine ⟨⟨?_, fun k => ?_, hW, fun k => ?_, hW1, rfl, rfl, rfl, rfl, ⟨h4, h5⟩, rfl⟩, rfl⟩
  · simp only [hc, List.map_ofFn]
    rfl
  · have hm : cs k ∈ post.comps := by
      rw [hc, List.mem_ofFn]; exact ⟨k, rfl⟩
    obtain ⟨ws, hg⟩ := (ha _ hm).good
    have hs : (cs k).samples = (ps k).map wrap := hps k
    have hws : ws = (ps k).map Prod.snd := by
      have := hg.1
      rw [hs, List.map_map] at this
      have h3 : ((ps k).map Prod.snd).map some = ws.map some := by
        rw [← this, List.map_map]
        rfl
      exact (List.map_injective_iff.2 (Option.some_injective _) h3).symm
    subst hws
    refine ⟨hs, hg, ?_, ?_⟩ <;> simp [freshCloud, listGet, hs]
  · have : W k ∈ post.weights := by
      rw [hW, List.mem_ofFn]; exact ⟨k, rfl⟩
    exact hb.tol.2.1 _ this

/-- Total weight of the particles after a step, before normalisation. -/
noncomputable def stepTotal (static : Prop) (mv : R → X → X) (G : X → X → ℝ) {N : Nat}
    (s : Fin N → X × ℝ) (v : Fin N → ℝ × R × ℝ) : ℝ :=
  ∑ i, (prepared static s v i).2 * G (prepared static s v i).1
    (mv (v i).2.1 (prepared static s v i).1)

/-- One update with resampling on components with `N` particles each. -/
theorem mStep_cloud {step : (Nat → Noise R ℝ) → UpdateCall R X MV ℝ →
      MixtureParticleFilter R X ℝ → Outcome (Bool × MixtureParticleFilter R X ℝ)} {threshold : ℝ}
    {good : MixtureParticleFilter R X ℝ → Prop} {c : UpdateCall R X MV ℝ} {mv : R → X → X}
    {G : X → X → ℝ} (hG0 : ∀ a b, 0 ≤ G a b)
    (hok : MStepRuns J kthRoot step period threshold good c mv G) {N n : Nat}
    {s : Fin J → Fin N → X × ℝ} {f : MixtureParticleFilter R X ℝ} {cl : Fin J → Cloud ℝ X}
    {W : Fin J → ℝ} (hr : MReady period threshold n f cl W fun k => List.ofFn (s k)) (hg : good f)
    {v : Nat → Nat → ℝ × R × ℝ} (hus : ∀ k : Fin J, Uniforms fun i => (v k i).1)
    (hud : ∀ k : Fin J, Uniforms fun i => (v k i).2.2) {static : Prop}
    (hst : static ↔ c.sys.isSome = true ∧ 0 < n ∧ period ∣ n)
    (hpos : ∀ k : Fin J, 0 < stepTotal static mv G (s k) fun i => v k i) :
    ∃ f' cl', step (fun k => ⟨fun i => (v k i).2.1, fun i => (v k i).1, fun i => (v k i).2.2⟩) c f =
        .ok (true, f') ∧ good f' ∧
      MReady period threshold (n + if c.sys.isSome = true then J else 0) f' cl'
        (rescaled W fun k : Fin J => stepTotal static mv G (s k) fun i => v k i)
        fun k : Fin J => List.ofFn (filterStep static (c.meas.isSome = true) threshold mv G
          (s k, fun i => v k i)) := by
  have h01 := fun k => normalised_ofFn (hr.live k).dist
  obtain ⟨ps1, k1, k2⟩ := hok
    (noise := fun k => ⟨fun i => (v k i).2.1, fun i => (v k i).1, fun i => (v k i).2.2⟩) hr hg hus hud
  simp only [List.length_ofFn] at k1 k2
  have e1 : ps1 = fun k : Fin J => List.ofFn (prepared static (s k) fun i => v k i) :=
    funext fun k => resampledIf_eq (h01 k).1 (h01 k).2 (D := {_c | static}) hst (hus k) (k1 k)
  subst e1
  simp only [advanceTotal_ofFn, advance_ofFn] at k2
  obtain ⟨f', cl', ps2, l1, l2, l3, l4⟩ := k2 hpos
  have hadv : ∀ k : Fin J, (∀ i, 0 ≤ (advanced mv G (prepared static (s k) fun i => v k i)
        (fun i : Fin N => (v k i).2.1) i).2) ∧
      ∑ i, (advanced mv G (prepared static (s k) fun i => v k i)
        (fun i : Fin N => (v k i).2.1) i).2 = 1 := by
    intro k
    have hq0 : ∀ i, 0 ≤ (prepared static (s k) (fun i => v k i) i).2 := resampleIf_nonneg (h01 k).1 _
    refine ⟨fun i => div_nonneg (mul_nonneg (hq0 i) (hG0 _ _)) (hpos k).le, ?_⟩
    unfold advanced
    rw [← Finset.sum_div]
    exact div_self (hpos k).ne'
  have e2 : ps2 = fun k : Fin J => List.ofFn (filterStep static (c.meas.isSome = true) threshold mv G
      (s k, fun i => v k i)) :=
    funext fun k => resampledIf_eq (hadv k).1 (hadv k).2
      (D := degenerate (c.meas.isSome = true) threshold) (by
        unfold degenerate
        rw [effectiveSize_ofFn]
        exact Iff.rfl) (hud k) (l4 k)
  subst e2
  exact ⟨f', cl', l1, l2, l3⟩

/-- Whether resampling is due at update `t` of a filter with `J` components: every update with a
system model advances the time step by `J`. -/
def mDue (J period : Nat) (c : Nat → UpdateCall R X MV ℝ) (t : Nat) : Prop :=
  (c t).sys.isSome = true ∧ 0 < J * ticks c t ∧ period ∣ J * ticks c t

/-- The update number `t` as a function of the particles of one component and random inputs. -/
noncomputable def mStepFunction (J period : Nat) (c : Nat → UpdateCall R X MV ℝ)
    (mv : Nat → R → X → X) (G : Nat → X → X → ℝ) (threshold : ℝ) (N t : Nat)
    (z : (Fin N → X × ℝ) × (Fin N → ℝ × R × ℝ)) : Fin N → X × ℝ :=
  filterStep (mDue J period c t) ((c t).meas.isSome = true) threshold (mv t) (G t) z

/-- The particles of one component after `t` updates. -/
noncomputable def mParticlesAt (J period : Nat) (c : Nat → UpdateCall R X MV ℝ)
    (mv : Nat → R → X → X) (G : Nat → X → X → ℝ) (threshold : Nat → ℝ) (x : Nat → Ω → X)
    (ρ : Nat → Nat → Ω → ℝ × R × ℝ) (t N : Nat) : Ω → Fin N → X × ℝ :=
  driven (mStepFunction J period c mv G (threshold N) N) (fun x i => (x i, 1 / (N : ℝ))) x ρ t

/-- The component weights after `t` updates. -/
noncomputable def mWeightsAt (period : Nat) (c : Nat → UpdateCall R X MV ℝ)
    (mv : Nat → R → X → X) (G : Nat → X → X → ℝ) (threshold : Nat → ℝ) (x : Fin J → Nat → Ω → X)
    (ρ : Nat → Nat → Nat → Ω → ℝ × R × ℝ) (w : Fin J → ℝ) : Nat → Nat → Ω → Fin J → ℝ
  | 0, _, _ => w
  | t + 1, N, ω => rescaled (mWeightsAt period c mv G threshold x ρ w t N ω) fun k =>
      stepTotal (mDue J period c t) (mv t) (G t)
        (mParticlesAt J period c mv G threshold (x k) (ρ k) t N ω) fun i => ρ k t i ω

theorem near_rescaled {F E : Fin J → Nat → Ω → ℝ} {a e : Fin J → ℝ} (hF : ∀ k, TendsTo P (F k) (a k))
    (hE : ∀ k, TendsTo P (E k) (e k)) (h : 0 < ∑ j, a j * e j) (k : Fin J) :
    TendsTo P (fun N ω => rescaled (fun k => F k N ω) (fun k => E k N ω) k) (rescaled a e k) := by
  have hc : ContinuousAt (fun v : Fin J ⊕ Fin J → ℝ =>
      rescaled (fun k => v (.inl k)) (fun k => v (.inr k)) k) (Sum.elim a e) := by
    unfold rescaled
    have c1 : Continuous fun v : Fin J ⊕ Fin J → ℝ => v (.inl k) * v (.inr k) := by fun_prop
    have c2 : Continuous fun v : Fin J ⊕ Fin J → ℝ => ∑ j, v (.inl j) * v (.inr j) := by fun_prop
    exact ContinuousAt.div c1.continuousAt c2.continuousAt (by simpa using h.ne')
  have hj : ∀ i, TendsTo P (Sum.elim F E i) (Sum.elim a e i) := by
    rintro (j | j)
    · exact hF j
    · exact hE j
  have hn := TendsTo.comp hj hc
  simp only [Sum.elim_inl, Sum.elim_inr] at hn
  exact hn

theorem near_dot {F E : Fin J → Nat → Ω → ℝ} {a e : Fin J → ℝ} (hF : ∀ k, TendsTo P (F k) (a k))
    (hE : ∀ k, TendsTo P (E k) (e k)) :
    TendsTo P (fun N ω => ∑ k, F k N ω * E k N ω) (∑ k, a k * e k) := by
  have hc : ContinuousAt (fun v : Fin J ⊕ Fin J → ℝ => ∑ k, v (.inl k) * v (.inr k))
      (Sum.elim a e) := by
    have c2 : Continuous fun v : Fin J ⊕ Fin J → ℝ => ∑ j, v (.inl j) * v (.inr j) := by fun_prop
    exact c2.continuousAt
  have hj : ∀ i, TendsTo P (Sum.elim F E i) (Sum.elim a e i) := by
    rintro (j | j)
    · exact hF j
    · exact hE j
  have hn := TendsTo.comp hj hc
  simp only [Sum.elim_inl, Sum.elim_inr] at hn
  exact hn

theorem average_flattened (φ : X → ℝ) (W : Fin J → ℝ) {N : Nat} (s : Fin J → Fin N → X × ℝ) :
    averageOver φ (flattened (List.ofFn W) (List.ofFn fun k => List.ofFn (s k))) =
      ∑ k, W k * ∑ i, (s k i).2 * φ (s k i).1 := by
  unfold averageOver
  rw [flattened_sum φ]
  have : List.zipWith (· * ·) (List.ofFn W)
      ((List.ofFn fun k => List.ofFn (s k)).map (Cloud.tot φ)) =
      List.ofFn fun k => W k * ∑ i, (s k i).2 * φ (s k i).1 := by
    apply List.ext_getElem
    · simp
    · intro i h1 h2
      simp [Cloud.tot, List.map_ofFn, List.sum_ofFn]
  rw [this, List.sum_ofFn]

theorem integral_mixtureLaw {w : Fin J → ℝ} (hw : ∀ k, 0 ≤ w k) {μ : Fin J → Measure X} {φ : X → ℝ}
    (hi : ∀ k, Integrable φ (μ k)) : ∫ y, φ y ∂(mixtureLaw w μ) = ∑ k, w k * ∫ y, φ y ∂(μ k) := by
  unfold mixtureLaw
  rw [integral_finsetSum_measure fun k _ => (hi k).smul_measure ENNReal.ofReal_ne_top]
  exact Finset.sum_congr rfl fun k _ => by
    rw [integral_smul_measure, ENNReal.toReal_ofReal (hw k), smul_eq_mul]

theorem units_ae {ρ : Nat → Nat → Ω → ℝ × R × ℝ} {x : Nat → Ω → X} {μ : Measure X}
    {ν : Nat → Measure R} [∀ t, IsProbabilityMeasure (ν t)]
    (h : IndependentDraws P x ρ μ fun t => ((volume : Measure ℝ).restrict (Set.Ioc 0 1)).prod
      ((ν t).prod ((volume : Measure ℝ).restrict (Set.Ioc 0 1)))) :
    ∀ᵐ ω ∂P, ∀ t i, (0 < (ρ t i ω).1 ∧ (ρ t i ω).1 ≤ 1) ∧
      (0 < (ρ t i ω).2.2 ∧ (ρ t i ω).2.2 ≤ 1) := by
  rw [ae_all_iff]
  intro t
  rw [ae_all_iff]
  intro i
  have hu : IsProbabilityMeasure ((volume : Measure ℝ).restrict (Set.Ioc (0 : ℝ) 1)) :=
    ⟨by simp⟩
  have hin : ∀ᵐ u ∂((volume : Measure ℝ).restrict (Set.Ioc (0 : ℝ) 1)), 0 < u ∧ u ≤ 1 :=
    ae_restrict_mem measurableSet_Ioc
  have e1 : P.map (fun ω => (ρ t i ω).1) = (volume : Measure ℝ).restrict (Set.Ioc 0 1) := by
    have := congrArg (fun m => Measure.map Prod.fst m) (h.law_r t i)
    beta_reduce at this
    rw [Measure.map_map measurable_fst (h.measurable_r t i), Measure.map_fst_prod, measure_univ,
      one_smul] at this
    exact this
  have e2 : P.map (fun ω => (ρ t i ω).2.2) = (volume : Measure ℝ).restrict (Set.Ioc 0 1) := by
    have := congrArg (fun m => Measure.map (Prod.snd ∘ Prod.snd) m) (h.law_r t i)
    beta_reduce at this
    rw [Measure.map_map (measurable_snd.comp measurable_snd) (h.measurable_r t i),
      ← Measure.map_map measurable_snd measurable_snd, Measure.map_snd_prod, measure_univ,
      one_smul, Measure.map_snd_prod, measure_univ, one_smul] at this
    exact this
  rw [← e1] at hin
  have i1 := ae_of_ae_map (measurable_fst.comp (h.measurable_r t i)).aemeasurable hin
  rw [e1, ← e2] at hin
  have i2 := ae_of_ae_map
    ((measurable_snd.comp measurable_snd).comp (h.measurable_r t i)).aemeasurable hin
  filter_upwards [i1, i2] with ω j1 j2
  exact ⟨j1, j2⟩

/-- The updates succeed, leave averages near the exact ones and component weights near the
probabilities of the components. -/
theorem mConverges {x : Fin J → Nat → Ω → X} {ρ : Nat → Nat → Nat → Ω → ℝ × R × ℝ}
    {μ : Fin J → Measure X} {ν : Nat → Measure R} [∀ t, IsProbabilityMeasure (ν t)]
    (h : ∀ k : Fin J, IndependentDraws P (x k) (ρ k) (μ k) fun t =>
      ((volume : Measure ℝ).restrict (Set.Ioc 0 1)).prod
        ((ν t).prod ((volume : Measure ℝ).restrict (Set.Ioc 0 1))))
    {step : (Nat → Noise R ℝ) → UpdateCall R X MV ℝ → MixtureParticleFilter R X ℝ →
      Outcome (Bool × MixtureParticleFilter R X ℝ)} {good : MixtureParticleFilter R X ℝ → Prop}
    {c : Nat → UpdateCall R X MV ℝ} {κ : Nat → Kernel X X} {ℓ : Nat → X → ℝ≥0∞} {T : Nat}
    {threshold : Nat → ℝ}
    (hc : ∀ t < T, ∃ mv G, StepLaw mv G (ν t) (κ t) (ℓ t) ∧
      ∀ N, MStepRuns J kthRoot step period (threshold N) good (c t) mv G)
    (hp : ∀ k, Possible κ ℓ (μ k) T) {w : Fin J → ℝ} (hw1 : ∑ k, w k = 1)
    {prior : Nat → Ω → Mixture ℝ (MCPdf ℝ X)}
    {cs : Nat → Ω → Fin J → MCPdf ℝ X} {f : Nat → Ω → MixtureParticleFilter R X ℝ}
    {q : Option (Proposal R X ℝ)} (hb : ∀ N ω, 0 < N → ∃ dims, Built dims (prior N ω))
    (ha : ∀ N ω, 0 < N → ∀ p ∈ (prior N ω).comps, Assigned dflt p)
    (hcs : ∀ N ω, 0 < N → (prior N ω).comps = List.ofFn (cs N ω))
    (hprior : ∀ N ω, 0 < N → ∀ k,
      Holds (cs N ω k) ((List.range N).map fun i => (x k i ω, 1 / (N : ℝ))))
    (hw : ∀ N ω, 0 < N → (prior N ω).weights = List.ofFn w)
    (hf : ∀ N ω, 0 < N → MixtureParticleFilter.make dflt (prior N ω) q period (threshold N)
      .multinomial = .ok (f N ω))
    (hgood : ∀ g : MixtureParticleFilter R X ℝ, g.proposal = q → good g)
    {φ : X → ℝ} (hφ : Measurable φ) (hint : ∀ k, Integrable φ (exactFilter κ ℓ (μ k) T)) {ε : ℝ}
    (hε : 0 < ε) :
    Rare P fun N => {ω | ¬ ∃ f' pss W, MixtureParticleFilter.run step
        ((List.range T).map fun t => (fun k => ⟨fun i => (ρ k t i ω).2.1, fun i => (ρ k t i ω).1,
          fun i => (ρ k t i ω).2.2⟩, c t)) (f N ω) = .ok (true, f') ∧ HoldsAll f' pss ∧
        f'.mix.weights = List.ofFn W ∧
        |averageOver φ (flattened f'.mix.weights pss) -
          ∫ y, φ y ∂(exactFilter κ ℓ (mixtureLaw w μ) T)| < ε ∧
        ∀ k : Fin J, |W k - sourceProbability κ ℓ w μ T k| < ε} := by
  have hw0 : ∀ k, 0 ≤ w k := by
    obtain ⟨ω⟩ : Nonempty Ω := by
      by_contra hn
      rw [not_nonempty_iff] at hn
      exact IsProbabilityMeasure.ne_zero P (Measure.eq_zero_of_isEmpty P)
    intro k
    obtain ⟨dims, hbd⟩ := hb 1 ω one_pos
    have hm := hbd.tol.2.1
    rw [hw 1 ω one_pos] at hm
    exact hm _ (List.mem_ofFn.2 ⟨k, rfl⟩)
  have hall : ∀ t, ∃ (mv : R → X → X) (G : X → X → ℝ), (Measurable fun p : R × X => mv p.1 p.2) ∧
      (Measurable fun p : X × X => G p.1 p.2) ∧
      (t < T → StepLaw mv G (ν t) (κ t) (ℓ t) ∧
        ∀ N, MStepRuns J kthRoot step period (threshold N) good (c t) mv G) := by
    intro t
    by_cases ht : t < T
    · obtain ⟨mv, G, h1, h2⟩ := hc t ht
      exact ⟨mv, G, h1.hmv, h1.hG, fun _ => ⟨h1, h2⟩⟩
    · exact ⟨fun _ a => a, fun _ _ => 1, measurable_snd, measurable_const,
        fun ht' => absurd ht' ht⟩
  choose mv G hmv hG hstep using hall
  have hΦ : ∀ N t, Measurable (mStepFunction J period c mv G (threshold N) N t) := fun N t =>
    measurable_filterStep (hmv t) (hG t) _ _ _
  have hinit : ∀ N : Nat, Measurable fun (x : Fin N → X) i => (x i, 1 / (N : ℝ)) := fun N =>
    measurable_pi_lambda _ fun i => (measurable_pi_apply i).prodMk measurable_const
  have hnull : Rare P fun _ => {ω | ¬ ∀ k : Fin J, ∀ t i, (0 < (ρ k t i ω).1 ∧ (ρ k t i ω).1 ≤ 1) ∧
      (0 < (ρ k t i ω).2.2 ∧ (ρ k t i ω).2.2 ≤ 1)} :=
    Rare.of_ae fun _ => ae_all_iff.2 fun k => units_ae (h k)
  have key : ∀ t ≤ T, (∀ k, Approx P (fun N => mParticlesAt J period c mv G threshold (x k) (ρ k) t N)
        (exactFilter κ ℓ (μ k) t)) ∧
      (∀ k, TendsTo P (fun N ω => mWeightsAt period c mv G threshold x ρ w t N ω k)
        (sourceProbability κ ℓ w μ t k)) ∧
      Rare P fun N => {ω | ¬ ∃ f' cl, MixtureParticleFilter.run step
        ((List.range t).map fun t => (fun k => ⟨fun i => (ρ k t i ω).2.1, fun i => (ρ k t i ω).1,
          fun i => (ρ k t i ω).2.2⟩, c t)) (f N ω) = .ok (true, f') ∧ good f' ∧
        MReady period (threshold N) (J * ticks c t) f' cl
          (mWeightsAt period c mv G threshold x ρ w t N ω) fun k =>
          List.ofFn (mParticlesAt J period c mv G threshold (x k) (ρ k) t N ω)} := by
    intro t
    induction t with
    | zero =>
      intro _
      refine ⟨fun k => approx_initial (h k), fun k => ?_, Rare.empty.mono ?_⟩
      · rw [sourceProbability_zero hw1]
        exact TendsTo.const _
      filter_upwards [eventually_gt_atTop 0] with N hN ω hω
      apply hω
      obtain ⟨dims, hbd⟩ := hb N ω hN
      obtain ⟨k1, k2⟩ := mMake_ready hbd (ha N ω hN) (hcs N ω hN) (hprior N ω hN)
        (hw N ω hN) hw1 (hf N ω hN)
      have e : (fun k : Fin J => List.ofFn
          (mParticlesAt J period c mv G threshold (x k) (ρ k) 0 N ω)) =
          fun k : Fin J => (List.range N).map fun i => (x k i ω, 1 / (N : ℝ)) := by
        funext k
        apply List.ext_getElem <;> simp [mParticlesAt, driven]
      rw [e]
      exact ⟨f N ω, _, rfl, hgood _ k2, k1⟩
    | succ t ih =>
      intro ht
      obtain ⟨a, n, b⟩ := ih (by omega)
      obtain ⟨hl, hr⟩ := hstep t (by omega)
      have hd := fun k N => driven_law (h k) (hΦ N) (hinit N) t
      have hs := fun k => (a k).filterStep (V := fun N ω (i : Fin N) => ρ k t i ω)
        (fun N => (hd k N).2.1) (fun N => (hd k N).2.2) hl (hp k t (by omega)).1
        (hp k t (by omega)).2 (mDue J period c t) ((c t).meas.isSome = true) threshold
      have hv := fun k => (a k).evidence (V := fun N ω (i : Fin N) => ρ k t i ω)
        (fun N => (hd k N).2.1) (fun N => (hd k N).2.2) hl (hp k t (by omega)).2 (mDue J period c t)
      refine ⟨fun k => (hs k).1, fun k => ?_, ?_⟩
      · rw [sourceProbability_succ hw0 hw1 hp (by omega)]
        refine near_rescaled n hv ?_ k
        have hd := rescaled_dist hw0 hw1 (S := fun k => evidenceUpTo κ ℓ (μ k) t)
          fun k => evidenceUpTo_pos (hp k) (by omega)
        exact sum_rescaled_pos hd.1 hd.2 fun k =>
          ENNReal.toReal_pos (hp k t (by omega)).1 (hp k t (by omega)).2
      · refine ((b.union (Rare.iUnion fun k => (hs k).2)).union hnull).mono
          (Eventually.of_forall fun N ω hω => ?_)
        by_contra hcon
        simp only [Set.mem_union, Set.mem_iUnion, Set.mem_ofPred_eq, not_or, not_exists,
          not_not] at hcon
        obtain ⟨⟨b1, c2⟩, c3⟩ := hcon
        push Not at b1
        obtain ⟨f1, cl1, r1, r2, r3⟩ := b1
        apply hω
        obtain ⟨f2, cl2, k1, k2, k3⟩ := mStep_cloud hl.nonneg (hr N) r3 r2
          (v := fun k i => ρ k t i ω) (fun k i => (c3 k t i).1) (fun k i => (c3 k t i).2)
          (static := mDue J period c t) Iff.rfl c2
        refine ⟨f2, cl2, ?_, k2, ?_⟩
        · rw [List.range_succ, List.map_append]
          exact mRun_snoc step (_, c t) k1 _ r1
        · have e : J * ticks c (t + 1) = J * ticks c t + if (c t).sys.isSome = true then J else 0 := by
            simp only [ticks]
            split <;> ring
          rw [e]
          exact k3
  obtain ⟨a, n, b⟩ := key T le_rfl
  have hav := near_dot n (E := fun k N ω =>
      ∑ i, (mParticlesAt J period c mv G threshold (x k) (ρ k) T N ω i).2 *
        φ (mParticlesAt J period c mv G threshold (x k) (ρ k) T N ω i).1)
    (e := fun k => ∫ y, φ y ∂(exactFilter κ ℓ (μ k) T)) fun k ε hε => (a k).average hφ (hint k) hε
  refine ((b.union (hav ε hε)).union (Rare.iUnion fun k => n k ε hε)).mono
    (Eventually.of_forall fun N ω hω => ?_)
  by_contra hcon
  simp only [Set.mem_union, Set.mem_iUnion, Set.mem_ofPred_eq, not_or, not_exists, not_le] at hcon
  obtain ⟨⟨c1, c2⟩, c3⟩ := hcon
  push Not at c1
  obtain ⟨f1, cl1, r1, _, r3⟩ := c1
  refine hω ⟨f1, List.ofFn fun k => List.ofFn
    (mParticlesAt J period c mv G threshold (x k) (ρ k) T N ω), _, r1, ?_, r3.weights, ?_, c3⟩
  · unfold HoldsAll
    rw [r3.comps, List.forall₂_iff_get]
    refine ⟨by simp, fun i h1 h2 => ?_⟩
    simp only [List.get_eq_getElem, List.getElem_ofFn]
    exact (r3.live _).samples
  · have hd := rescaled_dist hw0 hw1 (S := fun k => evidenceUpTo κ ℓ (μ k) T)
      fun k => evidenceUpTo_pos (hp k) le_rfl
    rw [← sourceProbability_eq] at hd
    rw [r3.weights, average_flattened, exactFilter_mixtureLaw hw0 hw1
      (fun t ht => (hstep t ht).1.hℓ) hp T le_rfl, integral_mixtureLaw hd.1 hint]
    exact c2

end BFL.Props
