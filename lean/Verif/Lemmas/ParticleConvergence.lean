import Verif.Spec.ExactFilter
import Mathlib.Probability.StrongLaw

/-!
# Independent weighted trajectories

`traj` follows one particle through a sequence of moves and multiplies its weight factors.
-/

set_option linter.unusedSectionVars false

namespace BFL

open MeasureTheory ProbabilityTheory Spec Filter
open scoped ENNReal Topology

variable {X R Ω : Type} [MeasurableSpace X] [MeasurableSpace R] [MeasurableSpace Ω]

/-- Value and unnormalised weight of a particle after `t` steps. -/
def traj (mv : Nat → R → X → X) (G : Nat → X → X → ℝ) (x : X) (ρ : Nat → R) : Nat → X × ℝ
  | 0 => (x, 1)
  | t + 1 =>
    let p := traj mv G x ρ t
    (mv t (ρ t) p.1, p.2 * G t p.1 (mv t (ρ t) p.1))

variable {P : Measure Ω} [IsProbabilityMeasure P] {x : Nat → Ω → X} {r : Nat → Nat → Ω → R}
  {μ : Measure X} {ν : Nat → Measure R} {mv : Nat → R → X → X} {G : Nat → X → X → ℝ}

/-- The state of particle `i` at time `t` as a random variable. -/
def pstate (mv : Nat → R → X → X) (G : Nat → X → X → ℝ) (x : Nat → Ω → X) (r : Nat → Nat → Ω → R)
    (i t : Nat) (ω : Ω) : X × ℝ := traj mv G (x i ω) (fun t => r t i ω) t

/-- The sources of randomness of particle `i` up to time `t`. -/
def sources (i t : Nat) : Set (Nat ⊕ Nat × Nat) :=
  {k | k = .inl i ∨ ∃ s < t, k = .inr (s, i)}

/-- The σ-algebra of one source. -/
abbrev sourceAlg (x : Nat → Ω → X) (r : Nat → Nat → Ω → R) : Nat ⊕ Nat × Nat → MeasurableSpace Ω :=
  Sum.elim (fun i => MeasurableSpace.comap (x i) inferInstance)
    fun k : Nat × Nat => MeasurableSpace.comap (r k.1 k.2) inferInstance

theorem sourceAlg_le (h : IndependentDraws P x r μ ν) (k : Nat ⊕ Nat × Nat) :
    sourceAlg x r k ≤ ‹MeasurableSpace Ω› := by
  cases k with
  | inl i => exact (h.measurable_x i).comap_le
  | inr k => exact (h.measurable_r k.1 k.2).comap_le

theorem sources_mono (i t : Nat) : sources i t ⊆ sources i (t + 1) := by
  rintro k (h | ⟨s, hs, h⟩)
  · exact Or.inl h
  · exact Or.inr ⟨s, by omega, h⟩

/-- One step as a function of the random input and the state. -/
def stepFn (mv : Nat → R → X → X) (G : Nat → X → X → ℝ) (t : Nat) (p : (X × ℝ) × R) : X × ℝ :=
  (mv t p.2 p.1.1, p.1.2 * G t p.1.1 (mv t p.2 p.1.1))

theorem measurable_stepFn (hmv : ∀ t, Measurable fun p : R × X => mv t p.1 p.2)
    (hG : ∀ t, Measurable fun p : X × X => G t p.1 p.2) (t : Nat) :
    Measurable (stepFn mv G t) := by
  have h1 : Measurable fun p : (X × ℝ) × R => mv t p.2 p.1.1 :=
    (hmv t).comp (measurable_snd.prodMk (measurable_fst.comp measurable_fst))
  refine h1.prodMk ?_
  exact (measurable_snd.comp measurable_fst).mul
    ((hG t).comp ((measurable_fst.comp measurable_fst).prodMk h1))

theorem measurable_pstate (hmv : ∀ t, Measurable fun p : R × X => mv t p.1 p.2)
    (hG : ∀ t, Measurable fun p : X × X => G t p.1 p.2) (i : Nat) : ∀ t,
    Measurable[⨆ k ∈ sources i t, sourceAlg x r k] (pstate mv G x r i t)
  | 0 => by
    have h1 : Measurable[⨆ k ∈ sources i 0, sourceAlg x r k] (x i) := by
      apply Measurable.mono (comap_measurable (x i)) _ le_rfl
      exact le_iSup₂_of_le (f := fun k (_ : k ∈ sources i 0) => sourceAlg x r k) (.inl i)
        (Or.inl rfl) le_rfl
    exact @Measurable.prodMk _ _ _ _ _ (_) _ _ h1 (@measurable_const _ _ _ (_) _)
  | t + 1 => by
    have ih := measurable_pstate hmv hG i t
    have h1 : Measurable[⨆ k ∈ sources i (t + 1), sourceAlg x r k] (pstate mv G x r i t) :=
      Measurable.mono ih (biSup_mono (sources_mono i t)) le_rfl
    have h2 : Measurable[⨆ k ∈ sources i (t + 1), sourceAlg x r k] (r t i) := by
      apply Measurable.mono (comap_measurable (r t i)) _ le_rfl
      exact le_iSup₂_of_le (f := fun k (_ : k ∈ sources i (t + 1)) => sourceAlg x r k) (.inr (t, i))
        (Or.inr ⟨t, by omega, rfl⟩) le_rfl
    have h3 := @Measurable.prodMk _ _ _ _ _ (_) _ _ h1 h2
    exact (measurable_stepFn hmv hG t).comp h3

theorem measurable_pstate' (h : IndependentDraws P x r μ ν)
    (hmv : ∀ t, Measurable fun p : R × X => mv t p.1 p.2)
    (hG : ∀ t, Measurable fun p : X × X => G t p.1 p.2) (i t : Nat) :
    Measurable (pstate mv G x r i t) :=
  Measurable.mono (measurable_pstate hmv hG i t) (iSup₂_le fun k _ => sourceAlg_le h k) le_rfl

theorem indep_next (h : IndependentDraws P x r μ ν)
    (hmv : ∀ t, Measurable fun p : R × X => mv t p.1 p.2)
    (hG : ∀ t, Measurable fun p : X × X => G t p.1 p.2) (i t : Nat) :
    IndepFun (pstate mv G x r i t) (r t i) P := by
  have hd : Disjoint (sources i t) {.inr (t, i)} := by
    rw [Set.disjoint_singleton_right]
    rintro (e | ⟨s, hs, e⟩)
    · exact absurd e (by simp)
    · rw [Sum.inr.injEq, Prod.mk.injEq] at e
      omega
  have h1 := indep_iSup_of_disjoint (sourceAlg_le h) h.indep hd
  rw [IndepFun_iff_Indep]
  apply indep_of_indep_of_le_left _ (measurable_pstate hmv hG i t).comap_le
  apply indep_of_indep_of_le_right h1
  rw [iSup_singleton]
  exact le_rfl

theorem indep_pair (h : IndependentDraws P x r μ ν)
    (hmv : ∀ t, Measurable fun p : R × X => mv t p.1 p.2)
    (hG : ∀ t, Measurable fun p : X × X => G t p.1 p.2) {i j : Nat} (hij : i ≠ j) (t : Nat) :
    IndepFun (pstate mv G x r i t) (pstate mv G x r j t) P := by
  have hd : Disjoint (sources i t) (sources j t) := by
    rw [Set.disjoint_left]
    rintro k (h1 | ⟨s, _, h1⟩) (h2 | ⟨s', _, h2⟩) <;> rw [h1] at h2 <;> cases h2 <;> omega
  have h1 := indep_iSup_of_disjoint (sourceAlg_le h) h.indep hd
  rw [IndepFun_iff_Indep]
  apply indep_of_indep_of_le_left _ (measurable_pstate hmv hG i t).comap_le
  exact indep_of_indep_of_le_right h1 (measurable_pstate hmv hG j t).comap_le

/-- Joint law of the state and the next random input. -/
theorem map_next (h : IndependentDraws P x r μ ν)
    (hmv : ∀ t, Measurable fun p : R × X => mv t p.1 p.2)
    (hG : ∀ t, Measurable fun p : X × X => G t p.1 p.2) (i t : Nat) :
    P.map (fun ω => (pstate mv G x r i t ω, r t i ω)) =
      (P.map (pstate mv G x r i t)).prod (ν t) := by
  rw [← h.law_r t i]
  exact (indepFun_iff_map_prod_eq_prod_map_map (measurable_pstate' h hmv hG i t).aemeasurable
    (h.measurable_r t i).aemeasurable).1 (indep_next h hmv hG i t)

theorem map_pstate_succ (h : IndependentDraws P x r μ ν)
    (hmv : ∀ t, Measurable fun p : R × X => mv t p.1 p.2)
    (hG : ∀ t, Measurable fun p : X × X => G t p.1 p.2) (i t : Nat) :
    P.map (pstate mv G x r i (t + 1)) =
      ((P.map (pstate mv G x r i t)).prod (ν t)).map (stepFn mv G t) := by
  rw [← map_next h hmv hG i t, Measure.map_map (measurable_stepFn hmv hG t)
    ((measurable_pstate' h hmv hG i t).prodMk (h.measurable_r t i))]
  rfl

/-- All particles have the same law. -/
theorem map_pstate_eq (h : IndependentDraws P x r μ ν)
    (hmv : ∀ t, Measurable fun p : R × X => mv t p.1 p.2)
    (hG : ∀ t, Measurable fun p : X × X => G t p.1 p.2) (i j : Nat) : ∀ t,
    P.map (pstate mv G x r i t) = P.map (pstate mv G x r j t)
  | 0 => by
    have h0 : ∀ i, P.map (pstate mv G x r i 0) = μ.map fun x => (x, (1 : ℝ)) := by
      intro i
      rw [← h.law_x i, Measure.map_map (by fun_prop) (h.measurable_x i)]
      rfl
    rw [h0, h0]
  | t + 1 => by
    rw [map_pstate_succ h hmv hG, map_pstate_succ h hmv hG, map_pstate_eq h hmv hG i j t]

/-- Unnormalised distribution carried by one weighted particle. -/
noncomputable def carried (mv : Nat → R → X → X) (G : Nat → X → X → ℝ) (x : Nat → Ω → X)
    (r : Nat → Nat → Ω → R) (P : Measure Ω) (t : Nat) : Measure X :=
  (P.withDensity fun ω => ENNReal.ofReal (pstate mv G x r 0 t ω).2).map
    fun ω => (pstate mv G x r 0 t ω).1

theorem lintegral_carried (h : IndependentDraws P x r μ ν)
    (hmv : ∀ t, Measurable fun p : R × X => mv t p.1 p.2)
    (hG : ∀ t, Measurable fun p : X × X => G t p.1 p.2) (t : Nat) {F : X → ℝ≥0∞}
    (hF : Measurable F) :
    ∫⁻ y, F y ∂(carried mv G x r P t) =
      ∫⁻ ω, ENNReal.ofReal (pstate mv G x r 0 t ω).2 * F (pstate mv G x r 0 t ω).1 ∂P := by
  have hm := measurable_pstate' h hmv hG 0 t
  unfold carried
  have h1 : Measurable fun ω => (pstate mv G x r 0 t ω).1 := measurable_fst.comp hm
  have h2 : Measurable fun ω => ENNReal.ofReal (pstate mv G x r 0 t ω).2 :=
    (measurable_snd.comp hm).ennreal_ofReal
  have h3 : Measurable fun ω => F (pstate mv G x r 0 t ω).1 := hF.comp h1
  rw [lintegral_map hF h1,
    lintegral_withDensity_eq_lintegral_mul _ h2 h3]
  rfl

theorem pstate_nonneg (hG0 : ∀ t a b, 0 ≤ G t a b) (i : Nat) (ω : Ω) : ∀ t,
    0 ≤ (pstate mv G x r i t ω).2
  | 0 => zero_le_one
  | t + 1 => mul_nonneg (pstate_nonneg hG0 i ω t) (hG0 t _ _)

theorem carried_zero (h : IndependentDraws P x r μ ν)
    (hmv : ∀ t, Measurable fun p : R × X => mv t p.1 p.2)
    (hG : ∀ t, Measurable fun p : X × X => G t p.1 p.2) : carried mv G x r P 0 = μ := by
  rw [← h.law_x 0]
  apply Measure.ext_of_lintegral
  intro F hF
  rw [lintegral_carried h hmv hG 0 hF, lintegral_map hF (h.measurable_x 0)]
  simp [pstate, traj]

/-- If one step of the particle samples the kernel `κ` and weights with the likelihood `ℓ`, the
distribution it carries is transformed accordingly. -/
theorem carried_succ (h : IndependentDraws P x r μ ν) [∀ t, SFinite (ν t)]
    (hmv : ∀ t, Measurable fun p : R × X => mv t p.1 p.2)
    (hG : ∀ t, Measurable fun p : X × X => G t p.1 p.2) (hG0 : ∀ t a b, 0 ≤ G t a b) {t : Nat}
    {κ : Kernel X X} {ℓ : X → ℝ≥0∞} (hℓ : Measurable ℓ)
    (hstep : ∀ a (F : X → ℝ≥0∞), Measurable F →
      ∫⁻ ρ, ENNReal.ofReal (G t a (mv t ρ a)) * F (mv t ρ a) ∂(ν t) = ∫⁻ y, ℓ y * F y ∂(κ a)) :
    carried mv G x r P (t + 1) = ((carried mv G x r P t).bind κ).withDensity ℓ := by
  apply Measure.ext_of_lintegral
  intro F hF
  have hm := measurable_pstate' h hmv hG 0 t
  rw [lintegral_withDensity_eq_lintegral_mul _ hℓ hF,
    Measure.lintegral_bind κ.measurable.aemeasurable (hℓ.mul hF).aemeasurable,
    lintegral_carried h hmv hG (t + 1) hF]
  have hk : Measurable fun a => ∫⁻ y, (ℓ * F) y ∂(κ a) := (hℓ.mul hF).lintegral_kernel
  rw [lintegral_carried h hmv hG t hk]
  have hΦ : Measurable fun p : (X × ℝ) × R =>
      ENNReal.ofReal (stepFn mv G t p).2 * F (stepFn mv G t p).1 :=
    (measurable_snd.comp (measurable_stepFn hmv hG t)).ennreal_ofReal.mul
      (hF.comp (measurable_fst.comp (measurable_stepFn hmv hG t)))
  have e1 : ∫⁻ ω, ENNReal.ofReal (pstate mv G x r 0 (t + 1) ω).2 *
        F (pstate mv G x r 0 (t + 1) ω).1 ∂P =
      ∫⁻ p, ENNReal.ofReal (stepFn mv G t p).2 * F (stepFn mv G t p).1
        ∂(P.map (fun ω => (pstate mv G x r 0 t ω, r t 0 ω))) := by
    rw [lintegral_map hΦ (hm.prodMk (h.measurable_r t 0))]
    rfl
  rw [e1, map_next h hmv hG, lintegral_prod _ hΦ.aemeasurable]
  have e2 : ∀ p : X × ℝ, 0 ≤ p.2 →
      ∫⁻ ρ, ENNReal.ofReal (stepFn mv G t (p, ρ)).2 * F (stepFn mv G t (p, ρ)).1 ∂(ν t) =
        ENNReal.ofReal p.2 * ∫⁻ y, (ℓ * F) y ∂(κ p.1) := by
    intro p hp
    have : ∫⁻ y, (ℓ * F) y ∂(κ p.1) = ∫⁻ y, ℓ y * F y ∂(κ p.1) := rfl
    rw [this, ← hstep p.1 F hF, ← lintegral_const_mul']
    · congr 1
      funext ρ
      simp only [stepFn]
      rw [ENNReal.ofReal_mul hp, mul_assoc]
    · exact ENNReal.ofReal_ne_top
  have hΨ : Measurable fun p : X × ℝ =>
      ∫⁻ ρ, ENNReal.ofReal (stepFn mv G t (p, ρ)).2 * F (stepFn mv G t (p, ρ)).1 ∂(ν t) :=
    hΦ.lintegral_prod_right'
  rw [lintegral_map hΨ hm]
  congr 1
  funext ω
  exact e2 _ (pstate_nonneg hG0 0 ω t)

/-- The distribution carried by a particle is the exact one up to its total mass. -/
theorem exact_eq_carried (h : IndependentDraws P x r μ ν) [∀ t, SFinite (ν t)]
    (hmv : ∀ t, Measurable fun p : R × X => mv t p.1 p.2)
    (hG : ∀ t, Measurable fun p : X × X => G t p.1 p.2) (hG0 : ∀ t a b, 0 ≤ G t a b)
    {κ : Nat → Kernel X X} {ℓ : Nat → X → ℝ≥0∞} {T : Nat} (hℓ : ∀ t < T, Measurable (ℓ t))
    (hstep : ∀ t < T, ∀ a (F : X → ℝ≥0∞), Measurable F →
      ∫⁻ ρ, ENNReal.ofReal (G t a (mv t ρ a)) * F (mv t ρ a) ∂(ν t) =
        ∫⁻ y, ℓ t y * F y ∂(κ t a))
    (hp : Possible κ ℓ μ T) : ∀ t ≤ T,
    carried mv G x r P t Set.univ ≠ 0 ∧ carried mv G x r P t Set.univ ≠ ∞ ∧
      exactFilter κ ℓ μ t = (carried mv G x r P t Set.univ)⁻¹ • carried mv G x r P t
  | 0, _ => by
    have : IsProbabilityMeasure μ := by
      rw [← h.law_x 0]; exact Measure.isProbabilityMeasure_map (h.measurable_x 0).aemeasurable
    rw [carried_zero h hmv hG]
    simp [exactFilter]
  | t + 1, ht => by
    obtain ⟨c0, c1, e⟩ := exact_eq_carried h hmv hG hG0 hℓ hstep hp t (by omega)
    obtain ⟨p0, p1⟩ := hp t (by omega)
    have hs := carried_succ h hmv hG hG0 (hℓ t (by omega)) (hstep t (by omega))
    set M := carried mv G x r P t with hM
    set c := M Set.univ with hc
    have hb : (exactFilter κ ℓ μ t).bind (κ t) = c⁻¹ • M.bind (κ t) := by
      rw [e, Measure.bind_smul]
    have hc' : carried mv G x r P (t + 1) Set.univ = ∫⁻ y, ℓ t y ∂(M.bind (κ t)) := by
      rw [hs, withDensity_apply _ MeasurableSet.univ, Measure.restrict_univ]
    have hev : evidenceOf (κ t) (ℓ t) (exactFilter κ ℓ μ t) =
        c⁻¹ * carried mv G x r P (t + 1) Set.univ := by
      rw [evidenceOf, hb, lintegral_smul_measure, hc', smul_eq_mul]
    have hi0 : c⁻¹ ≠ 0 := ENNReal.inv_ne_zero.2 c1
    have hi1 : c⁻¹ ≠ ∞ := ENNReal.inv_ne_top.2 c0
    rw [hev] at p0 p1
    have d0 : carried mv G x r P (t + 1) Set.univ ≠ 0 := fun hz => p0 (by rw [hz, mul_zero])
    have d1 : carried mv G x r P (t + 1) Set.univ ≠ ∞ := fun hz =>
      p1 (by rw [hz, ENNReal.mul_top hi0])
    refine ⟨d0, d1, ?_⟩
    show bayesStep (κ t) (ℓ t) (exactFilter κ ℓ μ t) = _
    rw [bayesStep, hev, hb, withDensity_smul_measure, ← hs, smul_smul,
      ENNReal.mul_inv (Or.inl hi0) (Or.inl hi1), inv_inv, mul_comm c, mul_assoc,
      ENNReal.mul_inv_cancel c0 c1, mul_one]

/-- Law of large numbers for the weighted averages over independent trajectories. -/
theorem traj_converges (h : IndependentDraws P x r μ ν) [∀ t, SFinite (ν t)]
    (hmv : ∀ t, Measurable fun p : R × X => mv t p.1 p.2)
    (hG : ∀ t, Measurable fun p : X × X => G t p.1 p.2) (hG0 : ∀ t a b, 0 ≤ G t a b)
    {κ : Nat → Kernel X X} {ℓ : Nat → X → ℝ≥0∞} {T : Nat} (hℓ : ∀ t < T, Measurable (ℓ t))
    (hstep : ∀ t < T, ∀ a (F : X → ℝ≥0∞), Measurable F →
      ∫⁻ ρ, ENNReal.ofReal (G t a (mv t ρ a)) * F (mv t ρ a) ∂(ν t) =
        ∫⁻ y, ℓ t y * F y ∂(κ t a))
    (hp : Possible κ ℓ μ T) {φ : X → ℝ} (hφ : Measurable φ)
    (hint : Integrable φ (exactFilter κ ℓ μ T)) :
    ∀ᵐ ω ∂P, (∀ᶠ N : ℕ in atTop, 0 < ∑ i ∈ Finset.range N, (pstate mv G x r i T ω).2) ∧
      Tendsto (fun N : ℕ => (∑ i ∈ Finset.range N, (pstate mv G x r i T ω).2 *
          φ (pstate mv G x r i T ω).1) / ∑ i ∈ Finset.range N, (pstate mv G x r i T ω).2)
        atTop (𝓝 (∫ y, φ y ∂(exactFilter κ ℓ μ T))) := by
  obtain ⟨c0, c1, e⟩ := exact_eq_carried h hmv hG hG0 hℓ hstep hp T le_rfl
  set M := carried mv G x r P T with hM
  set c := M Set.univ with hc
  -- the integral over the particle is the one over the carried distribution
  have hfst : Measurable fun ω => (pstate mv G x r 0 T ω).1 :=
    measurable_fst.comp (measurable_pstate' h hmv hG 0 T)
  have hsnd : Measurable fun ω => (pstate mv G x r 0 T ω).2 :=
    measurable_snd.comp (measurable_pstate' h hmv hG 0 T)
  have key : ∀ {ψ : X → ℝ}, Measurable ψ → Integrable ψ (exactFilter κ ℓ μ T) →
      Integrable (fun ω => (pstate mv G x r 0 T ω).2 * ψ (pstate mv G x r 0 T ω).1) P ∧
      ∫ ω, (pstate mv G x r 0 T ω).2 * ψ (pstate mv G x r 0 T ω).1 ∂P =
        c.toReal * ∫ y, ψ y ∂(exactFilter κ ℓ μ T) := by
    intro ψ hψ hi
    have hiM : Integrable ψ M := by
      have : M = c • exactFilter κ ℓ μ T := by
        rw [e, smul_smul, ENNReal.mul_inv_cancel c0 c1, one_smul]
      rw [this]
      exact hi.smul_measure c1
    have hi2 := (integrable_map_measure hψ.aestronglyMeasurable hfst.aemeasurable).1 hiM
    rw [integrable_withDensity_iff_integrable_smul' hsnd.ennreal_ofReal
      (by filter_upwards with ω using ENNReal.ofReal_lt_top)] at hi2
    have he : ∀ ω, (ENNReal.ofReal (pstate mv G x r 0 T ω).2).toReal =
        (pstate mv G x r 0 T ω).2 := fun ω => ENNReal.toReal_ofReal (pstate_nonneg hG0 0 ω T)
    simp only [he, smul_eq_mul] at hi2
    refine ⟨hi2, ?_⟩
    have h3 : ∫ y, ψ y ∂M = ∫ ω, (pstate mv G x r 0 T ω).2 * ψ (pstate mv G x r 0 T ω).1 ∂P := by
      rw [hM, carried, integral_map hfst.aemeasurable hψ.aestronglyMeasurable,
        integral_withDensity_eq_integral_toReal_smul hsnd.ennreal_ofReal
          (by filter_upwards with ω using ENNReal.ofReal_lt_top)]
      simp only [he, smul_eq_mul]
    rw [← h3, e, integral_smul_measure, smul_eq_mul, ENNReal.toReal_inv, ← mul_assoc,
      mul_inv_cancel₀ (ENNReal.toReal_ne_zero.2 ⟨c0, c1⟩), one_mul]
  have hprob : IsProbabilityMeasure (exactFilter κ ℓ μ T) :=
    ⟨by rw [e, Measure.smul_apply, smul_eq_mul, ENNReal.inv_mul_cancel c0 c1]⟩
  -- the law of large numbers for numerator and denominator
  have lln : ∀ {ψ : X → ℝ}, Measurable ψ → Integrable ψ (exactFilter κ ℓ μ T) →
      ∀ᵐ ω ∂P, Tendsto (fun N : ℕ => (∑ i ∈ Finset.range N, (pstate mv G x r i T ω).2 *
        ψ (pstate mv G x r i T ω).1) / (N : ℝ)) atTop
        (𝓝 (c.toReal * ∫ y, ψ y ∂(exactFilter κ ℓ μ T))) := by
    intro ψ hψ hi
    obtain ⟨k1, k2⟩ := key hψ hi
    have hf : Measurable fun p : X × ℝ => p.2 * ψ p.1 :=
      measurable_snd.mul (hψ.comp measurable_fst)
    rw [← k2]
    refine strong_law_ae_real (fun i ω => (pstate mv G x r i T ω).2 * ψ (pstate mv G x r i T ω).1)
      k1 ?_ ?_
    · intro i j hij
      exact (indep_pair h hmv hG hij T).comp hf hf
    · intro i
      have : IdentDistrib (pstate mv G x r i T) (pstate mv G x r 0 T) P P :=
        ⟨(measurable_pstate' h hmv hG i T).aemeasurable,
          (measurable_pstate' h hmv hG 0 T).aemeasurable, map_pstate_eq h hmv hG i 0 T⟩
      exact this.comp hf
  have cpos : 0 < c.toReal := ENNReal.toReal_pos c0 c1
  filter_upwards [lln hφ hint, lln measurable_const (integrable_const (1 : ℝ))] with ω h1 h2
  simp only [mul_one, integral_const, probReal_univ, smul_eq_mul] at h2
  refine ⟨?_, ?_⟩
  · filter_upwards [h2.eventually (lt_mem_nhds cpos), eventually_gt_atTop 0] with N hN hN0
    have hN' : (0 : ℝ) < N := by exact_mod_cast hN0
    exact (div_pos_iff_of_pos_right hN').1 hN
  · have h3 := h1.div h2 cpos.ne'
    rw [mul_div_cancel_left₀ _ cpos.ne'] at h3
    refine h3.congr' ?_
    filter_upwards [eventually_gt_atTop 0] with N hN0
    have hN' : (N : ℝ) ≠ 0 := by exact_mod_cast hN0.ne'
    exact div_div_div_cancel_right₀ hN' _ _

end BFL
