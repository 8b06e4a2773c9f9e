import Verif.Lemmas.LastingRun

/-!
# Particle filters with a wrong start
-/

set_option linter.unusedSectionVars false

namespace BFL.Props

open MeasureTheory ProbabilityTheory Filter Spec MCPdf ParticleFilter
open scoped ENNReal Topology

variable {R X MV Ω : Type} [MeasurableSpace X] [MeasurableSpace R] {dflt : X} {period : Nat} {threshold : ℝ}

/-- The first `S` updates, then the others. -/
theorem exactFilter_add (κ : Nat → Kernel X X) (ℓ : Nat → X → ℝ≥0∞) (μ : Measure X) (S : Nat) : ∀ T,
    exactFilter κ ℓ μ (S + T) = exactFilter (fun t => κ (S + t)) (fun t => ℓ (S + t)) (exactFilter κ ℓ μ S) T
  | 0 => rfl
  | T + 1 => by
    show bayesStep (κ (S + T)) (ℓ (S + T)) (exactFilter κ ℓ μ (S + T)) = _
    rw [exactFilter_add κ ℓ μ S T]
    rfl

/-- The exact means lie in a small interval, whatever the prior. -/
theorem exact_between {κ : Nat → Kernel X X} [∀ t, IsMarkovKernel (κ t)] {ℓ : Nat → X → ℝ≥0∞}
    (mℓ : ∀ t, Measurable (ℓ t)) {b B : Nat → ℝ}
    (hℓ : ∀ t, 0 < b t ∧ ∀ y, ENNReal.ofReal (b t) ≤ ℓ t y ∧ ℓ t y ≤ ENNReal.ofReal (B t))
    {σ : ℝ} (hσ : 0 < σ) (hσ1 : σ < 1) (hκ : ∀ t, MovesAlike (κ t) σ) [Nonempty X]
    {φ : X → ℝ} (hφ : Measurable φ) (hφ1 : ∀ x, |φ x| ≤ 1) (T : Nat) : ∃ m M, M - m = 2 * (1 - σ) ^ T ∧
      ∀ μ : Measure X, IsProbabilityMeasure μ → IsProbabilityMeasure (exactFilter κ ℓ μ T) ∧
        m ≤ ∫ y, φ y ∂(exactFilter κ ℓ μ T) ∧ ∫ y, φ y ∂(exactFilter κ ℓ μ T) ≤ M := by
  obtain ⟨L, hL⟩ : ∃ L : Nat → X → ℝ, L = fun t y => (ℓ t y).toReal := ⟨_, rfl⟩
  have hfin : ∀ t y, ℓ t y ≠ ∞ := fun t y => ne_top_of_le_ne_top ENNReal.ofReal_ne_top ((hℓ t).2 y).2
  have eℓ : ℓ = fun t y => ENNReal.ofReal (L t y) := by
    funext t y
    rw [hL, ENNReal.ofReal_toReal (hfin t y)]
  have mL : ∀ t, Measurable (L t) := by
    intro t
    rw [hL]
    exact (mℓ t).ennreal_toReal
  have hLb : ∀ t, 0 < b t ∧ ∀ y, b t ≤ L t y ∧ L t y ≤ B t := by
    intro t
    obtain ⟨h0, h1⟩ := hℓ t
    refine ⟨h0, fun y => ?_⟩
    have hB : 0 ≤ B t := (ENNReal.ofReal_pos.1 (lt_of_lt_of_le (ENNReal.ofReal_pos.2 h0) ((h1 y).1.trans (h1 y).2))).le
    rw [hL]
    exact ⟨(ENNReal.ofReal_le_iff_le_toReal (hfin t y)).1 (h1 y).1, ENNReal.toReal_le_of_le_ofReal hB (h1 y).2⟩
  rw [eℓ]
  obtain ⟨m, M, hi, hB, hgap⟩ := backward_bounds hσ hσ1 (fun t _ => hκ t) mL (fun t _ => hLb t) hφ hφ1 (T := T) T le_rfl
  refine ⟨m, M, hgap, fun μ hμ => ?_⟩
  have hrat := exact_ratio (κ := κ) mL hLb (μ := μ) hσ hσ1 (fun t _ => hκ t) hφ hφ1 T le_rfl
  rw [Nat.sub_self, exactFilter] at hrat
  have iF : Integrable (backward κ L T φ T) μ := integrable_bounded hB.mF (hB.absF hσ)
  have iH : Integrable (backward κ L T (fun _ => 1) T) μ := integrable_bounded hB.mH (hB.absH hσ)
  have hHpos : 0 < ∫ y, backward κ L T (fun _ => 1) T y ∂μ := by
    refine lt_of_lt_of_le (mul_pos hσ hB.hi_pos) ?_
    have e : ∫ _, σ * hi ∂μ = σ * hi := by simp
    rw [← e]
    exact integral_mono (integrable_const _) iH hB.low
  refine ⟨exactFilter_prob (κ := κ) mL hLb (μ := μ) T, ?_, ?_⟩
  · rw [hrat, le_div_iff₀ hHpos, ← integral_const_mul]
    exact integral_mono (iH.const_mul m) iF hB.lower
  · rw [hrat, div_le_iff₀ hHpos, ← integral_const_mul]
    exact integral_mono iF (iH.const_mul M) hB.upper

/-- Two exact filters that agree from step `S` on. -/
theorem exact_forgets {κ : Nat → Kernel X X} [∀ t, IsMarkovKernel (κ t)] {ℓ : Nat → X → ℝ≥0∞}
    (mℓ : ∀ t, Measurable (ℓ t)) {b B : Nat → ℝ}
    (hℓ : ∀ t, 0 < b t ∧ ∀ y, ENNReal.ofReal (b t) ≤ ℓ t y ∧ ℓ t y ≤ ENNReal.ofReal (B t))
    {σ : ℝ} (hσ : 0 < σ) (hσ1 : σ < 1) (hκ : ∀ t, MovesAlike (κ t) σ) [Nonempty X]
    {φ : X → ℝ} (hφ : Measurable φ) (hφ1 : ∀ x, |φ x| ≤ 1) (S T : Nat) {μ π : Measure X} [hμ : IsProbabilityMeasure μ]
    [hπ : IsProbabilityMeasure π] :
    |∫ y, φ y ∂(exactFilter κ ℓ μ (S + T)) - ∫ y, φ y ∂(exactFilter (fun t => κ (S + t)) (fun t => ℓ (S + t)) π T)| ≤
      2 * (1 - σ) ^ T := by
  obtain ⟨_, _, _, hS⟩ := exact_between mℓ hℓ hσ hσ1 hκ hφ hφ1 S
  obtain ⟨m, M, hgap, hT⟩ := exact_between (κ := fun t => κ (S + t)) (fun t => mℓ (S + t)) (fun t => hℓ (S + t)) hσ hσ1
    (fun t => hκ (S + t)) hφ hφ1 T
  obtain ⟨_, a1, a2⟩ := hT _ (hS μ hμ).1
  obtain ⟨_, b1, b2⟩ := hT π hπ
  rw [exactFilter_add, ← hgap, abs_le]
  constructor <;> linarith

/-! ### All particles at one place -/

/-- All particles are at `y`. -/
def AllAt (y : X) (ps : List (X × ℝ)) : Prop := ∀ a ∈ ps, a.1 = y

theorem AllAt.resampledIf {y : X} {ps ps' : List (X × ℝ)} (h : AllAt y ps) {on : Prop} {v : Nat → ℝ}
    (hr : ResampledIf on v ps ps') : AllAt y ps' := by
  by_cases ho : on
  · intro a ha
    obtain ⟨i, hi, rfl⟩ := List.mem_iff_getElem.1 ha
    obtain ⟨j, hj, _, e⟩ := (hr.1 ho).2 i hi
    rw [e]
    exact h ps[j] (List.getElem_mem hj)
  · rw [hr.2 ho]
    exact h

theorem AllAt.advance {y : X} {ps : List (X × ℝ)} (h : AllAt y ps) {mv : R → X → X} (hmv : ∀ r, mv r y = y) {G : X → X → ℝ}
    (ρ : Nat → R) : AllAt y (advance mv G ρ ps) := by
  intro a ha
  unfold Props.advance at ha
  obtain ⟨i, hi, rfl⟩ := List.mem_mapIdx.1 ha
  show mv (ρ i) ps[i].1 = y
  rw [h _ (List.getElem_mem hi), hmv]

theorem ResampledIf.total {ps ps' : List (X × ℝ)} {on : Prop} {v : Nat → ℝ} (hr : ResampledIf on v ps ps')
    (hn : (ps.map Prod.snd).sum = 1) (hl : 0 < ps.length) : (ps'.map Prod.snd).sum = 1 := by
  by_cases ho : on
  · obtain ⟨hlen, hall⟩ := hr.1 ho
    have e : ps'.map Prod.snd = List.replicate ps.length (1 / (ps.length : ℝ)) := by
      apply List.ext_getElem
      · simp [hlen]
      · intro i h1 h2
        obtain ⟨j, hj, _, e⟩ := hall i (by simpa using h1)
        simp [e]
    have : (0 : ℝ) < ps.length := by exact_mod_cast hl
    rw [e, List.sum_replicate, nsmul_eq_mul, mul_one_div_cancel this.ne']
  · rw [hr.2 ho]
    exact hn

theorem AllAt.advanceTotal {y : X} {ps : List (X × ℝ)} (h : AllAt y ps) {mv : R → X → X} (hmv : ∀ r, mv r y = y)
    {G : X → X → ℝ} (ρ : Nat → R) (hn : (ps.map Prod.snd).sum = 1) : advanceTotal mv G ρ ps = G y y := by
  have e : ps.mapIdx (fun i a => a.2 * G a.1 (mv (ρ i) a.1)) = ps.map fun a => a.2 * G y y := by
    apply List.ext_getElem
    · simp
    · intro i h1 h2
      rw [List.getElem_mapIdx, List.getElem_map, h _ (List.getElem_mem _), hmv]
  unfold Props.advanceTotal
  rw [e, List.sum_map_mul_right, hn, one_mul]

/-- If the state never moves, particles at one place stay there. -/
theorem all_at_run {root : Nat → ℝ → ℝ} {step : Noise R ℝ → UpdateCall R X MV ℝ → ParticleFilter R X ℝ →
      Outcome (Bool × ParticleFilter R X ℝ)} {good : ParticleFilter R X ℝ → Prop} {c : Nat → UpdateCall R X MV ℝ}
    {mv : Nat → R → X → X} {G : Nat → X → X → ℝ} (hc : ∀ t, StepRuns root step period threshold good (c t) (mv t) (G t))
    {y : X} (hmv : ∀ t r, mv t r y = y) (hG : ∀ t, 0 < G t y y) {noise : Nat → Noise R ℝ}
    (hu : ∀ t, Uniforms (noise t).static ∧ Uniforms (noise t).dynamic) {f : ParticleFilter R X ℝ} (hg : good f)
    {ps : List (X × ℝ)} (hr : Ready period threshold 0 f ps) (ha : AllAt y ps) : ∀ T, ∃ f' ps' n,
      ParticleFilter.run step ((List.range T).map fun t => (noise t, c t)) f = .ok (true, f') ∧ good f' ∧
        Ready period threshold n f' ps' ∧ AllAt y ps'
  | 0 => ⟨f, ps, 0, rfl, hg, hr, ha⟩
  | T + 1 => by
    obtain ⟨f1, ps1, n, r1, g1, rd1, a1⟩ := all_at_run hc hmv hG hu hg hr ha T
    obtain ⟨ps2, h2, h3⟩ := hc T rd1 g1 (hu T).1 (hu T).2
    have a2 := a1.resampledIf h2
    have t2 := h2.total rd1.live.dist.2 rd1.live.pos
    obtain ⟨f3, ps3, k1, k2, k3, k4⟩ := h3 (by rw [a2.advanceTotal (hmv T) _ t2]; exact hG T)
    refine ⟨f3, ps3, _, ?_, k2, k3, (a2.advance (hmv T) _).resampledIf k4⟩
    rw [List.range_succ, List.map_append]
    exact run_snoc step (noise T, c T) k1 _ r1

end BFL.Props
