import Verif.Lemmas.ParticleConvergence
import Verif.Spec.ParticleCount
import Mathlib.Probability.Moments.Variance

/-! # Chebyshev's inequality for weighted averages over independent trajectories -/

set_option linter.unusedSectionVars false

namespace BFL

open MeasureTheory ProbabilityTheory Spec Filter
open scoped ENNReal Topology

variable {X R Ω : Type} [MeasurableSpace X] [MeasurableSpace R] [MeasurableSpace Ω]
  {P : Measure Ω} [IsProbabilityMeasure P] {x : Nat → Ω → X} {r : Nat → Nat → Ω → R}
  {μ : Measure X} {ν : Nat → Measure R} {mv : Nat → R → X → X} {G : Nat → X → X → ℝ}

/-- The mass carried by a particle is the probability of the measurements. -/
theorem carried_mass (h : IndependentDraws P x r μ ν) [∀ t, SFinite (ν t)]
    (hmv : ∀ t, Measurable fun p : R × X => mv t p.1 p.2)
    (hG : ∀ t, Measurable fun p : X × X => G t p.1 p.2) (hG0 : ∀ t a b, 0 ≤ G t a b)
    {κ : Nat → Kernel X X} {ℓ : Nat → X → ℝ≥0∞} {T : Nat} (hℓ : ∀ t < T, Measurable (ℓ t))
    (hstep : ∀ t < T, ∀ a (F : X → ℝ≥0∞), Measurable F →
      ∫⁻ ρ, ENNReal.ofReal (G t a (mv t ρ a)) * F (mv t ρ a) ∂(ν t) =
        ∫⁻ y, ℓ t y * F y ∂(κ t a))
    (hp : Possible κ ℓ μ T) : ∀ t ≤ T, carried mv G x r P t Set.univ = probabilityOf κ ℓ μ t
  | 0, _ => by
    have : IsProbabilityMeasure μ := by
      rw [← h.law_x 0]; exact Measure.isProbabilityMeasure_map (h.measurable_x 0).aemeasurable
    rw [carried_zero h hmv hG]
    simp [probabilityOf]
  | t + 1, ht => by
    obtain ⟨c0, c1, e⟩ := exact_eq_carried h hmv hG hG0 hℓ hstep hp t (by omega)
    have ih := carried_mass h hmv hG hG0 hℓ hstep hp t (by omega)
    have hs := carried_succ h hmv hG hG0 (hℓ t (by omega)) (hstep t (by omega))
    have hc' : carried mv G x r P (t + 1) Set.univ = ∫⁻ y, ℓ t y ∂((carried mv G x r P t).bind (κ t)) := by
      rw [hs, withDensity_apply _ MeasurableSet.univ, Measure.restrict_univ]
    rw [probabilityOf, Finset.prod_range_succ, ← probabilityOf, ← ih, evidenceOf, e, Measure.bind_smul, lintegral_smul_measure,
      smul_eq_mul, ← mul_assoc, ENNReal.mul_inv_cancel c0 c1, one_mul, hc']

/-- Expectations of weighted functions of a particle. -/
theorem weighted_integral (h : IndependentDraws P x r μ ν) [∀ t, SFinite (ν t)]
    (hmv : ∀ t, Measurable fun p : R × X => mv t p.1 p.2)
    (hG : ∀ t, Measurable fun p : X × X => G t p.1 p.2) (hG0 : ∀ t a b, 0 ≤ G t a b)
    {κ : Nat → Kernel X X} {ℓ : Nat → X → ℝ≥0∞} {T : Nat} (hℓ : ∀ t < T, Measurable (ℓ t))
    (hstep : ∀ t < T, ∀ a (F : X → ℝ≥0∞), Measurable F →
      ∫⁻ ρ, ENNReal.ofReal (G t a (mv t ρ a)) * F (mv t ρ a) ∂(ν t) =
        ∫⁻ y, ℓ t y * F y ∂(κ t a))
    (hp : Possible κ ℓ μ T) {ψ : X → ℝ} (hψ : Measurable ψ) (hi : Integrable ψ (exactFilter κ ℓ μ T)) :
    Integrable (fun ω => (pstate mv G x r 0 T ω).2 * ψ (pstate mv G x r 0 T ω).1) P ∧
      ∫ ω, (pstate mv G x r 0 T ω).2 * ψ (pstate mv G x r 0 T ω).1 ∂P =
        (probabilityOf κ ℓ μ T).toReal * ∫ y, ψ y ∂(exactFilter κ ℓ μ T) := by
  obtain ⟨c0, c1, e⟩ := exact_eq_carried h hmv hG hG0 hℓ hstep hp T le_rfl
  rw [← carried_mass h hmv hG hG0 hℓ hstep hp T le_rfl]
  set M := carried mv G x r P T with hM
  set c := M Set.univ with hc
  have hfst : Measurable fun ω => (pstate mv G x r 0 T ω).1 :=
    measurable_fst.comp (measurable_pstate' h hmv hG 0 T)
  have hsnd : Measurable fun ω => (pstate mv G x r 0 T ω).2 :=
    measurable_snd.comp (measurable_pstate' h hmv hG 0 T)
  have hiM : Integrable ψ M := by
    have : M = c • exactFilter κ ℓ μ T := by
      rw [e, smul_smul, ENNReal.mul_inv_cancel c0 c1, one_smul]
    rw [this]
    exact hi.smul_measure c1
  have hi2 := (integrable_map_measure hψ.aestronglyMeasurable hfst.aemeasurable).1 hiM
  rw [integrable_withDensity_iff_integrable_smul' hsnd.ennreal_ofReal
    (by filter_upwards with ω using ENNReal.ofReal_lt_top)] at hi2
  have he : ∀ ω, (ENNReal.ofReal (pstate mv G x r 0 T ω).2).toReal =
      (pstate mv G x r 0 T ω).2 := fun ω => ENNReal.toReal_ofReal (pstate_nonneg hG0 0 ω T)
  simp only [he, smul_eq_mul] at hi2
  refine ⟨hi2, ?_⟩
  have h3 : ∫ y, ψ y ∂M = ∫ ω, (pstate mv G x r 0 T ω).2 * ψ (pstate mv G x r 0 T ω).1 ∂P := by
    rw [hM, carried, integral_map hfst.aemeasurable hψ.aestronglyMeasurable,
      integral_withDensity_eq_integral_toReal_smul hsnd.ennreal_ofReal
        (by filter_upwards with ω using ENNReal.ofReal_lt_top)]
    simp only [he, smul_eq_mul]
  rw [← h3, e, integral_smul_measure, smul_eq_mul, ENNReal.toReal_inv, ← mul_assoc,
    mul_inv_cancel₀ (ENNReal.toReal_ne_zero.2 ⟨c0, c1⟩), one_mul]

theorem pstate_le (hG0 : ∀ t a b, 0 ≤ G t a b) {B : Nat → ℝ} {T : Nat} (hB : ∀ t < T, ∀ a b, G t a b ≤ B t)
    (i : Nat) (ω : Ω) : ∀ t ≤ T, (pstate mv G x r i t ω).2 ≤ ∏ s ∈ Finset.range t, B s
  | 0, _ => by simp [pstate, traj]
  | t + 1, ht => by
    rw [Finset.prod_range_succ]
    have ih := pstate_le hG0 hB i ω t (by omega)
    exact mul_le_mul ih (hB t (by omega) _ _) (hG0 t _ _) ((pstate_nonneg hG0 i ω t).trans ih)

/-- One side: a weighted sum with negative expectation is rarely nonnegative. -/
theorem rarely (h : IndependentDraws P x r μ ν) [∀ t, SFinite (ν t)]
    (hmv : ∀ t, Measurable fun p : R × X => mv t p.1 p.2)
    (hG : ∀ t, Measurable fun p : X × X => G t p.1 p.2) (hG0 : ∀ t a b, 0 ≤ G t a b)
    {κ : Nat → Kernel X X} {ℓ : Nat → X → ℝ≥0∞} {T : Nat} (hℓ : ∀ t < T, Measurable (ℓ t))
    (hstep : ∀ t < T, ∀ a (F : X → ℝ≥0∞), Measurable F →
      ∫⁻ ρ, ENNReal.ofReal (G t a (mv t ρ a)) * F (mv t ρ a) ∂(ν t) =
        ∫⁻ y, ℓ t y * F y ∂(κ t a))
    (hp : Possible κ ℓ μ T) {B : Nat → ℝ} (hB : ∀ t < T, ∀ a b, G t a b ≤ B t) {ψ : X → ℝ} (hψ : Measurable ψ)
    (h1 : Integrable ψ (exactFilter κ ℓ μ T)) (h2 : Integrable (fun y => ψ y ^ 2) (exactFilter κ ℓ μ T)) {ε : ℝ}
    (hε : 0 < ε) (hm : ∫ y, ψ y ∂(exactFilter κ ℓ μ T) = -ε) {N : Nat} (hN : 0 < N) :
    P {ω | 0 ≤ ∑ i ∈ Finset.range N, (pstate mv G x r i T ω).2 * ψ (pstate mv G x r i T ω).1} ≤
      ENNReal.ofReal ((∏ t ∈ Finset.range T, B t) / (probabilityOf κ ℓ μ T).toReal *
        (∫ y, ψ y ^ 2 ∂(exactFilter κ ℓ μ T)) / (ε ^ 2 * N)) := by
  obtain ⟨c0, c1, _⟩ := exact_eq_carried h hmv hG hG0 hℓ hstep hp T le_rfl
  rw [carried_mass h hmv hG hG0 hℓ hstep hp T le_rfl] at c0 c1
  have hc : 0 < (probabilityOf κ ℓ μ T).toReal := ENNReal.toReal_pos c0 c1
  obtain ⟨k1, k2⟩ := weighted_integral h hmv hG hG0 hℓ hstep hp hψ h1
  obtain ⟨k3, k4⟩ := weighted_integral h hmv hG hG0 hℓ hstep hp (hψ.pow_const 2) h2
  rw [hm] at k2
  set c := (probabilityOf κ ℓ μ T).toReal with hcdef
  set b := ∏ t ∈ Finset.range T, B t with hbdef
  have hf : Measurable fun p : X × ℝ => p.2 * ψ p.1 := measurable_snd.mul (hψ.comp measurable_fst)
  obtain ⟨Y, hY⟩ : ∃ Y : Nat → Ω → ℝ, Y = fun i ω => (pstate mv G x r i T ω).2 * ψ (pstate mv G x r i T ω).1 :=
    ⟨_, rfl⟩
  have hYm : ∀ i, Measurable (Y i) := fun i => by
    rw [hY]; exact hf.comp (measurable_pstate' h hmv hG i T)
  have hid : ∀ i, IdentDistrib (Y i) (Y 0) P P := fun i => by
    rw [hY]
    have : IdentDistrib (pstate mv G x r i T) (pstate mv G x r 0 T) P P :=
      ⟨(measurable_pstate' h hmv hG i T).aemeasurable,
        (measurable_pstate' h hmv hG 0 T).aemeasurable, map_pstate_eq h hmv hG i 0 T⟩
    exact this.comp hf
  have hsq : ∀ ω, Y 0 ω ^ 2 ≤ b * ((pstate mv G x r 0 T ω).2 * ψ (pstate mv G x r 0 T ω).1 ^ 2) := by
    intro ω
    have w0 := pstate_nonneg (mv := mv) (x := x) (r := r) hG0 0 ω T
    have w1 := pstate_le (mv := mv) (x := x) (r := r) hG0 hB 0 ω T le_rfl
    have e : Y 0 ω ^ 2 = (pstate mv G x r 0 T ω).2 *
        ((pstate mv G x r 0 T ω).2 * ψ (pstate mv G x r 0 T ω).1 ^ 2) := by rw [hY]; ring
    rw [e]
    exact mul_le_mul_of_nonneg_right w1 (mul_nonneg w0 (sq_nonneg _))
  have hi2 : Integrable (fun ω => Y 0 ω ^ 2) P := by
    refine (k3.const_mul b).mono' ((hYm 0).pow_const 2).aestronglyMeasurable ?_
    filter_upwards with ω
    rw [Real.norm_of_nonneg (sq_nonneg _)]
    exact hsq ω
  have hL0 : MemLp (Y 0) 2 P := (memLp_two_iff_integrable_sq (hYm 0).aestronglyMeasurable).2 hi2
  have hL : ∀ i, MemLp (Y i) 2 P := fun i => (hid i).symm.memLp_snd hL0
  have hv0 : Var[Y 0; P] ≤ b * (c * ∫ y, ψ y ^ 2 ∂(exactFilter κ ℓ μ T)) := by
    refine (variance_le_expectation_sq (hYm 0).aestronglyMeasurable).trans ?_
    rw [← k4, ← integral_const_mul]
    exact integral_mono hi2 (k3.const_mul b) hsq
  have hv : Var[∑ i ∈ Finset.range N, Y i; P] = N * Var[Y 0; P] := by
    rw [IndepFun.variance_sum (fun i _ => hL i)]
    · rw [Finset.sum_congr rfl fun i _ => (hid i).variance_eq]
      simp
    · intro i _ j _ hij
      rw [hY]
      exact (indep_pair h hmv hG hij T).comp hf hf
  have hm' : ∫ ω, (∑ i ∈ Finset.range N, Y i) ω ∂P = -(N * (c * ε)) := by
    simp only [Finset.sum_apply]
    rw [integral_finsetSum _ fun i _ => (hL i).integrable one_le_two,
      Finset.sum_congr rfl fun i _ => (hid i).integral_eq]
    have : ∫ ω, Y 0 ω ∂P = c * -ε := by rw [hY]; exact k2
    rw [this]
    simp
  have hN' : (0 : ℝ) < N := by exact_mod_cast hN
  have hpos : 0 < N * (c * ε) := mul_pos hN' (mul_pos hc hε)
  have hLs : MemLp (∑ i ∈ Finset.range N, Y i) 2 P := memLp_finsetSum' _ fun i _ => hL i
  have hch := meas_ge_le_variance_div_sq hLs hpos
  refine le_trans (measure_mono ?_) (hch.trans (ENNReal.ofReal_le_ofReal ?_))
  · intro ω hω
    have hω' : 0 ≤ (∑ i ∈ Finset.range N, Y i) ω := by
      rw [Finset.sum_apply, hY]; exact hω
    show _ ≤ |(∑ i ∈ Finset.range N, Y i) ω - ∫ ω, (∑ i ∈ Finset.range N, Y i) ω ∂P|
    rw [hm', sub_neg_eq_add]
    exact le_trans (by linarith) (le_abs_self _)
  · rw [hv]
    calc N * Var[Y 0; P] / (N * (c * ε)) ^ 2
        ≤ N * (b * (c * ∫ y, ψ y ^ 2 ∂(exactFilter κ ℓ μ T))) / (N * (c * ε)) ^ 2 := by gcongr
      _ = _ := by field_simp

/-- Both sides. -/
theorem traj_close (h : IndependentDraws P x r μ ν) [∀ t, SFinite (ν t)]
    (hmv : ∀ t, Measurable fun p : R × X => mv t p.1 p.2)
    (hG : ∀ t, Measurable fun p : X × X => G t p.1 p.2) (hG0 : ∀ t a b, 0 ≤ G t a b)
    {κ : Nat → Kernel X X} {ℓ : Nat → X → ℝ≥0∞} {T : Nat} (hℓ : ∀ t < T, Measurable (ℓ t))
    (hstep : ∀ t < T, ∀ a (F : X → ℝ≥0∞), Measurable F →
      ∫⁻ ρ, ENNReal.ofReal (G t a (mv t ρ a)) * F (mv t ρ a) ∂(ν t) =
        ∫⁻ y, ℓ t y * F y ∂(κ t a))
    (hp : Possible κ ℓ μ T) {B : Nat → ℝ} (hB : ∀ t < T, ∀ a b, G t a b ≤ B t) {φ : X → ℝ} (hφ : Measurable φ)
    (h2 : MemLp φ 2 (exactFilter κ ℓ μ T)) {ε : ℝ} (hε : 0 < ε) {N : Nat} (hN : 0 < N) :
    P {ω | ¬ (0 < ∑ i ∈ Finset.range N, (pstate mv G x r i T ω).2 ∧
      |(∑ i ∈ Finset.range N, (pstate mv G x r i T ω).2 * φ (pstate mv G x r i T ω).1) /
        (∑ i ∈ Finset.range N, (pstate mv G x r i T ω).2) - ∫ y, φ y ∂(exactFilter κ ℓ μ T)| < ε)} ≤
      ENNReal.ofReal (2 * ((∏ t ∈ Finset.range T, B t) / (probabilityOf κ ℓ μ T).toReal) *
        (Var[φ; exactFilter κ ℓ μ T] / ε ^ 2 + 1) / N) := by
  obtain ⟨c0, c1, e⟩ := exact_eq_carried h hmv hG hG0 hℓ hstep hp T le_rfl
  have hprob : IsProbabilityMeasure (exactFilter κ ℓ μ T) :=
    ⟨by rw [e, Measure.smul_apply, smul_eq_mul, ENNReal.inv_mul_cancel c0 c1]⟩
  set E := exactFilter κ ℓ μ T with hE
  set m := ∫ y, φ y ∂E with hmdef
  have hi := h2.integrable one_le_two
  have hi' : Integrable (fun y => φ y - m) E := hi.sub (integrable_const m)
  have hmean : ∫ y, (φ y - m) ∂E = 0 := by
    rw [integral_sub hi (integrable_const m)]; simp [hmdef]
  have hd2 : MemLp (fun y => φ y - m) 2 E := h2.sub (memLp_const m)
  have hvar : Var[φ; E] = ∫ y, (φ y - m) ^ 2 ∂E := variance_eq_integral hφ.aemeasurable
  have hside : ∀ s : ℝ, s ^ 2 = 1 →
      Integrable (fun y => s * (φ y - m) - ε) E ∧ Integrable (fun y => (s * (φ y - m) - ε) ^ 2) E ∧
      ∫ y, (s * (φ y - m) - ε) ∂E = -ε ∧ ∫ y, (s * (φ y - m) - ε) ^ 2 ∂E = Var[φ; E] + ε ^ 2 := by
    intro s hs
    have j1 : Integrable (fun y => s * (φ y - m)) E := hi'.const_mul s
    have j2 : Integrable (fun y => (φ y - m) ^ 2) E := hd2.integrable_sq
    have j3 : Integrable (fun _ : X => ε ^ 2) E := integrable_const _
    have j4 : Integrable (fun y => -(2 * s * ε) * (φ y - m)) E := hi'.const_mul _
    have j5 : Integrable (fun y => (φ y - m) ^ 2 + -(2 * s * ε) * (φ y - m)) E := j2.add j4
    have ee : (fun y => (s * (φ y - m) - ε) ^ 2) =
        fun y => (φ y - m) ^ 2 + -(2 * s * ε) * (φ y - m) + ε ^ 2 := by
      funext y
      calc (s * (φ y - m) - ε) ^ 2 = s ^ 2 * (φ y - m) ^ 2 + -(2 * s * ε) * (φ y - m) + ε ^ 2 := by ring
        _ = _ := by rw [hs, one_mul]
    refine ⟨j1.sub (integrable_const ε), ?_, ?_, ?_⟩
    · rw [ee]; exact j5.add j3
    · rw [integral_sub j1 (integrable_const ε), integral_const_mul, hmean]; simp
    · rw [ee, integral_add j5 j3, integral_add j2 j4, integral_const_mul, hmean, hvar]; simp
  have hr : ∀ s : ℝ, s ^ 2 = 1 → P {ω | 0 ≤ ∑ i ∈ Finset.range N, (pstate mv G x r i T ω).2 *
      (s * (φ (pstate mv G x r i T ω).1 - m) - ε)} ≤
      ENNReal.ofReal ((∏ t ∈ Finset.range T, B t) / (probabilityOf κ ℓ μ T).toReal *
        (Var[φ; E] + ε ^ 2) / (ε ^ 2 * N)) := by
    intro s hs
    obtain ⟨a1, a2, a3, a4⟩ := hside s hs
    have := rarely h hmv hG hG0 hℓ hstep hp hB (ψ := fun y => s * (φ y - m) - ε) (by fun_prop) a1 a2 hε a3 hN
    rw [a4] at this
    exact this
  have hN' : (0 : ℝ) < N := by exact_mod_cast hN
  have hb0 : 0 ≤ ∏ t ∈ Finset.range T, B t := by
    obtain ⟨ω⟩ := P.nonempty_of_neZero
    exact (pstate_nonneg (mv := mv) (x := x) (r := r) hG0 0 ω T).trans
      (pstate_le (mv := mv) (x := x) (r := r) hG0 hB 0 ω T le_rfl)
  have hv0 : 0 ≤ Var[φ; E] := variance_nonneg _ _
  have hbound : ENNReal.ofReal (2 * ((∏ t ∈ Finset.range T, B t) / (probabilityOf κ ℓ μ T).toReal) *
        (Var[φ; E] / ε ^ 2 + 1) / N) =
      ENNReal.ofReal ((∏ t ∈ Finset.range T, B t) / (probabilityOf κ ℓ μ T).toReal *
        (Var[φ; E] + ε ^ 2) / (ε ^ 2 * N)) + ENNReal.ofReal ((∏ t ∈ Finset.range T, B t) / (probabilityOf κ ℓ μ T).toReal *
        (Var[φ; E] + ε ^ 2) / (ε ^ 2 * N)) := by
    rw [← ENNReal.ofReal_add (by positivity) (by positivity)]
    congr 1
    field_simp
    ring
  rw [hbound]
  refine le_trans (measure_mono ?_) ((measure_union_le _ _).trans (add_le_add (hr 1 (by norm_num))
    (hr (-1) (by norm_num))))
  intro ω hω
  by_contra hno
  simp only [Set.mem_union, Set.mem_ofPred_eq, not_or, not_le, one_mul, neg_mul] at hno
  obtain ⟨n1, n2⟩ := hno
  refine hω ?_
  have w0 : 0 ≤ ∑ i ∈ Finset.range N, (pstate mv G x r i T ω).2 :=
    Finset.sum_nonneg fun i _ => pstate_nonneg hG0 i ω T
  have s1 : ∑ i ∈ Finset.range N, (pstate mv G x r i T ω).2 * (φ (pstate mv G x r i T ω).1 - m - ε) =
      ∑ i ∈ Finset.range N, (pstate mv G x r i T ω).2 * φ (pstate mv G x r i T ω).1 -
        (m + ε) * ∑ i ∈ Finset.range N, (pstate mv G x r i T ω).2 := by
    rw [Finset.mul_sum, ← Finset.sum_sub_distrib]
    exact Finset.sum_congr rfl fun i _ => by ring
  have s2 : ∑ i ∈ Finset.range N, (pstate mv G x r i T ω).2 * (-(φ (pstate mv G x r i T ω).1 - m) - ε) =
      (m - ε) * ∑ i ∈ Finset.range N, (pstate mv G x r i T ω).2 -
        ∑ i ∈ Finset.range N, (pstate mv G x r i T ω).2 * φ (pstate mv G x r i T ω).1 := by
    rw [Finset.mul_sum, ← Finset.sum_sub_distrib]
    exact Finset.sum_congr rfl fun i _ => by ring
  rw [s1] at n1
  rw [s2] at n2
  have wpos : 0 < ∑ i ∈ Finset.range N, (pstate mv G x r i T ω).2 := by
    rcases w0.lt_or_eq with hlt | heq
    · exact hlt
    · rw [← heq] at n1 n2
      nlinarith
  refine ⟨wpos, ?_⟩
  rw [abs_sub_lt_iff]
  constructor
  · rw [sub_lt_iff_lt_add, div_lt_iff₀ wpos]; linarith
  · rw [sub_lt_comm, lt_div_iff₀ wpos]; linarith

end BFL
