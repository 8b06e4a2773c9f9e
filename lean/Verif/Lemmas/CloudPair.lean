import Verif.Lemmas.Clouds

/-!
# Fresh random inputs for the particles of a cloud
-/

set_option linter.unusedSectionVars false

namespace BFL

open MeasureTheory ProbabilityTheory Filter
open scoped ENNReal Topology

variable {Ω Y V S : Type} [MeasurableSpace Ω] [MeasurableSpace Y] [MeasurableSpace V]
  [MeasurableSpace S] {P : Measure Ω} [IsProbabilityMeasure P]

theorem exists_gap {x a : ℝ≥0∞} (h : x < a) :
    ∃ b e : ℝ≥0∞, x < b ∧ 0 < e ∧ e ≠ ∞ ∧ b ≠ ∞ ∧ b + e + e ≤ a := by
  obtain ⟨b, h1, h2⟩ := exists_between h
  rcases eq_or_ne a ∞ with rfl | ha
  · exact ⟨b, 1, h1, one_pos, ENNReal.one_ne_top, h2.ne_top, le_top⟩
  · have hpos : 0 < a - b := tsub_pos_of_lt h2
    refine ⟨b, (a - b) / 2, h1, ENNReal.half_pos hpos.ne', ?_, h2.ne_top, ?_⟩
    · exact ne_top_of_le_ne_top ha (ENNReal.half_le_self.trans tsub_le_self)
    · rw [add_assoc, ENNReal.add_halves, add_tsub_cancel_of_le h2.le]

/-- Variance of a weighted sum of independent bounded terms. -/
theorem weighted_variance {N : ℕ} {ν : Measure V} [IsProbabilityMeasure ν] (w : Fin N → ℝ)
    {ψ : Fin N → V → ℝ} (hψ : ∀ i, Measurable (ψ i)) {M : ℝ} (hM : ∀ i v, |ψ i v| ≤ M) :
    ∫⁻ v, ENNReal.ofReal ((∑ i, w i * (ψ i (v i) - ∫ x, ψ i x ∂ν)) ^ 2)
        ∂(Measure.pi fun _ : Fin N => ν) ≤ ENNReal.ofReal (M ^ 2 * ∑ i, w i ^ 2) := by
  have hX : ∀ i, MemLp (fun v => w i * ψ i v) 2 ν := fun i =>
    MemLp.of_bound ((hψ i).const_mul _).aestronglyMeasurable (|w i| * M)
      (Eventually.of_forall fun v => by
        rw [Real.norm_eq_abs, abs_mul]
        exact mul_le_mul_of_nonneg_left (hM i v) (abs_nonneg _))
  have hv := variance_sum_pi (ι := Fin N) (μ := fun _ => ν) (X := fun i v => w i * ψ i v) hX
  have hle : ∀ i, Var[fun v => w i * ψ i v; ν] ≤ M ^ 2 * w i ^ 2 := by
    intro i
    refine (variance_le_expectation_sq ((hψ i).const_mul _).aestronglyMeasurable).trans ?_
    have hb : ∀ v, ((fun v => w i * ψ i v) ^ 2) v ≤ M ^ 2 * w i ^ 2 := by
      intro v
      simp only [Pi.pow_apply, mul_pow]
      rw [mul_comm]
      exact mul_le_mul_of_nonneg_right (sq_le_sq' (by have := hM i v; rw [abs_le] at this; linarith)
        (le_of_abs_le (hM i v))) (sq_nonneg _)
    calc ∫ v, ((fun v => w i * ψ i v) ^ 2) v ∂ν ≤ ∫ _, M ^ 2 * w i ^ 2 ∂ν :=
          integral_mono (by exact (hX i).integrable_sq) (integrable_const _) hb
      _ = M ^ 2 * w i ^ 2 := by simp
  have hmem : MemLp (∑ i, fun v : Fin N → V => w i * ψ i (v i)) 2 (Measure.pi fun _ => ν) := by
    apply memLp_finsetSum'
    intro i _
    exact (hX i).comp_measurePreserving (measurePreserving_eval (fun _ : Fin N => ν) i)
  have hmean : ∫ v, (∑ i, fun v : Fin N → V => w i * ψ i (v i)) v ∂(Measure.pi fun _ => ν) =
      ∑ i, w i * ∫ x, ψ i x ∂ν := by
    simp only [Finset.sum_apply]
    rw [integral_finsetSum]
    · apply Finset.sum_congr rfl
      intro i _
      have hp := measurePreserving_eval (fun _ : Fin N => ν) i
      have he : ∫ v : Fin N → V, w i * ψ i (v i) ∂(Measure.pi fun _ => ν) =
          ∫ x, w i * ψ i x ∂((Measure.pi fun _ : Fin N => ν).map (Function.eval i)) := by
        rw [integral_map hp.measurable.aemeasurable ((hψ i).const_mul _).aestronglyMeasurable]
      rw [he, hp.map_eq, integral_const_mul]
    · intro i _
      exact ((hX i).comp_measurePreserving
        (measurePreserving_eval (fun _ : Fin N => ν) i)).integrable (by norm_num)
  have hvar : Var[∑ i, fun v : Fin N → V => w i * ψ i (v i); Measure.pi fun _ => ν] =
      ∫ v, (∑ i, w i * (ψ i (v i) - ∫ x, ψ i x ∂ν)) ^ 2 ∂(Measure.pi fun _ : Fin N => ν) := by
    rw [variance_eq_integral hmem.aemeasurable, hmean]
    apply integral_congr_ae
    filter_upwards with v
    congr 1
    rw [Finset.sum_apply, ← Finset.sum_sub_distrib]
    exact Finset.sum_congr rfl fun i _ => by ring
  have hint : Integrable (fun v : Fin N → V => (∑ i, w i * (ψ i (v i) - ∫ x, ψ i x ∂ν)) ^ 2)
      (Measure.pi fun _ => ν) := by
    have h2 : MemLp (fun v : Fin N → V => ∑ i, w i * (ψ i (v i) - ∫ x, ψ i x ∂ν)) 2
        (Measure.pi fun _ => ν) := by
      refine (hmem.sub (memLp_const (∑ i, w i * ∫ x, ψ i x ∂ν))).ae_eq ?_
      filter_upwards with v
      rw [Pi.sub_apply, Finset.sum_apply, ← Finset.sum_sub_distrib]
      exact Finset.sum_congr rfl fun i _ => by ring
    exact h2.integrable_sq
  rw [← ofReal_integral_eq_lintegral_ofReal hint (Eventually.of_forall fun v => sq_nonneg _),
    ← hvar, hv, Finset.mul_sum]
  exact ENNReal.ofReal_le_ofReal (Finset.sum_le_sum fun i _ => hle i)

/-- Every particle gets an independent random input with law `ν`. -/
theorem Approx.pair {C : (N : ℕ) → Ω → Fin N → Y × ℝ} {π : Measure Y} (h : Approx P C π)
    {W : (N : ℕ) → Ω → Fin N → V} (hW : ∀ N, Measurable (W N)) {ν : Measure V}
    [IsProbabilityMeasure ν]
    (hind : ∀ N, P.map (fun ω => (C N ω, W N ω)) =
      (P.map (C N)).prod (Measure.pi fun _ : Fin N => ν)) :
    Approx P (fun N ω i => (((C N ω i).1, W N ω i), (C N ω i).2)) (π.prod ν) := by
  have := h.prob
  refine ⟨inferInstance, ?_, h.nonneg, h.total, h.mass, h.small, ?_⟩
  · intro N
    have hi : ∀ i, Measurable fun ω => C N ω i := fun i => (measurable_pi_apply i).comp (h.meas N)
    exact measurable_pi_lambda _ fun i => ((measurable_fst.comp (hi i)).prodMk
      ((measurable_pi_apply i).comp (hW N))).prodMk (measurable_snd.comp (hi i))
  intro g hg a ha
  obtain ⟨b, e, hb, he0, heT, hbT, hba⟩ := exists_gap ha
  refine Rare.of_le fun δ hδ hδT => ?_
  -- cut the function
  have hη : 0 < e * (δ / 2) := ENNReal.mul_pos he0.ne' (ENNReal.half_pos hδ.ne').ne'
  obtain ⟨M, hM⟩ := exists_tail (π.prod ν) hg ha.ne_top hη
  have hg1 : Measurable fun z : Y × V => min (g z) M := hg.min measurable_const
  have hg2 : Measurable fun z : Y × V => g z - min (g z) M := hg.sub hg1
  have hh1 : Measurable fun y => ∫⁻ v, min (g (y, v)) M ∂ν := hg1.lintegral_prod_right'
  have hh2 : Measurable fun y => ∫⁻ v, g (y, v) - min (g (y, v)) M ∂ν := hg2.lintegral_prod_right'
  have u1 : ∫⁻ y, ∫⁻ v, min (g (y, v)) M ∂ν ∂π < b := by
    refine lt_of_le_of_lt ?_ hb
    rw [← lintegral_prod (fun z : Y × V => min (g z) M) hg1.aemeasurable]
    exact lintegral_mono fun z => min_le_left _ _
  have u2 : ∫⁻ y, ∫⁻ v, g (y, v) - min (g (y, v)) M ∂ν ∂π < e * (δ / 2) := by
    rw [← lintegral_prod (fun z : Y × V => g z - min (g z) M) hg2.aemeasurable]
    exact hM
  have hh1M : ∀ y, ∫⁻ v, min (g (y, v)) M ∂ν ≤ M := by
    intro y
    calc ∫⁻ v, min (g (y, v)) M ∂ν ≤ ∫⁻ _, (M : ℝ≥0∞) ∂ν := lintegral_mono fun v => min_le_right _ _
      _ = M := by simp
  -- the real versions of the bounded part
  let ψ : Y → V → ℝ := fun y v => (min (g (y, v)) M).toReal
  have hψm : Measurable fun z : Y × V => ψ z.1 z.2 := hg1.ennreal_toReal
  have hψb : ∀ y v, |ψ y v| ≤ M := by
    intro y v
    rw [abs_of_nonneg ENNReal.toReal_nonneg]
    exact ENNReal.toReal_le_of_le_ofReal (Nat.cast_nonneg M) (by
      rw [ENNReal.ofReal_natCast]; exact min_le_right _ _)
  have hψi : ∀ y, ∫ v, ψ y v ∂ν = (∫⁻ v, min (g (y, v)) M ∂ν).toReal := by
    intro y
    have hm : Measurable fun v => min (g (y, v)) (M : ℝ≥0∞) := hg1.comp measurable_prodMk_left
    exact integral_toReal hm.aemeasurable (Eventually.of_forall fun v =>
      lt_of_le_of_lt (min_le_right _ _) (ENNReal.natCast_lt_top M))
  -- the two exceptional events
  have hF2 : ∀ N, Measurable fun z : (Fin N → Y × ℝ) × (Fin N → V) =>
      ∑ i, ENNReal.ofReal (z.1 i).2 * (g ((z.1 i).1, z.2 i) - min (g ((z.1 i).1, z.2 i)) M) := by
    intro N
    refine Finset.measurable_sum _ fun i _ => ?_
    have hi : Measurable fun z : (Fin N → Y × ℝ) × (Fin N → V) => z.1 i :=
      (measurable_pi_apply i).comp measurable_fst
    have hv : Measurable fun z : (Fin N → Y × ℝ) × (Fin N → V) => z.2 i :=
      (measurable_pi_apply i).comp measurable_snd
    exact (measurable_snd.comp hi).ennreal_ofReal.mul
      (hg2.comp ((measurable_fst.comp hi).prodMk hv))
  have hF1 : ∀ N, Measurable fun z : (Fin N → Y × ℝ) × (Fin N → V) =>
      ENNReal.ofReal ((∑ i, (z.1 i).2 * (ψ (z.1 i).1 (z.2 i) - ∫ v, ψ (z.1 i).1 v ∂ν)) ^ 2) := by
    intro N
    refine (Measurable.pow_const (Finset.measurable_sum _ fun i _ => ?_) 2).ennreal_ofReal
    have hi : Measurable fun z : (Fin N → Y × ℝ) × (Fin N → V) => z.1 i :=
      (measurable_pi_apply i).comp measurable_fst
    have hv : Measurable fun z : (Fin N → Y × ℝ) × (Fin N → V) => z.2 i :=
      (measurable_pi_apply i).comp measurable_snd
    refine (measurable_snd.comp hi).mul ((hψm.comp ((measurable_fst.comp hi).prodMk hv)).sub ?_)
    have hc : Measurable fun y => ∫ v, ψ y v ∂ν := by
      simp only [hψi]
      exact hh1.ennreal_toReal
    exact hc.comp (measurable_fst.comp hi)
  have b2 : ∀ N, P {ω | e ≤ ∑ i, ENNReal.ofReal (C N ω i).2 *
        (g ((C N ω i).1, W N ω i) - min (g ((C N ω i).1, W N ω i)) M)} ≤
      P {ω | e * (δ / 2) ≤ wsum (C N ω) fun y => ∫⁻ v, g (y, v) - min (g (y, v)) M ∂ν} +
        e * (δ / 2) / e := by
    intro N
    refine cond_markov (h.meas N) (hW N) (hind N) (hF2 N)
      (H := fun c => wsum c fun y => ∫⁻ v, g (y, v) - min (g (y, v)) M ∂ν)
      (fun ω => ?_) he0.ne' heT
    · have hgi : ∀ i, Measurable fun x => g ((C N ω i).1, x) - min (g ((C N ω i).1, x)) M :=
        fun i => hg2.comp measurable_prodMk_left
      have hgv : ∀ i, Measurable fun v : Fin N → V =>
          g ((C N ω i).1, v i) - min (g ((C N ω i).1, v i)) M :=
        fun i => (hgi i).comp (measurable_pi_apply i)
      show ∫⁻ v : Fin N → V, ∑ i, ENNReal.ofReal (C N ω i).2 *
        (g ((C N ω i).1, v i) - min (g ((C N ω i).1, v i)) M) ∂_ ≤ _
      rw [lintegral_finsetSum _ fun i _ => (hgv i).const_mul _]
      unfold wsum
      apply Finset.sum_le_sum
      intro i _
      have hp := measurePreserving_eval (fun _ : Fin N => ν) i
      rw [lintegral_const_mul' _ _ ENNReal.ofReal_ne_top]
      exact mul_le_mul_right (hp.lintegral_comp (hgi i)).le _
  have b1 : ∀ N, P {ω | e ^ 2 ≤ ENNReal.ofReal ((∑ i, (C N ω i).2 *
        (ψ (C N ω i).1 (W N ω i) - ∫ v, ψ (C N ω i).1 v ∂ν)) ^ 2)} ≤
      P {ω | e ^ 2 * (δ / 2) ≤ ENNReal.ofReal ((M : ℝ) ^ 2 * ∑ i, (C N ω i).2 ^ 2)} +
        e ^ 2 * (δ / 2) / e ^ 2 := by
    intro N
    have hψi : ∀ ω i, Measurable fun v => ψ (C N ω i).1 v := fun ω i =>
      hψm.comp measurable_prodMk_left
    have hwv := fun ω => weighted_variance (ν := ν) (fun i => (C N ω i).2)
      (ψ := fun i v => ψ (C N ω i).1 v) (hψi ω) (M := (M : ℝ)) fun i v => hψb _ v
    exact cond_markov (h.meas N) (hW N) (hind N) (hF1 N)
      (H := fun c => ENNReal.ofReal ((M : ℝ) ^ 2 * ∑ i, (c i).2 ^ 2)) hwv
      (pow_ne_zero 2 he0.ne') (ENNReal.pow_ne_top heT)
  have t1 : Rare P fun N => {ω | e ^ 2 * (δ / 2) ≤
      ENNReal.ofReal ((M : ℝ) ^ 2 * ∑ i, (C N ω i).2 ^ 2)} := by
    have hfin : e ^ 2 * (δ / 2) ≠ ∞ := ENNReal.mul_ne_top (ENNReal.pow_ne_top heT)
      (ne_top_of_le_ne_top hδT ENNReal.half_le_self)
    have hpos : e ^ 2 * (δ / 2) ≠ 0 :=
      mul_ne_zero (pow_ne_zero 2 he0.ne') (ENNReal.half_pos hδ.ne').ne'
    have hr : 0 < (e ^ 2 * (δ / 2)).toReal := ENNReal.toReal_pos hpos hfin
    refine (h.squares (η := (e ^ 2 * (δ / 2)).toReal / ((M : ℝ) ^ 2 + 1)) (by positivity)).mono
      (Eventually.of_forall fun N ω hω => ?_)
    have hω' : e ^ 2 * (δ / 2) ≤ ENNReal.ofReal ((M : ℝ) ^ 2 * ∑ i, (C N ω i).2 ^ 2) := hω
    have hs : 0 ≤ ∑ i, (C N ω i).2 ^ 2 := Finset.sum_nonneg fun i _ => sq_nonneg _
    have := ENNReal.toReal_le_of_le_ofReal (by positivity) hω'
    show _ ≤ ∑ i, (C N ω i).2 ^ 2
    rw [div_le_iff₀ (by positivity)]
    linarith
  refine ⟨fun N => P {ω | b ≤ wsum (C N ω) fun y => ∫⁻ v, min (g (y, v)) M ∂ν} +
    P {ω | e ^ 2 * (δ / 2) ≤ ENNReal.ofReal ((M : ℝ) ^ 2 * ∑ i, (C N ω i).2 ^ 2)} +
    P {ω | e * (δ / 2) ≤ wsum (C N ω) fun y => ∫⁻ v, g (y, v) - min (g (y, v)) M ∂ν}, ?_, ?_⟩
  · have := ((h.upper _ hh1 b u1).add t1).add (h.upper _ hh2 _ u2)
    simpa using this
  refine Eventually.of_forall fun N => ?_
  have hsub : {ω | a ≤ wsum (fun i => (((C N ω i).1, W N ω i), (C N ω i).2)) g} ⊆
      {ω | b ≤ wsum (C N ω) fun y => ∫⁻ v, min (g (y, v)) M ∂ν} ∪
      {ω | e ^ 2 ≤ ENNReal.ofReal ((∑ i, (C N ω i).2 *
        (ψ (C N ω i).1 (W N ω i) - ∫ v, ψ (C N ω i).1 v ∂ν)) ^ 2)} ∪
      {ω | e ≤ ∑ i, ENNReal.ofReal (C N ω i).2 *
        (g ((C N ω i).1, W N ω i) - min (g ((C N ω i).1, W N ω i)) M)} := by
    intro ω hω
    by_contra hc
    simp only [Set.mem_union, not_or] at hc
    obtain ⟨⟨c1, c2⟩, c3⟩ := hc
    have c1' : wsum (C N ω) (fun y => ∫⁻ v, min (g (y, v)) M ∂ν) < b := not_le.1 c1
    have c2' : ENNReal.ofReal ((∑ i, (C N ω i).2 *
        (ψ (C N ω i).1 (W N ω i) - ∫ v, ψ (C N ω i).1 v ∂ν)) ^ 2) < e ^ 2 := not_le.1 c2
    have c3' : ∑ i, ENNReal.ofReal (C N ω i).2 *
        (g ((C N ω i).1, W N ω i) - min (g ((C N ω i).1, W N ω i)) M) < e := not_le.1 c3
    have hω' : a ≤ wsum (fun i => (((C N ω i).1, W N ω i), (C N ω i).2)) g := hω
    have esplit : wsum (fun i => (((C N ω i).1, W N ω i), (C N ω i).2)) g =
        ENNReal.ofReal (∑ i, (C N ω i).2 * ψ (C N ω i).1 (W N ω i)) +
        ∑ i, ENNReal.ofReal (C N ω i).2 *
          (g ((C N ω i).1, W N ω i) - min (g ((C N ω i).1, W N ω i)) M) := by
      rw [ENNReal.ofReal_sum_of_nonneg fun i _ =>
        mul_nonneg (h.nonneg N ω i) ENNReal.toReal_nonneg, ← Finset.sum_add_distrib]
      unfold wsum
      apply Finset.sum_congr rfl
      intro i _
      have hne : min (g ((C N ω i).1, W N ω i)) (M : ℝ≥0∞) ≠ ∞ :=
        (lt_of_le_of_lt (min_le_right _ _) (ENNReal.natCast_lt_top M)).ne
      rw [ENNReal.ofReal_mul (h.nonneg N ω i), ENNReal.ofReal_toReal hne, ← mul_add,
        add_tsub_cancel_of_le (min_le_left _ _)]
    have emean : wsum (C N ω) (fun y => ∫⁻ v, min (g (y, v)) M ∂ν) =
        ENNReal.ofReal (∑ i, (C N ω i).2 * ∫ v, ψ (C N ω i).1 v ∂ν) := by
      rw [ENNReal.ofReal_sum_of_nonneg fun i _ =>
        mul_nonneg (h.nonneg N ω i) (integral_nonneg fun _ => ENNReal.toReal_nonneg)]
      unfold wsum
      apply Finset.sum_congr rfl
      intro i _
      rw [ENNReal.ofReal_mul (h.nonneg N ω i), hψi,
        ENNReal.ofReal_toReal (ne_top_of_le_ne_top (ENNReal.natCast_ne_top M) (hh1M _))]
    have c2'' : ∑ i, (C N ω i).2 * (ψ (C N ω i).1 (W N ω i) - ∫ v, ψ (C N ω i).1 v ∂ν) <
        e.toReal := by
      have he : ENNReal.ofReal (e.toReal ^ 2) = e ^ 2 := by
        rw [ENNReal.ofReal_pow ENNReal.toReal_nonneg, ENNReal.ofReal_toReal heT]
      rw [← he, ENNReal.ofReal_lt_ofReal_iff_of_nonneg (sq_nonneg _)] at c2'
      exact lt_of_pow_lt_pow_left₀ 2 ENNReal.toReal_nonneg c2'
    have hlt : ENNReal.ofReal (∑ i, (C N ω i).2 * ψ (C N ω i).1 (W N ω i)) ≤ b + e := by
      have hd : ∑ i, (C N ω i).2 * ψ (C N ω i).1 (W N ω i) =
          ∑ i, (C N ω i).2 * ∫ v, ψ (C N ω i).1 v ∂ν +
          ∑ i, (C N ω i).2 * (ψ (C N ω i).1 (W N ω i) - ∫ v, ψ (C N ω i).1 v ∂ν) := by
        rw [← Finset.sum_add_distrib]
        exact Finset.sum_congr rfl fun i _ => by ring
      rw [hd]
      refine ENNReal.ofReal_add_le.trans (add_le_add ?_ ?_)
      · rw [← emean]; exact c1'.le
      · exact ENNReal.ofReal_le_of_le_toReal c2''.le
    rw [esplit] at hω'
    have : a < b + e + e := lt_of_le_of_lt (hω'.trans (add_le_add hlt le_rfl))
      (ENNReal.add_lt_add_left (ENNReal.add_ne_top.2 ⟨hbT, heT⟩) c3')
    exact absurd hba (not_le.2 this)
  have d1 : e ^ 2 * (δ / 2) / e ^ 2 = δ / 2 :=
    by rw [mul_comm, ENNReal.mul_div_cancel_right (pow_ne_zero 2 he0.ne') (ENNReal.pow_ne_top heT)]
  have d2 : e * (δ / 2) / e = δ / 2 := by
    rw [mul_comm, ENNReal.mul_div_cancel_right he0.ne' heT]
  have k1 := b1 N
  have k2 := b2 N
  rw [d1] at k1
  rw [d2] at k2
  refine (measure_mono hsub).trans ((measure_union_le _ _).trans
    ((add_le_add ((measure_union_le _ _).trans (add_le_add le_rfl k1)) k2).trans (le_of_eq ?_)))
  have hadd : ∀ x y z d : ℝ≥0∞, x + (y + d) + (z + d) = x + y + z + (d + d) := by
    intro x y z d; ring
  rw [hadd, ENNReal.add_halves]

end BFL
