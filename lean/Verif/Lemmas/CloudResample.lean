import Verif.Lemmas.CloudPair
import Verif.Lemmas.Ripley

/-!
# Resampling the particles of a cloud
-/

set_option linter.unusedSectionVars false

namespace BFL

open MeasureTheory ProbabilityTheory Filter Spec
open scoped ENNReal Topology

variable {Ω Y : Type} [MeasurableSpace Ω] [MeasurableSpace Y] {P : Measure Ω}
  [IsProbabilityMeasure P]

/-- The weights as a list. -/
def weightsOf {N : ℕ} (c : Fin N → Y × ℝ) : List ℝ := List.ofFn fun i => (c i).2

/-- Number of the particle selected by `u`. -/
noncomputable def pick {N : ℕ} (c : Fin N → Y × ℝ) (u : ℝ) (i : Fin N) : Fin N :=
  if h : sel (weightsOf c) u < N then ⟨_, h⟩ else i

/-- Particles selected with ordered uniform numbers, with equal weights. -/
noncomputable def resampled {N : ℕ} (c : Fin N → Y × ℝ) (u : Fin N → ℝ) : Fin N → Y × ℝ :=
  fun i => ((c (pick c (orderedVec u i) i)).1, 1 / (N : ℝ))

open Classical in
/-- Resampling of the normalised particle sets in `D`. -/
noncomputable def resampleIf {N : ℕ} (D : Set (Fin N → Y × ℝ)) (c : Fin N → Y × ℝ)
    (u : Fin N → ℝ) : Fin N → Y × ℝ :=
  if c ∈ D ∧ ∑ i, (c i).2 = 1 then resampled c u else c

theorem massBelow_ofFn {N : ℕ} (w : Fin N → ℝ) (k : ℕ) :
    massBelow (List.ofFn w) k = ∑ i : Fin N, if i.1 < k then w i else 0 := by
  unfold massBelow
  rw [List.sum_take_ofFn, Finset.sum_filter]

theorem measurable_pick {N : ℕ} (i : Fin N) :
    Measurable fun z : (Fin N → Y × ℝ) × (Fin N → ℝ) => pick z.1 (orderedVec z.2 i) i := by
  have hs : Measurable fun z : (Fin N → Y × ℝ) × (Fin N → ℝ) =>
      sel (weightsOf z.1) (orderedVec z.2 i) := by
    unfold sel weightsOf
    simp only [List.length_ofFn, massBelow_ofFn]
    refine Finset.measurable_sum _ fun j _ => ?_
    refine Measurable.ite (measurableSet_lt ?_ ?_) measurable_const measurable_const
    · refine Finset.measurable_sum _ fun k _ => ?_
      by_cases hk : k.1 < j + 1
      · simp only [hk, if_true]
        exact measurable_snd.comp ((measurable_pi_apply k).comp measurable_fst)
      · simp only [hk, if_false]
        exact measurable_const
    · exact (measurable_pi_apply i).comp ((measurable_orderedVec N).comp measurable_snd)
  unfold pick
  exact (Measurable.of_discrete (f := fun k : ℕ => if h : k < N then (⟨k, h⟩ : Fin N) else i)).comp hs

theorem measurable_resampled {N : ℕ} :
    Measurable fun z : (Fin N → Y × ℝ) × (Fin N → ℝ) => resampled z.1 z.2 := by
  refine measurable_pi_lambda _ fun i => ?_
  refine Measurable.prodMk ?_ measurable_const
  intro A hA
  have : (fun z : (Fin N → Y × ℝ) × (Fin N → ℝ) => (z.1 (pick z.1 (orderedVec z.2 i) i)).1) ⁻¹' A =
      ⋃ j, {z | pick z.1 (orderedVec z.2 i) i = j} ∩ {z | (z.1 j).1 ∈ A} := by
    ext z
    simp
  rw [this]
  refine MeasurableSet.iUnion fun j => MeasurableSet.inter ?_ ?_
  · exact measurable_pick i (measurableSet_singleton j)
  · exact (measurable_fst.comp ((measurable_pi_apply j).comp measurable_fst)) hA

theorem measurable_total {N : ℕ} : Measurable fun c : Fin N → Y × ℝ => ∑ i, (c i).2 :=
  Finset.measurable_sum _ fun i _ => measurable_snd.comp (measurable_pi_apply i)

theorem measurableSet_cond {N : ℕ} {D : Set (Fin N → Y × ℝ)} (hD : MeasurableSet D) :
    MeasurableSet {c : Fin N → Y × ℝ | c ∈ D ∧ ∑ i, (c i).2 = 1} :=
  hD.inter (measurable_total (measurableSet_singleton 1))

theorem measurable_resampleIf {N : ℕ} {D : Set (Fin N → Y × ℝ)} (hD : MeasurableSet D) :
    Measurable fun z : (Fin N → Y × ℝ) × (Fin N → ℝ) => resampleIf D z.1 z.2 := by
  classical
  unfold resampleIf
  exact Measurable.ite (measurable_fst (measurableSet_cond hD)) measurable_resampled measurable_fst

theorem weightsOf_dist {N : ℕ} {c : Fin N → Y × ℝ} (h0 : ∀ i, 0 ≤ (c i).2)
    (h1 : ∑ i, (c i).2 = 1) : IsDistribution (weightsOf c) := by
  refine ⟨?_, ?_⟩
  · intro x hx
    unfold weightsOf at hx
    rw [List.mem_ofFn] at hx
    obtain ⟨i, rfl⟩ := hx
    exact h0 i
  · unfold weightsOf
    rw [List.sum_ofFn, h1]

/-- The particle selected by a number in the unit interval. -/
theorem pick_eq {N : ℕ} {c : Fin N → Y × ℝ} (h0 : ∀ i, 0 ≤ (c i).2)
    (h1 : ∑ i, (c i).2 = 1) {u : ℝ} (hu : 0 < u ∧ u ≤ 1) (i : Fin N) :
    (pick c u i).1 = sel (weightsOf c) u := by
  have h := (sel_inverts (weightsOf_dist h0 h1) hu.1 hu.2).1
  rw [weightsOf, List.length_ofFn] at h
  unfold pick weightsOf
  rw [dif_pos h]

/-- Mean over one draw of a function of the selected index. -/
theorem lintegral_sel {ws : List ℝ} (hd : IsDistribution ws) (h : ℕ → ℝ≥0∞) :
    ∫⁻ u in Set.Ioc (0 : ℝ) 1, h (sel ws u) = ∑ j : Fin ws.length, ENNReal.ofReal ws[j] * h j := by
  have hm : ∀ j : ℕ, MeasurableSet {u | sel ws u = j} := fun j =>
    measurable_sel ws (measurableSet_singleton j)
  have hae : ∀ᵐ u ∂(volume.restrict (Set.Ioc (0 : ℝ) 1)), h (sel ws u) =
      ∑ j : Fin ws.length, {u | sel ws u = j}.indicator (fun _ => h j) u := by
    filter_upwards [ae_restrict_mem measurableSet_Ioc] with u hu
    have hinv := sel_inverts hd hu.1 hu.2
    rw [Finset.sum_eq_single (⟨sel ws u, hinv.1⟩ : Fin ws.length)]
    · rw [Set.indicator_of_mem (show u ∈ {v | sel ws v = sel ws u} from rfl)]
    · intro j _ hj
      apply Set.indicator_of_notMem
      intro hc
      exact hj (Fin.ext (show j.1 = sel ws u from (show sel ws u = j.1 from hc).symm))
    · intro hc; exact absurd (Finset.mem_univ _) hc
  have hmi : ∀ j ∈ (Finset.univ : Finset (Fin ws.length)),
      Measurable fun u => {u | sel ws u = (j : ℕ)}.indicator (fun _ => h j) u := fun j _ =>
    measurable_const.indicator (hm j)
  rw [lintegral_congr_ae hae, lintegral_finsetSum _ hmi]
  apply Finset.sum_congr rfl
  intro j _
  rw [lintegral_indicator_const (hm j), volume_sel hd j.2, mul_comm]
  rfl

theorem sum_weightsOf {M : Type} [AddCommMonoid M] {N : ℕ} (c : Fin N → Y × ℝ) (F : ℝ → ℕ → M) :
    ∑ j : Fin (weightsOf c).length, F (weightsOf c)[j] j = ∑ i : Fin N, F (c i).2 i := by
  apply Fintype.sum_equiv (finCongr (by simp [weightsOf]))
  intro j
  have : (weightsOf c)[j] = (c ((finCongr (by simp [weightsOf])) j)).2 := by
    exact (List.getElem_ofFn (f := fun i => (c i).2) j.2)
  rw [this]
  rfl

/-- Mean of a sum over the resampled particles. -/
theorem lintegral_resampled {N : ℕ} (hN : 0 < N) {c : Fin N → Y × ℝ} (h0 : ∀ i, 0 ≤ (c i).2)
    (h1 : ∑ i, (c i).2 = 1) (φ : Y → ℝ≥0∞) :
    ∫⁻ u, wsum (resampled c u) φ ∂(unifs N) = wsum c φ := by
  have hd := weightsOf_dist h0 h1
  let g : ℕ → ℝ≥0∞ := fun j => if h : j < N then φ (c ⟨j, h⟩).1 else 0
  have hgm : Measurable fun x => g (sel (weightsOf c) x) :=
    (Measurable.of_discrete (f := g)).comp (measurable_sel _)
  have hae : ∀ᵐ u ∂(unifs N), wsum (resampled c u) φ =
      ENNReal.ofReal (1 / (N : ℝ)) * ∑ i : Fin N, g (sel (weightsOf c) (orderedVec u i)) := by
    filter_upwards [ae_unit N] with u hu
    unfold wsum resampled
    rw [Finset.mul_sum]
    apply Finset.sum_congr rfl
    intro i _
    have hp := pick_eq h0 h1 (orderedVec_unit hu i) i
    have hlt := (pick c (orderedVec u i) i).2
    simp only [g]
    rw [← hp, dif_pos hlt]
  have hmeas : Measurable fun u : Fin N → ℝ => ∑ i : Fin N, g (sel (weightsOf c) (u i)) :=
    Finset.measurable_sum _ fun i _ => hgm.comp (measurable_pi_apply i)
  have hsym : Symm fun u : Fin N → ℝ => ∑ i : Fin N, g (sel (weightsOf c) (u i)) := by
    intro v w hvw
    have h2 := (hvw.map fun x => g (sel (weightsOf c) x)).sum_eq
    rw [List.map_ofFn, List.map_ofFn, List.sum_ofFn, List.sum_ofFn] at h2
    exact h2
  have hone : ∀ i : Fin N, ∫⁻ u, g (sel (weightsOf c) (u i)) ∂(unifs N) =
      wsum c φ := by
    intro i
    have hp := measurePreserving_eval (fun _ : Fin N => (volume : Measure ℝ).restrict (Set.Ioc 0 1)) i
    refine (hp.lintegral_comp hgm).trans ?_
    rw [lintegral_sel hd g, sum_weightsOf c fun w j => ENNReal.ofReal w * g j]
    unfold wsum
    apply Finset.sum_congr rfl
    intro j _
    simp [g]
  have hmi : ∀ i ∈ (Finset.univ : Finset (Fin N)),
      Measurable fun u : Fin N → ℝ => g (sel (weightsOf c) (u i)) := fun i _ =>
    hgm.comp (measurable_pi_apply i)
  rw [lintegral_congr_ae hae, lintegral_const_mul' _ _ ENNReal.ofReal_ne_top,
    orderedVec_law N hmeas hsym, lintegral_finsetSum _ hmi]
  simp only [hone, Finset.sum_const, Finset.card_univ, Fintype.card_fin, nsmul_eq_mul]
  have hN' : (0 : ℝ) < N := by exact_mod_cast hN
  rw [← mul_assoc, ← ENNReal.ofReal_natCast, ← ENNReal.ofReal_mul (by positivity),
    one_div_mul_cancel hN'.ne', ENNReal.ofReal_one, one_mul]

/-- Variance of an average over the resampled particles. -/
theorem variance_resampled {N : ℕ} (hN : 0 < N) {c : Fin N → Y × ℝ} (h0 : ∀ i, 0 ≤ (c i).2)
    (h1 : ∑ i, (c i).2 = 1) {ψ : Y → ℝ} {M : ℝ} (hM : ∀ y, |ψ y| ≤ M) :
    ∫⁻ u, ENNReal.ofReal ((∑ i, 1 / (N : ℝ) * ψ (resampled c u i).1 - ∑ i, (c i).2 * ψ (c i).1) ^ 2)
      ∂(unifs N) ≤ ENNReal.ofReal (M ^ 2 / N) := by
  have hd := weightsOf_dist h0 h1
  have hN' : (0 : ℝ) < N := by exact_mod_cast hN
  let g : ℕ → ℝ := fun j => if h : j < N then ψ (c ⟨j, h⟩).1 else 0
  have hM0 : 0 ≤ M := (abs_nonneg _).trans (hM (c ⟨0, hN⟩).1)
  have hgb : ∀ j, |g j| ≤ M := by
    intro j
    simp only [g]
    split
    · exact hM _
    · simpa using hM0
  have hgi : ∀ i : Fin N, g i = ψ (c i).1 := fun i => by simp [g]
  have hgm : Measurable fun x => g (sel (weightsOf c) x) :=
    (Measurable.of_discrete (f := g)).comp (measurable_sel _)
  have hae : ∀ᵐ u ∂(unifs N),
      ENNReal.ofReal ((∑ i, 1 / (N : ℝ) * ψ (resampled c u i).1 - ∑ i, (c i).2 * ψ (c i).1) ^ 2) =
      ENNReal.ofReal (((∑ i : Fin N, g (sel (weightsOf c) (orderedVec u i))) / N -
        ∑ j : Fin (weightsOf c).length, (weightsOf c)[j] * g j) ^ 2) := by
    filter_upwards [ae_unit N] with u hu
    rw [sum_weightsOf c fun w j => w * g j, Finset.sum_div]
    simp only [hgi]
    congr 3
    apply Finset.sum_congr rfl
    intro i _
    have hp := pick_eq h0 h1 (orderedVec_unit hu i) i
    have hlt := (pick c (orderedVec u i) i).2
    simp only [g, resampled]
    rw [← hp, dif_pos hlt]
    ring
  have hm : Measurable fun u : Fin N → ℝ => (∑ i : Fin N, g (sel (weightsOf c) (orderedVec u i))) / N -
        ∑ j : Fin (weightsOf c).length, (weightsOf c)[j] * g j := by
    refine (Measurable.div_const (Finset.measurable_sum _ fun i _ => ?_) _).sub_const _
    exact hgm.comp ((measurable_pi_apply i).comp (measurable_orderedVec N))
  have hsb : ∀ u : Fin N → ℝ, |(∑ i : Fin N, g (sel (weightsOf c) (orderedVec u i))) / N| ≤ M := by
    intro u
    rw [abs_div, Nat.abs_cast, div_le_iff₀ hN']
    calc |∑ i : Fin N, g (sel (weightsOf c) (orderedVec u i))|
        ≤ ∑ i : Fin N, |g (sel (weightsOf c) (orderedVec u i))| := Finset.abs_sum_le_sum_abs _ _
      _ ≤ ∑ _i : Fin N, M := Finset.sum_le_sum fun i _ => hgb _
      _ = M * N := by simp [mul_comm]
  have hint : Integrable (fun u : Fin N → ℝ =>
      ((∑ i : Fin N, g (sel (weightsOf c) (orderedVec u i))) / N -
        ∑ j : Fin (weightsOf c).length, (weightsOf c)[j] * g j) ^ 2) (unifs N) := by
    refine Integrable.of_bound (hm.pow_const 2).aestronglyMeasurable
      ((M + |∑ j : Fin (weightsOf c).length, (weightsOf c)[j] * g j|) ^ 2)
      (Eventually.of_forall fun u => ?_)
    rw [Real.norm_eq_abs, abs_of_nonneg (sq_nonneg _)]
    rw [← sq_abs]
    refine pow_le_pow_left₀ (abs_nonneg _) ?_ 2
    exact (abs_sub _ _).trans (add_le_add (hsb u) le_rfl)
  rw [lintegral_congr_ae hae, ← ofReal_integral_eq_lintegral_ofReal hint
    (Eventually.of_forall fun u => sq_nonneg _), (ordered_average hN hd g).2]
  apply ENNReal.ofReal_le_ofReal
  apply div_le_div_of_nonneg_right _ hN'.le
  have h2 : ∑ j : Fin (weightsOf c).length, (weightsOf c)[j] * g j ^ 2 ≤ M ^ 2 := by
    rw [sum_weightsOf c fun w j => w * g j ^ 2]
    calc ∑ i : Fin N, (c i).2 * g i ^ 2 ≤ ∑ i : Fin N, (c i).2 * M ^ 2 :=
          Finset.sum_le_sum fun i _ => mul_le_mul_of_nonneg_left
            (by rw [← sq_abs]; exact pow_le_pow_left₀ (abs_nonneg _) (hgb _) 2) (h0 i)
      _ = M ^ 2 := by rw [← Finset.sum_mul, h1, one_mul]
  have h3 := sq_nonneg (∑ j : Fin (weightsOf c).length, (weightsOf c)[j] * g j)
  linarith

/-- A resampled particle set keeps the mean of a sum over the particles. -/
theorem lintegral_resampleIf {N : ℕ} {D : Set (Fin N → Y × ℝ)} {c : Fin N → Y × ℝ}
    (h0 : ∀ i, 0 ≤ (c i).2) (φ : Y → ℝ≥0∞) :
    ∫⁻ u, wsum (resampleIf D c u) φ ∂(unifs N) = wsum c φ := by
  classical
  unfold resampleIf
  by_cases h : c ∈ D ∧ ∑ i, (c i).2 = 1
  · simp only [if_pos h]
    have hN : 0 < N := by
      rcases Nat.eq_zero_or_pos N with rfl | hN
      · have := h.2; simp at this
      · exact hN
    exact lintegral_resampled hN h0 h.2 φ
  · simp only [if_neg h, lintegral_const, measure_univ, mul_one]

theorem variance_resampleIf {N : ℕ} {D : Set (Fin N → Y × ℝ)} {c : Fin N → Y × ℝ}
    (h0 : ∀ i, 0 ≤ (c i).2) {ψ : Y → ℝ} {M : ℝ} (hM : ∀ y, |ψ y| ≤ M) :
    ∫⁻ u, ENNReal.ofReal ((∑ i, (resampleIf D c u i).2 * ψ (resampleIf D c u i).1 -
      ∑ i, (c i).2 * ψ (c i).1) ^ 2) ∂(unifs N) ≤ ENNReal.ofReal (M ^ 2 / N) := by
  classical
  unfold resampleIf
  by_cases h : c ∈ D ∧ ∑ i, (c i).2 = 1
  · simp only [if_pos h]
    have hN : 0 < N := by
      rcases Nat.eq_zero_or_pos N with rfl | hN
      · have := h.2; simp at this
      · exact hN
    exact variance_resampled hN h0 h.2 hM
  · simp only [if_neg h, sub_self]
    simp

theorem resampleIf_nonneg {N : ℕ} {D : Set (Fin N → Y × ℝ)} {c : Fin N → Y × ℝ}
    (h0 : ∀ i, 0 ≤ (c i).2) (u : Fin N → ℝ) (i : Fin N) : 0 ≤ (resampleIf D c u i).2 := by
  unfold resampleIf
  split
  · simp [resampled]
  · exact h0 i

theorem resampleIf_total {N : ℕ} (D : Set (Fin N → Y × ℝ)) (c : Fin N → Y × ℝ) (u : Fin N → ℝ) :
    ∑ i, (resampleIf D c u i).2 = ∑ i, (c i).2 := by
  unfold resampleIf
  split
  · rename_i h
    rw [h.2]
    rcases Nat.eq_zero_or_pos N with rfl | hN
    · have := h.2; simp at this
    · have : (0 : ℝ) < N := by exact_mod_cast hN
      simp [resampled, this.ne']
  · rfl

/-- Resampling of some of the particle sets keeps the approximation. -/
theorem Approx.resample {C : (N : ℕ) → Ω → Fin N → Y × ℝ} {π : Measure Y} (h : Approx P C π)
    {D : (N : ℕ) → Set (Fin N → Y × ℝ)} (hD : ∀ N, MeasurableSet (D N))
    {U : (N : ℕ) → Ω → Fin N → ℝ} (hU : ∀ N, Measurable (U N))
    (hind : ∀ N, P.map (fun ω => (C N ω, U N ω)) = (P.map (C N)).prod (unifs N)) :
    Approx P (fun N ω => resampleIf (D N) (C N ω) (U N ω)) π := by
  have := h.prob
  refine ⟨inferInstance, ?_, ?_, ?_, ?_, ?_, ?_⟩
  · intro N
    exact (measurable_resampleIf (hD N)).comp ((h.meas N).prodMk (hU N))
  · intro N ω i
    exact resampleIf_nonneg (h.nonneg N ω) _ i
  · intro N ω
    rw [resampleIf_total]
    exact h.total N ω
  · refine h.mass.mono (Eventually.of_forall fun N ω hω => ?_)
    have hω' : ∑ i, (resampleIf (D N) (C N ω) (U N ω) i).2 ≠ 1 := hω
    rw [resampleIf_total] at hω'
    exact hω'
  · intro ε hε
    refine (h.small ε hε).mono ?_
    have ht : ∀ᶠ N : ℕ in atTop, 1 / (N : ℝ) < ε :=
      (tendsto_order.1 tendsto_one_div_atTop_nhds_zero_nat).2 ε hε
    filter_upwards [ht] with N hN
    rintro ω ⟨i, hi⟩
    unfold resampleIf at hi
    split at hi
    · exact absurd hi (not_le.2 hN)
    · exact ⟨i, hi⟩
  intro φ hφ a ha
  obtain ⟨b, e, hb, he0, heT, hbT, hba⟩ := exists_gap ha
  refine Rare.of_le fun δ hδ hδT => ?_
  have hη : 0 < e * (δ / 2) := ENNReal.mul_pos he0.ne' (ENNReal.half_pos hδ.ne').ne'
  obtain ⟨M, hM⟩ := exists_tail π hφ ha.ne_top hη
  have hφ1 : Measurable fun y => min (φ y) (M : ℝ≥0∞) := hφ.min measurable_const
  have hφ2 : Measurable fun y => φ y - min (φ y) (M : ℝ≥0∞) := hφ.sub hφ1
  have u1 : ∫⁻ y, min (φ y) M ∂π < b := lt_of_le_of_lt (lintegral_mono fun y => min_le_left _ _) hb
  let ψ : Y → ℝ := fun y => (min (φ y) M).toReal
  have hψm : Measurable ψ := hφ1.ennreal_toReal
  have hψb : ∀ y, |ψ y| ≤ M := by
    intro y
    rw [abs_of_nonneg ENNReal.toReal_nonneg]
    exact ENNReal.toReal_le_of_le_ofReal (Nat.cast_nonneg M) (by
      rw [ENNReal.ofReal_natCast]; exact min_le_right _ _)
  have hsum : ∀ {N : ℕ}, Measurable fun c : Fin N → Y × ℝ => ∑ i, (c i).2 * ψ (c i).1 := by
    intro N
    refine Finset.measurable_sum _ fun i _ => ?_
    have hi : Measurable fun c : Fin N → Y × ℝ => c i := measurable_pi_apply i
    exact (measurable_snd.comp hi).mul (hψm.comp (measurable_fst.comp hi))
  have hF2 : ∀ N, Measurable fun z : (Fin N → Y × ℝ) × (Fin N → ℝ) =>
      wsum (resampleIf (D N) z.1 z.2) fun y => φ y - min (φ y) (M : ℝ≥0∞) := fun N =>
    (measurable_wsum hφ2).comp (measurable_resampleIf (hD N))
  have hF1 : ∀ N, Measurable fun z : (Fin N → Y × ℝ) × (Fin N → ℝ) =>
      ENNReal.ofReal ((∑ i, (resampleIf (D N) z.1 z.2 i).2 * ψ (resampleIf (D N) z.1 z.2 i).1 -
        ∑ i, (z.1 i).2 * ψ (z.1 i).1) ^ 2) := fun N =>
    (((hsum.comp (measurable_resampleIf (hD N))).sub (hsum.comp measurable_fst)).pow_const
      2).ennreal_ofReal
  have b2 : ∀ N, P {ω | e ≤ wsum (resampleIf (D N) (C N ω) (U N ω))
        fun y => φ y - min (φ y) (M : ℝ≥0∞)} ≤
      P {ω | e * (δ / 2) ≤ wsum (C N ω) fun y => φ y - min (φ y) (M : ℝ≥0∞)} +
        e * (δ / 2) / e := by
    intro N
    exact cond_markov (h.meas N) (hU N) (hind N) (hF2 N)
      (H := fun c => wsum c fun y => φ y - min (φ y) (M : ℝ≥0∞))
      (fun ω => (lintegral_resampleIf (h.nonneg N ω) _).le) he0.ne' heT
  have b1 : ∀ N, P {ω | e ^ 2 ≤ ENNReal.ofReal ((∑ i, (resampleIf (D N) (C N ω) (U N ω) i).2 *
        ψ (resampleIf (D N) (C N ω) (U N ω) i).1 - ∑ i, (C N ω i).2 * ψ (C N ω i).1) ^ 2)} ≤
      P {_ω : Ω | e ^ 2 * (δ / 2) ≤ ENNReal.ofReal ((M : ℝ) ^ 2 / N)} +
        e ^ 2 * (δ / 2) / e ^ 2 := by
    intro N
    exact cond_markov (h.meas N) (hU N) (hind N) (hF1 N)
      (H := fun _ => ENNReal.ofReal ((M : ℝ) ^ 2 / N))
      (fun ω => variance_resampleIf (h.nonneg N ω) hψb)
      (pow_ne_zero 2 he0.ne') (ENNReal.pow_ne_top heT)
  have t1 : Rare P fun N => {_ω : Ω | e ^ 2 * (δ / 2) ≤ ENNReal.ofReal ((M : ℝ) ^ 2 / N)} := by
    have hpos : 0 < e ^ 2 * (δ / 2) :=
      ENNReal.mul_pos (pow_ne_zero 2 he0.ne') (ENNReal.half_pos hδ.ne').ne'
    have ht : Tendsto (fun N : ℕ => ENNReal.ofReal ((M : ℝ) ^ 2 / N)) atTop (𝓝 0) := by
      have := (ENNReal.tendsto_ofReal
        (tendsto_const_div_atTop_nhds_zero_nat ((M : ℝ) ^ 2)))
      simpa using this
    refine Rare.empty.mono ?_
    filter_upwards [(tendsto_order.1 ht).2 _ hpos] with N hN ω hω
    exact absurd hω (not_le.2 hN)
  refine ⟨fun N => P {ω | b ≤ wsum (C N ω) fun y => min (φ y) M} +
    P {_ω : Ω | e ^ 2 * (δ / 2) ≤ ENNReal.ofReal ((M : ℝ) ^ 2 / N)} +
    P {ω | e * (δ / 2) ≤ wsum (C N ω) fun y => φ y - min (φ y) (M : ℝ≥0∞)}, ?_, ?_⟩
  · have := ((h.upper _ hφ1 b u1).add t1).add (h.upper _ hφ2 _ hM)
    simpa using this
  refine Eventually.of_forall fun N => ?_
  have real_sum : ∀ c : Fin N → Y × ℝ, (∀ i, 0 ≤ (c i).2) →
      wsum c (fun y => min (φ y) M) = ENNReal.ofReal (∑ i, (c i).2 * ψ (c i).1) := by
    intro c hc
    rw [ENNReal.ofReal_sum_of_nonneg fun i _ => mul_nonneg (hc i) ENNReal.toReal_nonneg]
    unfold wsum
    apply Finset.sum_congr rfl
    intro i _
    have hne : min (φ (c i).1) (M : ℝ≥0∞) ≠ ∞ :=
      (lt_of_le_of_lt (min_le_right _ _) (ENNReal.natCast_lt_top M)).ne
    rw [ENNReal.ofReal_mul (hc i), ENNReal.ofReal_toReal hne]
  have hsub : {ω | a ≤ wsum (resampleIf (D N) (C N ω) (U N ω)) φ} ⊆
      {ω | b ≤ wsum (C N ω) fun y => min (φ y) M} ∪
      {ω | e ^ 2 ≤ ENNReal.ofReal ((∑ i, (resampleIf (D N) (C N ω) (U N ω) i).2 *
        ψ (resampleIf (D N) (C N ω) (U N ω) i).1 - ∑ i, (C N ω i).2 * ψ (C N ω i).1) ^ 2)} ∪
      {ω | e ≤ wsum (resampleIf (D N) (C N ω) (U N ω))
        fun y => φ y - min (φ y) (M : ℝ≥0∞)} := by
    intro ω hω
    by_contra hc
    simp only [Set.mem_union, not_or] at hc
    obtain ⟨⟨c1, c2⟩, c3⟩ := hc
    have c1' : wsum (C N ω) (fun y => min (φ y) M) < b := not_le.1 c1
    have c2' : ENNReal.ofReal ((∑ i, (resampleIf (D N) (C N ω) (U N ω) i).2 *
        ψ (resampleIf (D N) (C N ω) (U N ω) i).1 - ∑ i, (C N ω i).2 * ψ (C N ω i).1) ^ 2) <
        e ^ 2 := not_le.1 c2
    have c3' : wsum (resampleIf (D N) (C N ω) (U N ω))
        (fun y => φ y - min (φ y) (M : ℝ≥0∞)) < e := not_le.1 c3
    have hω' : a ≤ wsum (resampleIf (D N) (C N ω) (U N ω)) φ := hω
    have esplit : wsum (resampleIf (D N) (C N ω) (U N ω)) φ =
        wsum (resampleIf (D N) (C N ω) (U N ω)) (fun y => min (φ y) M) +
        wsum (resampleIf (D N) (C N ω) (U N ω)) (fun y => φ y - min (φ y) (M : ℝ≥0∞)) := by
      rw [← wsum_add]
      congr 1
      funext y
      rw [add_tsub_cancel_of_le (min_le_left _ _)]
    have c2'' : ∑ i, (resampleIf (D N) (C N ω) (U N ω) i).2 *
        ψ (resampleIf (D N) (C N ω) (U N ω) i).1 - ∑ i, (C N ω i).2 * ψ (C N ω i).1 <
        e.toReal := by
      have he : ENNReal.ofReal (e.toReal ^ 2) = e ^ 2 := by
        rw [ENNReal.ofReal_pow ENNReal.toReal_nonneg, ENNReal.ofReal_toReal heT]
      rw [← he, ENNReal.ofReal_lt_ofReal_iff_of_nonneg (sq_nonneg _)] at c2'
      exact lt_of_pow_lt_pow_left₀ 2 ENNReal.toReal_nonneg c2'
    have hlt : wsum (resampleIf (D N) (C N ω) (U N ω)) (fun y => min (φ y) M) ≤ b + e := by
      rw [real_sum _ (resampleIf_nonneg (h.nonneg N ω) _)]
      have hd := add_sub_cancel (∑ i, (C N ω i).2 * ψ (C N ω i).1)
        (∑ i, (resampleIf (D N) (C N ω) (U N ω) i).2 * ψ (resampleIf (D N) (C N ω) (U N ω) i).1)
      rw [← hd]
      refine ENNReal.ofReal_add_le.trans (add_le_add ?_ ?_)
      · rw [← real_sum _ (h.nonneg N ω)]; exact c1'.le
      · exact ENNReal.ofReal_le_of_le_toReal c2''.le
    rw [esplit] at hω'
    have : a < b + e + e := lt_of_le_of_lt (hω'.trans (add_le_add hlt le_rfl))
      (ENNReal.add_lt_add_left (ENNReal.add_ne_top.2 ⟨hbT, heT⟩) c3')
    exact absurd hba (not_le.2 this)
  have d1 : e ^ 2 * (δ / 2) / e ^ 2 = δ / 2 :=
    by rw [mul_comm, ENNReal.mul_div_cancel_right (pow_ne_zero 2 he0.ne') (ENNReal.pow_ne_top heT)]
  have d2 : e * (δ / 2) / e = δ / 2 := by
    rw [mul_comm, ENNReal.mul_div_cancel_right he0.ne' heT]
  have k1 := b1 N
  have k2 := b2 N
  rw [d1] at k1
  rw [d2] at k2
  refine (measure_mono hsub).trans ((measure_union_le _ _).trans
    ((add_le_add ((measure_union_le _ _).trans (add_le_add le_rfl k1)) k2).trans (le_of_eq ?_)))
  have hadd : ∀ x y z d : ℝ≥0∞, x + (y + d) + (z + d) = x + y + z + (d + d) := by
    intro x y z d; ring
  rw [hadd, ENNReal.add_halves]

end BFL
