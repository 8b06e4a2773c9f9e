import Mathlib.MeasureTheory.Constructions.Pi
import Mathlib.MeasureTheory.Integral.Prod
import Mathlib.Probability.Moments.Variance
import Mathlib.Probability.Independence.Basic
import Mathlib.MeasureTheory.Integral.Lebesgue.Sub

/-!
# Random weighted particle sets that approximate a distribution

A cloud is a sequence, over the number `N` of particles, of random weighted particle sets. `Approx`
says that its averages tend in probability to those of a distribution. Pairing every particle with a
fresh random input, weighting and mapping keep this.
-/

set_option linter.unusedSectionVars false

namespace BFL

open MeasureTheory ProbabilityTheory Filter
open scoped ENNReal Topology

variable {Ω Y V S : Type} [MeasurableSpace Ω] [MeasurableSpace Y] [MeasurableSpace V]
  [MeasurableSpace S] {P : Measure Ω} [IsProbabilityMeasure P]

/-! ## Events of vanishing probability -/

/-- The probabilities of the events tend to 0. -/
def Rare (P : Measure Ω) (A : ℕ → Set Ω) : Prop := Tendsto (fun N => P (A N)) atTop (𝓝 0)

theorem Rare.of_le {A : ℕ → Set Ω}
    (h : ∀ δ : ℝ≥0∞, 0 < δ → δ ≠ ∞ → ∃ u : ℕ → ℝ≥0∞, Tendsto u atTop (𝓝 0) ∧
      ∀ᶠ N in atTop, P (A N) ≤ u N + δ) :
    Rare P A := by
  unfold Rare
  rw [ENNReal.tendsto_nhds_zero]
  intro δ hδ
  obtain ⟨δ', h0, h1⟩ : ∃ δ' : ℝ≥0∞, 0 < δ' ∧ δ' + δ' ≤ δ ∧ δ' ≠ ∞ := by
    rcases eq_or_ne δ ∞ with rfl | hd
    · exact ⟨1, one_pos, le_top, ENNReal.one_ne_top⟩
    · exact ⟨δ / 2, ENNReal.half_pos hδ.ne', (ENNReal.add_halves δ).le,
        (ENNReal.half_lt_self hδ.ne' hd).ne_top⟩
  obtain ⟨B, hB, hN⟩ := h δ' h0 h1.2
  rw [ENNReal.tendsto_nhds_zero] at hB
  filter_upwards [hN, hB δ' h0] with N k1 k2
  exact k1.trans ((add_le_add k2 le_rfl).trans h1.1)

theorem Rare.mono' {A B : ℕ → Set Ω} (hB : Rare P B) (h : ∀ᶠ N in atTop, P (A N) ≤ P (B N)) :
    Rare P A :=
  tendsto_of_tendsto_of_tendsto_of_le_of_le' tendsto_const_nhds hB
    (Eventually.of_forall fun _ => zero_le) h

theorem Rare.mono {A B : ℕ → Set Ω} (hB : Rare P B) (h : ∀ᶠ N in atTop, A N ⊆ B N) :
    Rare P A :=
  hB.mono' (h.mono fun _ hN => measure_mono hN)

theorem Rare.union {A B : ℕ → Set Ω} (hA : Rare P A) (hB : Rare P B) :
    Rare P fun N => A N ∪ B N := by
  have h : Tendsto (fun N => P (A N) + P (B N)) atTop (𝓝 0) := by simpa using hA.add hB
  exact tendsto_of_tendsto_of_tendsto_of_le_of_le tendsto_const_nhds h (fun _ => zero_le)
    fun N => measure_union_le _ _

theorem Rare.iUnion {ι : Type} [Finite ι] {A : ι → ℕ → Set Ω} (h : ∀ k, Rare P (A k)) :
    Rare P fun N => ⋃ k, A k N := by
  have := Fintype.ofFinite ι
  have h1 : Tendsto (fun N => ∑ k, P (A k N)) atTop (𝓝 (∑ _k : ι, 0)) :=
    tendsto_finsetSum _ fun k _ => h k
  rw [Finset.sum_const_zero] at h1
  exact tendsto_of_tendsto_of_tendsto_of_le_of_le tendsto_const_nhds h1 (fun _ => zero_le)
    fun N => measure_iUnion_fintype_le _ _

theorem Rare.empty : Rare P fun _ => ∅ := by simp [Rare]

theorem Rare.of_ae {A : ℕ → Set Ω} (h : ∀ N, P (A N) = 0) : Rare P A := by simp [Rare, h]

/-- Markov's inequality given an independent random input. -/
theorem cond_markov {C : Ω → S} {W : Ω → V} {ρ : Measure V} [IsProbabilityMeasure ρ]
    (hC : Measurable C) (hW : Measurable W)
    (hind : P.map (fun ω => (C ω, W ω)) = (P.map C).prod ρ) {F : S × V → ℝ≥0∞}
    (hF : Measurable F) {H : S → ℝ≥0∞}
    (hb : ∀ ω, ∫⁻ v, F (C ω, v) ∂ρ ≤ H (C ω)) {ε η : ℝ≥0∞} (hε : ε ≠ 0) (hε' : ε ≠ ∞) :
    P {ω | ε ≤ F (C ω, W ω)} ≤ P {ω | η ≤ H (C ω)} + η / ε := by
  have hset : MeasurableSet {z : S × V | ε ≤ F z} := hF measurableSet_Ici
  have e1 : P {ω | ε ≤ F (C ω, W ω)} = ∫⁻ ω, ρ {v | ε ≤ F (C ω, v)} ∂P := by
    have : {ω | ε ≤ F (C ω, W ω)} = (fun ω => (C ω, W ω)) ⁻¹' {z : S × V | ε ≤ F z} := rfl
    have hm : Measurable fun c => ρ (Prod.mk c ⁻¹' {z : S × V | ε ≤ F z}) :=
      measurable_measure_prodMk_left hset
    rw [this, ← Measure.map_apply (hC.prodMk hW) hset, hind, Measure.prod_apply hset,
      lintegral_map hm hC]
    rfl
  have hle : ∀ ω, ρ {v | ε ≤ F (C ω, v)} ≤ H (C ω) / ε := fun ω =>
    (meas_ge_le_lintegral_div (hF.comp measurable_prodMk_left).aemeasurable hε hε').trans
      (ENNReal.div_le_div_right (hb ω) ε)
  rw [e1]
  calc ∫⁻ ω, ρ {v | ε ≤ F (C ω, v)} ∂P
      ≤ ∫⁻ ω, (toMeasurable P {ω | η ≤ H (C ω)}).indicator (fun _ => 1) ω + η / ε ∂P := by
        apply lintegral_mono
        intro ω
        by_cases h : η ≤ H (C ω)
        · have hm : ω ∈ toMeasurable P {ω | η ≤ H (C ω)} := subset_toMeasurable _ _ h
          simp only [Set.indicator_of_mem hm]
          exact (prob_le_one (μ := ρ)).trans le_self_add
        · exact ((hle ω).trans (ENNReal.div_le_div_right (not_le.1 h).le ε)).trans le_add_self
    _ = P {ω | η ≤ H (C ω)} + η / ε := by
        rw [lintegral_add_right _ measurable_const, lintegral_indicator_const
          (measurableSet_toMeasurable _ _), lintegral_const, measure_univ, mul_one, one_mul,
          measure_toMeasurable]

/-! ## Clouds -/

/-- Sum of `φ` over weighted particles. -/
noncomputable def wsum {N : ℕ} (c : Fin N → Y × ℝ) (φ : Y → ℝ≥0∞) : ℝ≥0∞ :=
  ∑ i, ENNReal.ofReal (c i).2 * φ (c i).1

/-- The random particle sets approximate the distribution `π`. -/
structure Approx (P : Measure Ω) (C : (N : ℕ) → Ω → Fin N → Y × ℝ) (π : Measure Y) : Prop where
  prob : IsProbabilityMeasure π
  meas : ∀ N, Measurable (C N)
  nonneg : ∀ N ω i, 0 ≤ (C N ω i).2
  total : ∀ N ω, ∑ i, (C N ω i).2 ≤ 1
  mass : Rare P fun N => {ω | ∑ i, (C N ω i).2 ≠ 1}
  small : ∀ ε > 0, Rare P fun N => {ω | ∃ i, ε ≤ (C N ω i).2}
  upper : ∀ φ : Y → ℝ≥0∞, Measurable φ → ∀ a, ∫⁻ y, φ y ∂π < a →
    Rare P fun N => {ω | a ≤ wsum (C N ω) φ}

theorem measurable_wsum {N : ℕ} {φ : Y → ℝ≥0∞} (hφ : Measurable φ) :
    Measurable fun c : Fin N → Y × ℝ => wsum c φ := by
  unfold wsum
  refine Finset.measurable_sum _ fun i _ => ?_
  have h1 : Measurable fun c : Fin N → Y × ℝ => c i := measurable_pi_apply i
  exact (measurable_snd.comp h1).ennreal_ofReal.mul (hφ.comp (measurable_fst.comp h1))

theorem wsum_mono {N : ℕ} (c : Fin N → Y × ℝ) {φ ψ : Y → ℝ≥0∞} (h : ∀ y, φ y ≤ ψ y) :
    wsum c φ ≤ wsum c ψ :=
  Finset.sum_le_sum fun _ _ => mul_le_mul_right (h _) _

theorem wsum_add {N : ℕ} (c : Fin N → Y × ℝ) (φ ψ : Y → ℝ≥0∞) :
    wsum c (fun y => φ y + ψ y) = wsum c φ + wsum c ψ := by
  simp [wsum, mul_add, Finset.sum_add_distrib]

theorem wsum_const {N : ℕ} {c : Fin N → Y × ℝ} (h0 : ∀ i, 0 ≤ (c i).2) (b : ℝ≥0∞) :
    wsum c (fun _ => b) = ENNReal.ofReal (∑ i, (c i).2) * b := by
  unfold wsum
  rw [← Finset.sum_mul, ENNReal.ofReal_sum_of_nonneg fun i _ => h0 i]

/-- Cutting off at a high level changes the integral by little. -/
theorem exists_cut (π : Measure Y) {φ : Y → ℝ≥0∞} (hφ : Measurable φ) {a : ℝ≥0∞}
    (ha : a < ∫⁻ y, φ y ∂π) : ∃ M : ℕ, a < ∫⁻ y, min (φ y) M ∂π := by
  have h : ∫⁻ y, φ y ∂π = ⨆ M : ℕ, ∫⁻ y, min (φ y) M ∂π := by
    rw [← lintegral_iSup (fun M => hφ.min measurable_const)]
    · congr 1
      funext y
      rw [← inf_iSup_eq, ENNReal.iSup_natCast, inf_top_eq]
    · intro m n hmn y
      exact min_le_min_left _ (by exact_mod_cast hmn)
  rw [h, lt_iSup_iff] at ha
  exact ha

theorem exists_tail (π : Measure Y) {φ : Y → ℝ≥0∞} (hφ : Measurable φ)
    (hfin : ∫⁻ y, φ y ∂π ≠ ∞) {δ : ℝ≥0∞} (hδ : 0 < δ) :
    ∃ M : ℕ, ∫⁻ y, φ y - min (φ y) M ∂π < δ := by
  rcases eq_or_ne (∫⁻ y, φ y ∂π) 0 with h0 | h0
  · refine ⟨0, lt_of_le_of_lt ?_ hδ⟩
    exact (lintegral_mono fun y => tsub_le_self).trans h0.le
  · obtain ⟨M, hM⟩ := exists_cut π hφ (ENNReal.sub_lt_self hfin h0 hδ.ne')
    refine ⟨M, ?_⟩
    have hle : ∫⁻ y, min (φ y) M ∂π ≤ ∫⁻ y, φ y ∂π := lintegral_mono fun y => min_le_left _ _
    rw [lintegral_sub (hφ.min measurable_const) (ne_top_of_le_ne_top hfin hle)
      (Eventually.of_forall fun y => min_le_left _ _)]
    rw [ENNReal.sub_lt_iff_lt_left (ne_top_of_le_ne_top hfin hle) hle]
    rcases eq_or_ne δ ∞ with rfl | hd
    · rw [add_top]; exact hfin.lt_top
    · by_cases hs : ∫⁻ y, φ y ∂π ≤ δ
      · refine lt_of_le_of_lt hs ?_
        rw [tsub_eq_zero_of_le hs] at hM
        have hI : ∫⁻ y, min (φ y) M ∂π ≠ 0 := hM.ne'
        rw [add_comm]
        exact ENNReal.lt_add_right hd hI
      · rw [ENNReal.sub_lt_iff_lt_right hd (not_le.1 hs).le] at hM
        exact hM

namespace Approx

variable {C : (N : ℕ) → Ω → Fin N → Y × ℝ} {π : Measure Y}

/-- Averages do not fall below the limit. -/
theorem lower (h : Approx P C π) {φ : Y → ℝ≥0∞} (hφ : Measurable φ) {a : ℝ≥0∞}
    (ha : a < ∫⁻ y, φ y ∂π) : Rare P fun N => {ω | wsum (C N ω) φ ≤ a} := by
  have := h.prob
  obtain ⟨M, hM⟩ := exists_cut π hφ ha
  have hle : ∫⁻ y, min (φ y) M ∂π ≤ M := by
    calc ∫⁻ y, min (φ y) M ∂π ≤ ∫⁻ _, (M : ℝ≥0∞) ∂π := lintegral_mono fun y => min_le_right _ _
      _ = M := by simp
  have hψ : ∫⁻ y, (M : ℝ≥0∞) - min (φ y) M ∂π < M - a := by
    rw [lintegral_sub (hφ.min measurable_const)
      (ne_top_of_le_ne_top (ENNReal.natCast_ne_top M) hle)
      (Eventually.of_forall fun y => min_le_right _ _), lintegral_const, measure_univ, mul_one]
    rw [lt_tsub_iff_right]
    calc (M : ℝ≥0∞) - ∫⁻ y, min (φ y) M ∂π + a
        < (M : ℝ≥0∞) - ∫⁻ y, min (φ y) M ∂π + ∫⁻ y, min (φ y) M ∂π :=
          ENNReal.add_lt_add_left
            (ne_top_of_le_ne_top (ENNReal.natCast_ne_top M) tsub_le_self) hM
      _ = M := tsub_add_cancel_of_le hle
  refine ((h.upper _ (measurable_const.sub (hφ.min measurable_const)) _ hψ).union h.mass).mono
    (Eventually.of_forall fun N ω hω => ?_)
  by_cases hm : ∑ i, (C N ω i).2 = 1
  · left
    show _ ≤ wsum (C N ω) _
    have e : wsum (C N ω) (fun y => min (φ y) M) + wsum (C N ω) (fun y => M - min (φ y) M) = M := by
      rw [← wsum_add]
      have : (fun y => min (φ y) (M : ℝ≥0∞) + (M - min (φ y) M)) = fun _ => (M : ℝ≥0∞) := by
        funext y
        exact add_tsub_cancel_of_le (min_le_right _ _)
      rw [this, wsum_const (h.nonneg N ω), hm]
      simp
    rw [tsub_le_iff_left]
    calc (M : ℝ≥0∞) = _ := e.symm
      _ ≤ a + _ := add_le_add ((wsum_mono _ fun y => min_le_left _ _).trans hω) le_rfl
  · exact Or.inr hm

/-- The averages of an integrable function tend in probability to its integral. -/
theorem average (h : Approx P C π) {φ : Y → ℝ} (hφ : Measurable φ) (hint : Integrable φ π) {ε : ℝ}
    (hε : 0 < ε) :
    Rare P fun N => {ω | ε ≤ |∑ i, (C N ω i).2 * φ (C N ω i).1 - ∫ y, φ y ∂π|} := by
  have key : ∀ {ψ : Y → ℝ≥0∞}, Measurable ψ → (∀ y, ψ y ≠ ∞) → ∫⁻ y, ψ y ∂π ≠ ∞ →
      Rare P fun N => {ω | ε / 2 ≤ |(wsum (C N ω) ψ).toReal - (∫⁻ y, ψ y ∂π).toReal|} := by
    intro ψ hψ _ hfin
    have hε2 : ENNReal.ofReal (ε / 2) ≠ 0 := by simpa using hε
    have u1 := h.upper ψ hψ (∫⁻ y, ψ y ∂π + ENNReal.ofReal (ε / 2))
      (ENNReal.lt_add_right hfin hε2)
    have u2 : Rare P fun N => {ω | wsum (C N ω) ψ ≤ ∫⁻ y, ψ y ∂π - ENNReal.ofReal (ε / 2) ∧
        ENNReal.ofReal (ε / 2) ≤ ∫⁻ y, ψ y ∂π} := by
      by_cases hs : ENNReal.ofReal (ε / 2) ≤ ∫⁻ y, ψ y ∂π
      · refine (h.lower hψ (a := ∫⁻ y, ψ y ∂π - ENNReal.ofReal (ε / 2))
          (ENNReal.sub_lt_self hfin ?_ hε2)).mono
          (Eventually.of_forall fun N ω hω => hω.1)
        rintro h0
        rw [h0] at hs
        exact hε2 (le_antisymm hs zero_le)
      · exact Rare.empty.mono (Eventually.of_forall fun N ω hω => hs hω.2)
    refine (u1.union u2).mono (Eventually.of_forall fun N ω hω => ?_)
    rcases le_or_gt (∫⁻ y, ψ y ∂π + ENNReal.ofReal (ε / 2)) (wsum (C N ω) ψ) with hc | hc
    · exact Or.inl hc
    · right
      have hw : wsum (C N ω) ψ ≠ ∞ := hc.ne_top
      have hc' : (wsum (C N ω) ψ).toReal < (∫⁻ y, ψ y ∂π).toReal + ε / 2 := by
        have := (ENNReal.toReal_lt_toReal hw (ENNReal.add_ne_top.2 ⟨hfin, ENNReal.ofReal_ne_top⟩)).2 hc
        rwa [ENNReal.toReal_add hfin ENNReal.ofReal_ne_top,
          ENNReal.toReal_ofReal (by positivity)] at this
      have hω' : ε / 2 ≤ |(wsum (C N ω) ψ).toReal - (∫⁻ y, ψ y ∂π).toReal| := hω
      have hl : (wsum (C N ω) ψ).toReal + ε / 2 ≤ (∫⁻ y, ψ y ∂π).toReal := by
        rcases le_abs.1 hω' with h1 | h1 <;> linarith
      have hl2 : wsum (C N ω) ψ + ENNReal.ofReal (ε / 2) ≤ ∫⁻ y, ψ y ∂π := by
        rw [← ENNReal.toReal_le_toReal (ENNReal.add_ne_top.2 ⟨hw, ENNReal.ofReal_ne_top⟩) hfin,
          ENNReal.toReal_add hw ENNReal.ofReal_ne_top, ENNReal.toReal_ofReal (by positivity)]
        exact hl
      exact ⟨ENNReal.le_sub_of_add_le_right ENNReal.ofReal_ne_top hl2, le_add_self.trans hl2⟩
  have hp := hint.lintegral_lt_top.ne
  have hn := hint.neg.lintegral_lt_top.ne
  have k1 := key (ψ := fun y => ENNReal.ofReal (φ y)) hφ.ennreal_ofReal
    (fun _ => ENNReal.ofReal_ne_top) hp
  have k2 := key (ψ := fun y => ENNReal.ofReal (-φ y)) hφ.neg.ennreal_ofReal
    (fun _ => ENNReal.ofReal_ne_top) hn
  refine (k1.union k2).mono (Eventually.of_forall fun N ω hω => ?_)
  by_contra hc
  rw [Set.mem_union, not_or] at hc
  have c1 : |(wsum (C N ω) fun y => ENNReal.ofReal (φ y)).toReal -
      (∫⁻ y, ENNReal.ofReal (φ y) ∂π).toReal| < ε / 2 := not_le.1 hc.1
  have c2 : |(wsum (C N ω) fun y => ENNReal.ofReal (-φ y)).toReal -
      (∫⁻ y, ENNReal.ofReal (-φ y) ∂π).toReal| < ε / 2 := not_le.1 hc.2
  have hw : ∀ ψ : Y → ℝ, (wsum (C N ω) fun y => ENNReal.ofReal (ψ y)).toReal =
      ∑ i, (C N ω i).2 * max (ψ (C N ω i).1) 0 := by
    intro ψ
    unfold wsum
    rw [ENNReal.toReal_sum fun i _ => ENNReal.mul_ne_top ENNReal.ofReal_ne_top
      ENNReal.ofReal_ne_top]
    apply Finset.sum_congr rfl
    intro i _
    rw [ENNReal.toReal_mul, ENNReal.toReal_ofReal (h.nonneg N ω i), ENNReal.toReal_ofReal']
  have e1 : ∑ i, (C N ω i).2 * φ (C N ω i).1 =
      (wsum (C N ω) fun y => ENNReal.ofReal (φ y)).toReal -
      (wsum (C N ω) fun y => ENNReal.ofReal (-φ y)).toReal := by
    rw [hw, hw, ← Finset.sum_sub_distrib]
    apply Finset.sum_congr rfl
    intro i _
    rw [← mul_sub]
    congr 1
    rcases le_total 0 (φ (C N ω i).1) with h1 | h1
    · rw [max_eq_left h1, max_eq_right (by linarith)]; ring
    · rw [max_eq_right h1, max_eq_left (by linarith)]; ring
  have hω' : ε ≤ |∑ i, (C N ω i).2 * φ (C N ω i).1 - ∫ y, φ y ∂π| := hω
  rw [e1, integral_eq_lintegral_pos_part_sub_lintegral_neg_part hint] at hω'
  rw [abs_lt] at c1 c2
  rcases le_abs.1 hω' with h1 | h1 <;> linarith

/-- The sum of the squared weights is small. -/
theorem squares (h : Approx P C π) {η : ℝ} (hη : 0 < η) :
    Rare P fun N => {ω | η ≤ ∑ i, (C N ω i).2 ^ 2} := by
  refine (h.small η hη).mono (Eventually.of_forall fun N ω hω => ?_)
  by_contra hc
  have hlt : ∀ i, (C N ω i).2 < η := by
    intro i
    by_contra hi
    exact hc ⟨i, not_lt.1 hi⟩
  have hω' : η ≤ ∑ i, (C N ω i).2 ^ 2 := hω
  rcases Nat.eq_zero_or_pos N with rfl | hN
  · simp at hω'
    linarith
  by_cases hz : ∀ i, (C N ω i).2 = 0
  · simp [hz] at hω'
    linarith
  · push Not at hz
    obtain ⟨k, hk⟩ := hz
    have : ∑ i, (C N ω i).2 ^ 2 < ∑ i, (C N ω i).2 * η := by
      apply Finset.sum_lt_sum
      · intro i _
        rw [sq]
        exact mul_le_mul_of_nonneg_left (hlt i).le (h.nonneg N ω i)
      · refine ⟨k, Finset.mem_univ _, ?_⟩
        rw [sq]
        exact mul_lt_mul_of_pos_left (hlt k) (lt_of_le_of_ne (h.nonneg N ω k) (Ne.symm hk))
    rw [← Finset.sum_mul] at this
    have := h.total N ω
    nlinarith

/-- Applying a function to every particle. -/
theorem map (h : Approx P C π) {f : Y → V} (hf : Measurable f) :
    Approx P (fun N ω i => (f (C N ω i).1, (C N ω i).2)) (π.map f) where
  prob := by have := h.prob; exact Measure.isProbabilityMeasure_map hf.aemeasurable
  meas := fun N => measurable_pi_lambda _ fun i =>
    (hf.comp (measurable_fst.comp ((measurable_pi_apply i).comp (h.meas N)))).prodMk
      (measurable_snd.comp ((measurable_pi_apply i).comp (h.meas N)))
  nonneg := h.nonneg
  total := h.total
  mass := h.mass
  small := h.small
  upper := by
    intro φ hφ a ha
    rw [lintegral_map hφ hf] at ha
    exact h.upper (fun y => φ (f y)) (hφ.comp hf) a ha

/-- After weighting, the total is positive with probability tending to 1. -/
theorem positive (h : Approx P C π) {Γ : Y → ℝ} (hΓ : Measurable Γ) (h0 : ∀ y, 0 ≤ Γ y)
    (hZ : ∫⁻ y, ENNReal.ofReal (Γ y) ∂π ≠ 0) :
    Rare P fun N => {ω | ¬ 0 < ∑ i, (C N ω i).2 * Γ (C N ω i).1} := by
  refine (h.lower hΓ.ennreal_ofReal (pos_iff_ne_zero.2 hZ)).mono
    (Eventually.of_forall fun N ω hω => ?_)
  have hω' : ∑ i, (C N ω i).2 * Γ (C N ω i).1 ≤ 0 := not_lt.1 hω
  show wsum (C N ω) _ ≤ 0
  unfold wsum
  simp only [← ENNReal.ofReal_mul (h.nonneg N ω _)]
  rw [← ENNReal.ofReal_sum_of_nonneg fun i _ => mul_nonneg (h.nonneg N ω i) (h0 _)]
  simp [hω']

/-- Multiplying the weights by a function of the particle and normalising. -/
theorem reweight (h : Approx P C π) {Γ : Y → ℝ} (hΓ : Measurable Γ) (h0 : ∀ y, 0 ≤ Γ y)
    (hZ : ∫⁻ y, ENNReal.ofReal (Γ y) ∂π ≠ 0) (hZ' : ∫⁻ y, ENNReal.ofReal (Γ y) ∂π ≠ ∞) :
    Approx P (fun N ω i => ((C N ω i).1,
        (C N ω i).2 * Γ (C N ω i).1 / ∑ j, (C N ω j).2 * Γ (C N ω j).1))
      ((∫⁻ y, ENNReal.ofReal (Γ y) ∂π)⁻¹ • π.withDensity fun y => ENNReal.ofReal (Γ y)) := by
  have hS0 : ∀ N ω, 0 ≤ ∑ j, (C N ω j).2 * Γ (C N ω j).1 := fun N ω =>
    Finset.sum_nonneg fun i _ => mul_nonneg (h.nonneg N ω i) (h0 _)
  have hwS : ∀ N ω, wsum (C N ω) (fun y => ENNReal.ofReal (Γ y)) =
      ENNReal.ofReal (∑ j, (C N ω j).2 * Γ (C N ω j).1) := by
    intro N ω
    unfold wsum
    rw [ENNReal.ofReal_sum_of_nonneg fun i _ => mul_nonneg (h.nonneg N ω i) (h0 _)]
    exact Finset.sum_congr rfl fun i _ => (ENNReal.ofReal_mul (h.nonneg N ω i)).symm
  have hZr : 0 < (∫⁻ y, ENNReal.ofReal (Γ y) ∂π).toReal := ENNReal.toReal_pos hZ hZ'
  refine ⟨?_, ?_, ?_, ?_, ?_, ?_, ?_⟩
  · refine ⟨?_⟩
    rw [Measure.smul_apply, withDensity_apply _ MeasurableSet.univ, Measure.restrict_univ,
      smul_eq_mul, ENNReal.inv_mul_cancel hZ hZ']
  · intro N
    have hi : ∀ i, Measurable fun ω => C N ω i := fun i => (measurable_pi_apply i).comp (h.meas N)
    have hg : ∀ i, Measurable fun ω => (C N ω i).2 * Γ (C N ω i).1 := fun i =>
      (measurable_snd.comp (hi i)).mul (hΓ.comp (measurable_fst.comp (hi i)))
    exact measurable_pi_lambda _ fun i => (measurable_fst.comp (hi i)).prodMk
      ((hg i).div (Finset.measurable_sum _ fun j _ => hg j))
  · intro N ω i
    exact div_nonneg (mul_nonneg (h.nonneg N ω i) (h0 _)) (hS0 N ω)
  · intro N ω
    rw [← Finset.sum_div]
    exact div_self_le_one _
  · refine (h.positive hΓ h0 hZ).mono (Eventually.of_forall fun N ω hω hc => hω ?_)
    rw [← Finset.sum_div]
    exact div_self hc.ne'
  · intro ε hε
    obtain ⟨s, hs⟩ : ∃ s, s = (∫⁻ y, ENNReal.ofReal (Γ y) ∂π).toReal / 2 := ⟨_, rfl⟩
    have hs0 : 0 < s := by rw [hs]; positivity
    have hs1 : ENNReal.ofReal s < ∫⁻ y, ENNReal.ofReal (Γ y) ∂π := by
      rw [ENNReal.ofReal_lt_iff_lt_toReal hs0.le hZ']
      linarith
    obtain ⟨M, hM⟩ := exists_tail π hΓ.ennreal_ofReal hZ' (δ := ENNReal.ofReal (ε * s / 2))
      (by rw [ENNReal.ofReal_pos]; positivity)
    have hM0 : (0 : ℝ) ≤ M := Nat.cast_nonneg M
    refine (((h.small (ε * s / (2 * (M + 1))) (by positivity)).union
      (h.lower hΓ.ennreal_ofReal hs1)).union
      (h.upper _ (hΓ.ennreal_ofReal.sub (hΓ.ennreal_ofReal.min measurable_const)) _ hM)).mono
      (Eventually.of_forall fun N ω hω => ?_)
    obtain ⟨i, hi⟩ := hω
    by_contra hc
    simp only [Set.mem_union, not_or] at hc
    obtain ⟨⟨c1, c2⟩, c3⟩ := hc
    have c1' : (C N ω i).2 < ε * s / (2 * (M + 1)) := by
      by_contra hcc
      exact c1 ⟨i, not_lt.1 hcc⟩
    have c2' : s < ∑ j, (C N ω j).2 * Γ (C N ω j).1 := by
      have : ENNReal.ofReal s < wsum (C N ω) _ := not_le.1 c2
      rw [hwS] at this
      exact (ENNReal.ofReal_lt_ofReal_iff_of_nonneg hs0.le).1 this
    have c3' : wsum (C N ω) (fun y => ENNReal.ofReal (Γ y) - min (ENNReal.ofReal (Γ y)) M) <
      ENNReal.ofReal (ε * s / 2) := not_le.1 c3
    have hi' : ε * s < (C N ω i).2 * Γ (C N ω i).1 := by
      have h1 : ε ≤ (C N ω i).2 * Γ (C N ω i).1 / ∑ j, (C N ω j).2 * Γ (C N ω j).1 := hi
      rw [le_div_iff₀ (hs0.trans c2')] at h1
      have := mul_lt_mul_of_pos_left c2' hε
      linarith
    have e : ENNReal.ofReal ((C N ω i).2 * Γ (C N ω i).1) ≤
        ENNReal.ofReal ((C N ω i).2 * M) +
          wsum (C N ω) (fun y => ENNReal.ofReal (Γ y) - min (ENNReal.ofReal (Γ y)) M) := by
      have hone : ENNReal.ofReal (C N ω i).2 * (ENNReal.ofReal (Γ (C N ω i).1) -
          min (ENNReal.ofReal (Γ (C N ω i).1)) M) ≤
          wsum (C N ω) (fun y => ENNReal.ofReal (Γ y) - min (ENNReal.ofReal (Γ y)) M) :=
        Finset.single_le_sum (f := fun i => ENNReal.ofReal (C N ω i).2 *
          (ENNReal.ofReal (Γ (C N ω i).1) - min (ENNReal.ofReal (Γ (C N ω i).1)) M))
          (fun _ _ => zero_le) (Finset.mem_univ i)
      refine le_trans ?_ (add_le_add le_rfl hone)
      rw [ENNReal.ofReal_mul (h.nonneg N ω i), ENNReal.ofReal_mul (h.nonneg N ω i),
        ENNReal.ofReal_natCast, ← mul_add]
      apply mul_le_mul_right
      calc ENNReal.ofReal (Γ (C N ω i).1)
          = min (ENNReal.ofReal (Γ (C N ω i).1)) M + (ENNReal.ofReal (Γ (C N ω i).1) -
              min (ENNReal.ofReal (Γ (C N ω i).1)) M) :=
            (add_tsub_cancel_of_le (min_le_left _ _)).symm
        _ ≤ _ := add_le_add (min_le_right _ _) le_rfl
    have e2 : ENNReal.ofReal ((C N ω i).2 * Γ (C N ω i).1) ≤
        ENNReal.ofReal ((C N ω i).2 * M + ε * s / 2) := by
      rw [ENNReal.ofReal_add (mul_nonneg (h.nonneg N ω i) hM0) (by positivity)]
      exact e.trans (add_le_add le_rfl c3'.le)
    have e3 := (ENNReal.ofReal_le_ofReal_iff (by
      have := h.nonneg N ω i
      positivity)).1 e2
    have e4 : (C N ω i).2 * M ≤ ε * s / 2 := by
      have h1 := mul_le_mul_of_nonneg_right c1'.le hM0
      have h2 : ε * s / (2 * (M + 1)) * M ≤ ε * s / 2 := by
        rw [div_mul_eq_mul_div, div_le_div_iff₀ (by positivity) (by positivity)]
        nlinarith [mul_pos hε hs0]
      linarith
    linarith
  · intro φ hφ a ha
    have hΓφ : Measurable fun y => ENNReal.ofReal (Γ y) * φ y := hΓ.ennreal_ofReal.mul hφ
    rw [lintegral_smul_measure, lintegral_withDensity_eq_lintegral_mul _ hΓ.ennreal_ofReal hφ,
      smul_eq_mul] at ha
    have ha' : (∫⁻ y, ENNReal.ofReal (Γ y) ∂π)⁻¹ * ∫⁻ y, ENNReal.ofReal (Γ y) * φ y ∂π < a := ha
    set Z := ∫⁻ y, ENNReal.ofReal (Γ y) ∂π with hZdef
    set I := ∫⁻ y, ENNReal.ofReal (Γ y) * φ y ∂π with hIdef
    have hI : I ≠ ∞ := by
      intro hI
      rw [hI, ENNReal.mul_top (ENNReal.inv_ne_zero.2 hZ')] at ha'
      exact not_top_lt ha'
    have ha0 : a ≠ 0 := (lt_of_le_of_lt zero_le ha').ne'
    have hIa : I / a < Z := by
      rw [ENNReal.div_lt_iff (Or.inl ha0) (Or.inr hI)]
      rw [mul_comm, ← div_eq_mul_inv, ENNReal.div_lt_iff (Or.inl hZ) (Or.inl hZ')] at ha'
      rwa [mul_comm]
    obtain ⟨s, hs1, hs2⟩ := exists_between hIa
    rw [ENNReal.div_lt_iff (Or.inl ha0) (Or.inr hI)] at hs1
    refine ((h.upper _ hΓφ _ hs1).union (h.lower hΓ.ennreal_ofReal hs2)).mono
      (Eventually.of_forall fun N ω hω => ?_)
    by_contra hc
    rw [Set.mem_union, not_or] at hc
    obtain ⟨c1, c2⟩ := hc
    have c1' : wsum (C N ω) (fun y => ENNReal.ofReal (Γ y) * φ y) < s * a := not_le.1 c1
    have c2' : s < wsum (C N ω) (fun y => ENNReal.ofReal (Γ y)) := not_le.1 c2
    rw [hwS] at c2'
    obtain ⟨S, hS⟩ : ∃ S, S = ∑ j, (C N ω j).2 * Γ (C N ω j).1 := ⟨_, rfl⟩
    rw [← hS] at c2'
    have hSpos : 0 < S := by
      rw [← ENNReal.ofReal_pos]
      exact lt_of_le_of_lt zero_le c2'
    have e : wsum (fun i => ((C N ω i).1, (C N ω i).2 * Γ (C N ω i).1 /
        ∑ j, (C N ω j).2 * Γ (C N ω j).1)) φ =
        (ENNReal.ofReal S)⁻¹ * wsum (C N ω) (fun y => ENNReal.ofReal (Γ y) * φ y) := by
      unfold wsum
      rw [Finset.mul_sum]
      apply Finset.sum_congr rfl
      intro i _
      rw [← hS, ENNReal.ofReal_div_of_pos hSpos, ENNReal.ofReal_mul (h.nonneg N ω i),
        div_eq_mul_inv]
      ring
    have hω' : a ≤ (ENNReal.ofReal S)⁻¹ * wsum (C N ω) (fun y => ENNReal.ofReal (Γ y) * φ y) := by
      rw [← e]; exact hω
    rw [mul_comm, ← div_eq_mul_inv, ENNReal.le_div_iff_mul_le
      (Or.inl (by rw [Ne, ENNReal.ofReal_eq_zero]; linarith)) (Or.inl ENNReal.ofReal_ne_top)] at hω'
    have : s * a ≤ a * ENNReal.ofReal S := by
      rw [mul_comm]
      exact mul_le_mul_right c2'.le a
    exact absurd (this.trans hω') (not_le.2 c1')

end Approx

end BFL
