import Verif.Lemmas.OrderStatistics
import Verif.Spec.Sampling
import Verif.Props.Discrete
import Verif.Props.MCPdf
import Mathlib.Probability.Moments.Variance

/-!
# The RIPLEY branch of `SampleFrom` as a random experiment
-/

set_option linter.unusedSectionVars false

namespace BFL

open MeasureTheory Set Spec
open scoped ENNReal

theorem uniforms_eq (N : Nat) : Spec.uniforms N = unifs N := by
  unfold Spec.uniforms unifs
  congr 1
  funext _
  exact Measure.restrict_congr_set Ico_ae_eq_Ioc

instance (N : Nat) : IsProbabilityMeasure (Spec.uniforms N) := by
  rw [uniforms_eq]; infer_instance

theorem ae_unit (N : Nat) : ∀ᵐ u ∂(unifs N), ∀ i, 0 < u i ∧ u i ≤ 1 := by
  rw [unifs_eq]
  filter_upwards [ae_restrict_mem (MeasurableSet.univ_pi fun _ => measurableSet_Ioc)] with u hu i
  exact hu i (mem_univ i)

theorem kthRoot_bounds : ∀ k x, 0 ≤ x → x ≤ 1 → 0 ≤ kthRoot k x ∧ kthRoot k x ≤ 1 :=
  Props.C05_pow_ok.1

theorem kthRoot_pos : ∀ k x, 0 < x → 0 < kthRoot k x := Props.C05_pow_ok.2.1

theorem orderedVec_apply : ∀ {N : Nat} (u : Fin N → ℝ) (i : Fin N),
    Props.orderedUniform kthRoot (List.ofFn u) i = orderedVec u i
  | 0, _, i => i.elim0
  | n + 1, u, i => by
    have hsplit : List.ofFn u = List.ofFn (Fin.init (α := fun _ => ℝ) u) ++ [u (Fin.last n)] := by
      rw [List.ofFn_succ_last]
      rfl
    refine Fin.lastCases ?_ (fun j => ?_) i
    · simp only [orderedVec, Fin.snoc_last, Props.orderedUniform, hsplit]
      rw [List.drop_append_of_le_length (by simp)]
      rw [List.drop_of_length_le (by simp)]
      simp [kthRoot]
    · have ih := orderedVec_apply (Fin.init (α := fun _ => ℝ) u) j
      simp only [orderedVec, Fin.snoc_castSucc, Pi.smul_apply, smul_eq_mul]
      rw [← ih]
      simp only [Props.orderedUniform, hsplit]
      rw [List.drop_append_of_le_length (by simp), List.mapIdx_append]
      simp only [List.prod_append, List.mapIdx_cons, List.mapIdx_nil, List.prod_cons, List.prod_nil,
        mul_one]
      rw [mul_comm]
      congr 1
      simp only [List.length_drop, List.length_ofFn, kthRoot, Fin.val_castSucc, zero_add]
      congr 4
      have := j.2
      omega

theorem orderedVec_unit {N : Nat} {u : Fin N → ℝ} (hu : ∀ i, 0 < u i ∧ u i ≤ 1) (i : Fin N) :
    0 < orderedVec u i ∧ orderedVec u i ≤ 1 := by
  rw [← orderedVec_apply]
  have hb : ∀ x ∈ List.ofFn u, 0 ≤ x ∧ x ≤ 1 := by
    intro x hx
    rw [List.mem_ofFn] at hx
    obtain ⟨k, rfl⟩ := hx
    exact ⟨(hu k).1.le, (hu k).2⟩
  refine ⟨?_, (Props.C05_ordered kthRoot_bounds hb le_rfl (by simp)).2.2⟩
  unfold Props.orderedUniform
  apply List.prod_pos
  intro x hx
  rw [List.mem_mapIdx] at hx
  obtain ⟨m, hm, rfl⟩ := hx
  have hmem : ((List.ofFn u).drop i)[m] ∈ List.ofFn u := List.mem_of_mem_drop (List.getElem_mem hm)
  rw [List.mem_ofFn] at hmem
  obtain ⟨k, hk⟩ := hmem
  apply kthRoot_pos
  rw [← hk]
  exact (hu k).1

/-- Number of the state or particle selected by `u`. -/
noncomputable def sel (ws : List ℝ) (u : ℝ) : Nat :=
  ∑ j ∈ Finset.range ws.length, if massBelow ws (j + 1) < u then 1 else 0

theorem measurable_sel (ws : List ℝ) : Measurable (sel ws) := by
  unfold sel
  apply Finset.measurable_sum
  intro j _
  exact Measurable.ite measurableSet_Ioi measurable_const measurable_const

theorem sel_eq {ws : List ℝ} (hp : ∀ x ∈ ws, 0 ≤ x) {u : ℝ} {i : Nat} (hi : Inverts ws u i) :
    sel ws u = i := by
  obtain ⟨h0, h1, h2⟩ := hi
  have : ∀ j ∈ Finset.range ws.length,
      (if massBelow ws (j + 1) < u then 1 else 0) = if j < i then 1 else 0 := by
    intro j _
    congr 1
    apply propext
    constructor
    · intro h
      by_contra hc
      have := massBelow_mono hp (show i + 1 ≤ j + 1 by omega)
      linarith
    · intro h
      have := massBelow_mono hp (show j + 1 ≤ i from h)
      linarith
  unfold sel
  rw [Finset.sum_congr rfl this, Finset.sum_ite, Finset.sum_const_zero, add_zero, Finset.sum_const,
    smul_eq_mul, mul_one]
  have hf : (Finset.range ws.length).filter (· < i) = Finset.range i := by
    ext j
    simp only [Finset.mem_filter, Finset.mem_range]
    omega
  rw [hf, Finset.card_range]

theorem sel_inverts {ws : List ℝ} (hd : IsDistribution ws) {u : ℝ} (h0 : 0 < u) (h1 : u ≤ 1) :
    Inverts ws u (sel ws u) := by
  obtain ⟨i, hi⟩ := Inverts.exists (p := ws) h0 (by rw [hd.2]; exact h1)
  rw [sel_eq hd.1 hi]
  exact hi

/-- The event that state `i` is selected. -/
theorem volume_sel {ws : List ℝ} (hd : IsDistribution ws) {i : Nat} (hi : i < ws.length) :
    (volume.restrict (Ioc (0 : ℝ) 1)) {u | sel ws u = i} = ENNReal.ofReal ws[i] := by
  have h0 : 0 ≤ massBelow ws i := by
    simpa [massBelow] using massBelow_mono hd.1 (Nat.zero_le i)
  have h1 : massBelow ws (i + 1) ≤ 1 := by
    have := massBelow_mono hd.1 (show i + 1 ≤ ws.length from hi)
    rwa [show massBelow ws ws.length = 1 by simp [massBelow, hd.2]] at this
  have hset : {u | sel ws u = i} ∩ Ioc (0 : ℝ) 1 = Ioc (massBelow ws i) (massBelow ws (i + 1)) := by
    ext u
    constructor
    · rintro ⟨hu, hu0, hu1⟩
      have := sel_inverts hd hu0 hu1
      rw [show sel ws u = i from hu] at this
      exact this.2
    · intro hu
      exact ⟨sel_eq hd.1 ⟨hi, hu⟩, lt_of_le_of_lt h0 hu.1, hu.2.trans h1⟩
  have hm : MeasurableSet {u | sel ws u = i} := measurable_sel ws (measurableSet_singleton i)
  rw [Measure.restrict_apply hm, hset, Real.volume_Ioc,
    massBelow_succ hi]
  congr 1
  ring

/-- Events that do not depend on the order of the numbers are equally likely for ordered and for
independent numbers. -/
theorem orderedVec_event {N : Nat} {B : (Fin N → ℝ) → Prop} (hB : MeasurableSet {u | B u})
    (hs : ∀ v w, (List.ofFn v).Perm (List.ofFn w) → B v → B w) :
    unifs N {u | B (orderedVec u)} = unifs N {u | B u} := by
  classical
  have h := orderedVec_law N (F := {u | B u}.indicator 1) (measurable_one.indicator hB) (by
    intro v w hvw
    by_cases hv : B v
    · rw [indicator_of_mem (show v ∈ {u | B u} from hv),
        indicator_of_mem (show w ∈ {u | B u} from hs v w hvw hv)]
      rfl
    · rw [indicator_of_notMem (show v ∉ {u | B u} from hv),
        indicator_of_notMem (show w ∉ {u | B u} from fun hw => hv (hs w v hvw.symm hw))])
  rw [lintegral_indicator_one hB] at h
  rw [← h]
  have he : (fun u => {u | B u}.indicator (1 : (Fin N → ℝ) → ℝ≥0∞) (orderedVec u)) =
      {u | B (orderedVec u)}.indicator 1 := by
    funext u
    rfl
  have hm : MeasurableSet {u : Fin N → ℝ | B (orderedVec u)} := measurable_orderedVec N hB
  rw [he, lintegral_indicator_one hm]

/-- The same for anything computed from the selected indices. -/
theorem selected_event {N : Nat} (ws : List ℝ) {T : Type} (val : Nat → T) (A : Multiset T → Prop) :
    unifs N {u | A (List.ofFn fun i => val (sel ws (orderedVec u i)))} =
      unifs N {u | A (List.ofFn fun i => val (sel ws (u i)))} := by
  apply orderedVec_event (B := fun u => A (List.ofFn fun i => val (sel ws (u i))))
  · have h1 : Measurable fun (u : Fin N → ℝ) (i : Fin N) => sel ws (u i) := by
      rw [measurable_pi_iff]
      intro i
      exact (measurable_sel ws).comp (measurable_pi_apply i)
    exact h1 (MeasurableSet.of_discrete
      (s := {k : Fin N → Nat | A (List.ofFn fun i => val (k i))}))
  · intro v w hvw h
    have h2 := hvw.map fun x => val (sel ws x)
    rw [List.map_ofFn, List.map_ofFn] at h2
    have h3 : (↑(List.ofFn fun i => val (sel ws (w i))) : Multiset T) =
        ↑(List.ofFn fun i => val (sel ws (v i))) := Multiset.coe_eq_coe.2 h2.symm
    rw [h3]
    exact h

end BFL

/-! ## Averages -/

namespace BFL

open MeasureTheory Set Spec ProbabilityTheory
open scoped ENNReal

/-- Averages of real symmetric functions. -/
theorem orderedVec_integral {N : Nat} {G : (Fin N → ℝ) → ℝ} (hG : Measurable G) (hs : Symm G)
    {C : ℝ} (hb : ∀ u, |G u| ≤ C) :
    ∫ u, G (orderedVec u) ∂(unifs N) = ∫ u, G u ∂(unifs N) := by
  have hi : ∀ {H : (Fin N → ℝ) → ℝ}, Measurable H → (∀ u, |H u| ≤ C) →
      Integrable H (unifs N) := by
    intro H hH hb
    exact Integrable.of_bound hH.aestronglyMeasurable C (Filter.Eventually.of_forall hb)
  have hGo : Measurable fun u => G (orderedVec u) := hG.comp (measurable_orderedVec N)
  rw [integral_eq_lintegral_pos_part_sub_lintegral_neg_part (hi hGo fun u => hb _),
    integral_eq_lintegral_pos_part_sub_lintegral_neg_part (hi hG hb)]
  rw [orderedVec_law N (F := fun v => ENNReal.ofReal (G v)) hG.ennreal_ofReal
      (fun v w h => by show ENNReal.ofReal (G v) = ENNReal.ofReal (G w); rw [hs v w h]),
    orderedVec_law N (F := fun v => ENNReal.ofReal (-G v)) hG.neg.ennreal_ofReal
      (fun v w h => by show ENNReal.ofReal (-G v) = ENNReal.ofReal (-G w); rw [hs v w h])]

/-- Average over one draw of a function of the selected index. -/
theorem integral_sel {ws : List ℝ} (hd : IsDistribution ws) (h : Nat → ℝ) :
    ∫ u in Ioc (0 : ℝ) 1, h (sel ws u) = ∑ j : Fin ws.length, ws[j] * h j := by
  have hm : ∀ j : Nat, MeasurableSet {u | sel ws u = j} := fun j =>
    measurable_sel ws (measurableSet_singleton j)
  have hae : ∀ᵐ u ∂(volume.restrict (Ioc (0 : ℝ) 1)), h (sel ws u) =
      ∑ j : Fin ws.length, {u | sel ws u = j}.indicator (fun _ => h j) u := by
    filter_upwards [ae_restrict_mem measurableSet_Ioc] with u hu
    have hinv := sel_inverts hd hu.1 hu.2
    rw [Finset.sum_eq_single (⟨sel ws u, hinv.1⟩ : Fin ws.length)]
    · rw [indicator_of_mem (show u ∈ {v | sel ws v = sel ws u} from rfl)]
    · intro j _ hj
      apply indicator_of_notMem
      intro hc
      exact hj (Fin.ext (show j.1 = sel ws u from (show sel ws u = j.1 from hc).symm))
    · intro hc; exact absurd (Finset.mem_univ _) hc
  rw [integral_congr_ae hae, integral_finsetSum]
  · apply Finset.sum_congr rfl
    intro j _
    rw [integral_indicator_const _ (hm j), measureReal_def, volume_sel hd j.2,
      ENNReal.toReal_ofReal (hd.1 _ (List.getElem_mem _))]
    rfl
  · intro j _
    exact (integrable_const _).indicator (hm j)

theorem integral_coord {N : Nat} (i : Fin N) {g : ℝ → ℝ} (hg : Measurable g) :
    ∫ u, g (u i) ∂(unifs N) = ∫ x in Ioc (0 : ℝ) 1, g x := by
  have hp := measurePreserving_eval (fun _ : Fin N => (volume : Measure ℝ).restrict (Ioc 0 1)) i
  rw [← hp.map_eq, integral_map hp.measurable.aemeasurable hg.aestronglyMeasurable]
  rfl

/-- Mean and variance of the average of a function of the selected indices. -/
theorem ordered_average {N : Nat} (hN : 0 < N) {ws : List ℝ} (hd : IsDistribution ws)
    (h : Nat → ℝ) :
    (∫ u, (∑ i : Fin N, h (sel ws (orderedVec u i))) / N ∂(unifs N) =
      ∑ j : Fin ws.length, ws[j] * h j) ∧
    ∫ u, ((∑ i : Fin N, h (sel ws (orderedVec u i))) / N -
        ∑ j : Fin ws.length, ws[j] * h j) ^ 2 ∂(unifs N) =
      ((∑ j : Fin ws.length, ws[j] * h j ^ 2) - (∑ j : Fin ws.length, ws[j] * h j) ^ 2) / N := by
  have hNr : (N : ℝ) ≠ 0 := by exact_mod_cast hN.ne'
  have hmh : Measurable fun x => h (sel ws x) := (Measurable.of_discrete (f := h)).comp
    (measurable_sel ws)
  have hsel : ∀ x, sel ws x ≤ ws.length := by
    intro x
    unfold sel
    calc _ ≤ ∑ j ∈ Finset.range ws.length, 1 :=
          Finset.sum_le_sum fun j _ => by split <;> omega
      _ = ws.length := by simp
  obtain ⟨B, hB⟩ : ∃ B, ∀ x, |h (sel ws x)| ≤ B := by
    refine ⟨∑ j ∈ Finset.range (ws.length + 1), |h j|, fun x => ?_⟩
    exact Finset.single_le_sum (f := fun j => |h j|) (fun j _ => abs_nonneg _)
      (Finset.mem_range.2 (Nat.lt_succ_of_le (hsel x)))
  have hB0 : 0 ≤ B := (abs_nonneg _).trans (hB 0)
  obtain ⟨m, hm⟩ : ∃ m, m = ∑ j : Fin ws.length, ws[j] * h j := ⟨_, rfl⟩
  have hmeasS : Measurable fun u : Fin N → ℝ => ∑ i : Fin N, h (sel ws (u i)) :=
    Finset.measurable_sum _ fun i _ => hmh.comp (measurable_pi_apply i)
  have hSb : ∀ u : Fin N → ℝ, |∑ i : Fin N, h (sel ws (u i))| ≤ N * B := by
    intro u
    calc |∑ i : Fin N, h (sel ws (u i))| ≤ ∑ i : Fin N, |h (sel ws (u i))| :=
          Finset.abs_sum_le_sum_abs _ _
      _ ≤ ∑ _i : Fin N, B := Finset.sum_le_sum fun i _ => hB _
      _ = N * B := by simp
  have hSs : Symm fun u : Fin N → ℝ => ∑ i : Fin N, h (sel ws (u i)) := by
    intro v w hvw
    have h2 := (hvw.map fun x => h (sel ws x)).sum_eq
    rw [List.map_ofFn, List.map_ofFn, List.sum_ofFn, List.sum_ofFn] at h2
    exact h2
  have hSs' : ∀ v w : Fin N → ℝ, (List.ofFn v).Perm (List.ofFn w) →
      ∑ i : Fin N, h (sel ws (v i)) = ∑ i : Fin N, h (sel ws (w i)) := hSs
  have hdb : ∀ u : Fin N → ℝ, |(∑ i : Fin N, h (sel ws (u i))) / N| ≤ B := by
    intro u
    rw [abs_div, Nat.abs_cast, div_le_iff₀ (by positivity), mul_comm]
    exact hSb u
  have hmean : ∫ u, (∑ i : Fin N, h (sel ws (u i))) / N ∂(unifs N) = m := by
    rw [integral_div, integral_finsetSum]
    · simp only [integral_coord _ hmh, integral_sel hd, ← hm]
      simp [hNr]
    · intro i _
      exact Integrable.of_bound (hmh.comp (measurable_pi_apply i)).aestronglyMeasurable B
        (Filter.Eventually.of_forall fun u => hB _)
  rw [← hm]
  constructor
  · rw [orderedVec_integral (G := fun u => (∑ i : Fin N, h (sel ws (u i))) / N)
      (hmeasS.div_const _) (fun v w hvw => by
        show (∑ i : Fin N, h (sel ws (v i))) / _ = (∑ i : Fin N, h (sel ws (w i))) / _
        rw [hSs' v w hvw]) hdb]
    exact hmean
  · rw [orderedVec_integral (G := fun u => ((∑ i : Fin N, h (sel ws (u i))) / N - m) ^ 2)
      (C := (B + |m|) ^ 2) (((hmeasS.div_const _).sub_const _).pow_const _) (fun v w hvw => by
        show ((∑ i : Fin N, h (sel ws (v i))) / _ - m) ^ 2 =
          ((∑ i : Fin N, h (sel ws (w i))) / _ - m) ^ 2
        rw [hSs' v w hvw]) (fun u => by
          rw [abs_of_nonneg (sq_nonneg _)]
          apply sq_le_sq'
          · have := hdb u
            rw [abs_le] at this
            have := neg_abs_le m
            have := le_abs_self m
            linarith
          · have := hdb u
            rw [abs_le] at this
            have := neg_abs_le m
            linarith)]
    have hmem : MemLp (fun x => h (sel ws x)) 2 ((volume : Measure ℝ).restrict (Ioc 0 1)) :=
      MemLp.of_bound hmh.aestronglyMeasurable B (Filter.Eventually.of_forall hB)
    have hv1 := variance_sum_pi (ι := Fin N)
      (μ := fun _ => (volume : Measure ℝ).restrict (Ioc 0 1))
      (X := fun _ x => h (sel ws x)) (fun _ => hmem)
    have hv2 : Var[fun x => h (sel ws x); (volume : Measure ℝ).restrict (Ioc 0 1)] =
        (∑ j : Fin ws.length, ws[j] * h j ^ 2) - m ^ 2 := by
      rw [variance_eq_sub hmem, integral_sel hd, ← hm]
      congr 1
      exact integral_sel hd (fun j => h j ^ 2)
    have hv3 : Var[fun u : Fin N → ℝ => (∑ i : Fin N, h (sel ws (u i))) / N; unifs N] =
        ∫ u, ((∑ i : Fin N, h (sel ws (u i))) / N - m) ^ 2 ∂(unifs N) := by
      rw [variance_eq_integral (hmeasS.div_const _).aemeasurable, hmean]
    rw [← hv3]
    have hv4 : (fun u : Fin N → ℝ => (∑ i : Fin N, h (sel ws (u i))) / N) =
        fun u => (1 / (N : ℝ)) * (∑ i : Fin N, fun ω : Fin N → ℝ => h (sel ws (ω i))) u := by
      funext u
      rw [Finset.sum_apply]
      ring
    rw [hv4, variance_const_mul]
    unfold unifs
    rw [hv1, Finset.sum_const, hv2]
    simp
    field_simp

end BFL

/-! ## The lists returned by `SampleFrom` -/

namespace BFL

open MeasureTheory Set Spec

theorem ofFn_orderedUniform {N : Nat} (u : Fin N → ℝ) :
    (List.ofFn fun i : Fin (List.ofFn u).length =>
      Props.orderedUniform kthRoot (List.ofFn u) i) = List.ofFn (orderedVec u) := by
  apply List.ext_getElem
  · simp
  · intro k h1 h2
    simp only [List.getElem_ofFn]
    exact orderedVec_apply u ⟨k, by simpa using h2⟩

theorem ofFn_ne_nil {α : Type} {N : Nat} (hN : 0 < N) (u : Fin N → α) : List.ofFn u ≠ [] := by
  intro h
  have := congrArg List.length h
  simp at this
  omega

theorem ofFn_unit {N : Nat} {u : Fin N → ℝ} (hu : ∀ i, 0 < u i ∧ u i ≤ 1) :
    ∀ x ∈ List.ofFn u, 0 ≤ x ∧ x ≤ 1 := by
  intro x hx
  rw [List.mem_ofFn] at hx
  obtain ⟨k, rfl⟩ := hx
  exact ⟨(hu k).1.le, (hu k).2⟩

theorem discrete_default {d : DiscretePdf ℝ} (hd : Props.Reachable d) {N : Nat} {v : Fin N → ℝ}
    (hv : ∀ i, 0 < v i ∧ v i ≤ 1) :
    d.sampleList kthRoot .default (List.ofFn v) =
      .ok (some (List.ofFn fun i => ((sel d.values (v i) : Nat) : Int))) := by
  obtain ⟨⟨hdist, hcum⟩, _⟩ := hd.good
  unfold DiscretePdf.sampleList
  have : mapOutcome (fun u => sweep d.numStates u 0 d.cum) (List.ofFn v) =
      .ok ((List.ofFn v).map fun x => (sel d.values x + 1,
        (runningSums 0 d.values).drop (sel d.values x + 1))) := by
    apply mapOutcome_eq_ok
    intro a ha
    rw [List.mem_ofFn] at ha
    obtain ⟨i, rfl⟩ := ha
    rw [hcum]
    exact sweep_runningSums hdist.1 (sel_inverts hdist (hv _).1 (hv _).2) le_rfl
  simp only [this, Outcome.ok_bind]
  simp [List.map_ofFn, Function.comp_def]

theorem discrete_ripley {d : DiscretePdf ℝ} (hd : Props.Reachable d) {N : Nat} (hN : 0 < N)
    {u : Fin N → ℝ} (hu : ∀ i, 0 < u i ∧ u i ≤ 1) :
    d.sampleList kthRoot .ripley (List.ofFn u) =
      .ok (some (List.ofFn fun i => ((sel d.values (orderedVec u i) : Nat) : Int))) := by
  rw [Props.C05_equals_lookups kthRoot_bounds d (ofFn_ne_nil hN u) (ofFn_unit hu),
    ofFn_orderedUniform]
  exact discrete_default hd (orderedVec_unit hu)

/-- Value of the particle with a given number. -/
def valueAt {T : Type} (dflt : T) (p : MCPdf ℝ T) (j : Nat) : T :=
  (p.samples[j]?.map (·.value)).getD dflt

theorem mc_default {T : Type} (dflt : T) {p : MCPdf ℝ T} {ws : List ℝ} (hg : MCPdf.Good p ws)
    {N : Nat} {v : Fin N → ℝ} (hv : ∀ i, 0 < v i ∧ v i ≤ 1) :
    p.sampleList kthRoot .default (List.ofFn v) =
      .ok (some (List.ofFn fun i => valueAt dflt p (sel ws (v i)))) := by
  unfold MCPdf.sampleList
  have : mapOutcome (fun u => do
      let (index, _) ← sweep p.numSamples u 0 p.cum
      p.previous index) (List.ofFn v) =
      .ok ((List.ofFn v).map fun x => valueAt dflt p (sel ws x)) := by
    apply mapOutcome_eq_ok
    intro a ha
    rw [List.mem_ofFn] at ha
    obtain ⟨i, rfl⟩ := ha
    have hi := sel_inverts hg.2.1 (hv i).1 (hv i).2
    have hlt : sel ws (v i) < p.samples.length := by rw [hg.length]; exact hi.1
    rw [hg.2.2.1, sweep_runningSums hg.2.1.1 hi hg.length.ge]
    simp [MCPdf.previous_eq hlt, valueAt, hlt]
  simp only [this, Outcome.ok_bind]
  simp [List.map_ofFn, Function.comp_def]

theorem mc_ripley {T : Type} (dflt : T) {p : MCPdf ℝ T} {ws : List ℝ} (hg : MCPdf.Good p ws)
    {N : Nat} (hN : 0 < N) {u : Fin N → ℝ} (hu : ∀ i, 0 < u i ∧ u i ≤ 1) :
    p.sampleList kthRoot .ripley (List.ofFn u) =
      .ok (some (List.ofFn fun i => valueAt dflt p (sel ws (orderedVec u i)))) := by
  rw [Props.C09_ripley_equals_lookups kthRoot_bounds p (ofFn_ne_nil hN u) (ofFn_unit hu),
    ofFn_orderedUniform]
  exact mc_default dflt hg (orderedVec_unit hu)

end BFL
