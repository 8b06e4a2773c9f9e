import Verif.Lemmas.ParticleResampleBound

/-!
# Resampling the particles of a state that never moves
-/

set_option linter.unusedSectionVars false

namespace BFL.Props

open MeasureTheory ProbabilityTheory Filter Spec MCPdf ParticleFilter
open scoped ENNReal Topology

variable {R X MV Ω : Type} [MeasurableSpace X] [MeasurableSpace R] [MeasurableSpace Ω]
  {dflt : X} {P : Measure Ω} [IsProbabilityMeasure P]

theorem orderedVec_small {n : Nat} {u : Fin (n + 1) → ℝ} (hu : ∀ i, 0 < u i ∧ u i ≤ 1)
    (hs : u (Fin.last n) ≤ (1 / ((n + 1 : Nat) : ℝ)) ^ (n + 1)) (i : Fin (n + 1)) :
    orderedVec u i ≤ 1 / ((n + 1 : Nat) : ℝ) := by
  have hU : u (Fin.last n) ^ (1 / ((n + 1 : Nat) : ℝ)) ≤ 1 / ((n + 1 : Nat) : ℝ) := by
    refine (Real.rpow_le_rpow (hu _).1.le hs (by positivity)).trans (le_of_eq ?_)
    rw [one_div ((n + 1 : Nat) : ℝ)]
    exact Real.pow_rpow_inv_natCast (by positivity) (by omega)
  have hU0 : 0 ≤ u (Fin.last n) ^ (1 / ((n + 1 : Nat) : ℝ)) := Real.rpow_nonneg (hu _).1.le _
  refine Fin.lastCases ?_ (fun j => ?_) i
  · simp only [orderedVec, Fin.snoc_last]
    exact hU
  · simp only [orderedVec, Fin.snoc_castSucc, Pi.smul_apply, smul_eq_mul]
    have h1 := (orderedVec_unit (u := Fin.init (α := fun _ => ℝ) u) (fun i => hu i.castSucc) j).2
    exact (mul_le_of_le_one_right hU0 h1).trans hU

theorem sum_even {N : Nat} (hN : 0 < N) {c : Fin N → X × ℝ} (hw : ∀ i, (c i).2 = 1 / (N : ℝ)) : ∑ i, (c i).2 = 1 := by
  have hN' : (0 : ℝ) < N := by exact_mod_cast hN
  simp [hw, hN'.ne']

/-- The first particle is selected by small numbers. -/
theorem pick_first {n : Nat} {c : Fin (n + 1) → X × ℝ} (hw : ∀ i, (c i).2 = 1 / ((n + 1 : Nat) : ℝ)) {u : ℝ}
    (h0 : 0 < u) (h1 : u ≤ 1 / ((n + 1 : Nat) : ℝ)) (i : Fin (n + 1)) : pick c u i = 0 := by
  have hn : ∀ i, 0 ≤ (c i).2 := fun i => by rw [hw]; positivity
  have ht := sum_even (Nat.succ_pos n) hw
  have hu1 : u ≤ 1 := h1.trans (by rw [div_le_one (by positivity)]; push_cast; linarith [(Nat.cast_nonneg n : (0:ℝ) ≤ n)])
  apply Fin.ext
  rw [pick_eq hn ht ⟨h0, hu1⟩ i]
  refine sel_eq (weightsOf_dist hn ht).1 ⟨by simp [weightsOf], by simpa [massBelow] using h0, ?_⟩
  unfold weightsOf
  rw [List.ofFn_succ]
  have e : massBelow ((c 0).2 :: List.ofFn fun i : Fin n => (c i.succ).2) (0 + 1) = (c 0).2 := by simp [massBelow]
  refine le_trans (h1.trans (le_of_eq ?_)) (le_of_eq e.symm)
  rw [hw]

/-- One update of a state that stays, without a measurement. -/
theorem stuck_step {N : Nat} (hN : 0 < N) {c : Fin N → X × ℝ} (hw : ∀ i, (c i).2 = 1 / (N : ℝ)) (static : Prop)
    {dynamic : Prop} (hd : ¬ dynamic) (threshold : ℝ) (v : Fin N → ℝ × R × ℝ) :
    filterStep static dynamic threshold (fun _ a => a) (fun _ _ => 1) (c, v) = prepared static c v ∧
    ∀ i, (prepared static c v i).2 = 1 / (N : ℝ) := by
  have hp : ∀ i, (prepared static c v i).2 = 1 / (N : ℝ) := by
    intro i
    unfold prepared resampleIf
    split
    · rfl
    · exact hw i
  refine ⟨?_, hp⟩
  unfold filterStep
  rw [resampleIf, if_neg (fun h => hd h.1.1)]
  funext i
  unfold advanced
  simp only [mul_one]
  rw [sum_even hN hp, div_one]

theorem stuck_same {N : Nat} {c : Fin N → X × ℝ} {y : X} (h : ∀ i, (c i).1 = y) (static : Prop)
    (v : Fin N → ℝ × R × ℝ) (i : Fin N) : (prepared static c v i).1 = y := by
  unfold prepared resampleIf
  split
  · exact h _
  · exact h i

theorem stuck_small {n : Nat} {c : Fin (n + 1) → X × ℝ} (hw : ∀ i, (c i).2 = 1 / ((n + 1 : Nat) : ℝ)) {static : Prop}
    (hst : static) {v : Fin (n + 1) → ℝ × R × ℝ} (hv : ∀ i, 0 < (v i).1 ∧ (v i).1 ≤ 1)
    (hs : (v (Fin.last n)).1 ≤ (1 / ((n + 1 : Nat) : ℝ)) ^ (n + 1)) (i : Fin (n + 1)) :
    (prepared static c v i).1 = (c 0).1 := by
  unfold prepared
  rw [resampleIf, if_pos ⟨hst, sum_even (Nat.succ_pos n) hw⟩]
  unfold resampled
  rw [pick_first hw (orderedVec_unit hv i).1 (orderedVec_small hv hs i)]

/-- Probability that all of a number of independent uniform numbers are large. -/
theorem all_large {x : Nat → Ω → X} {ρ : Nat → Nat → Ω → ℝ × R × ℝ} {μ : Measure X}
    {ν : Nat → Measure R} [∀ t, IsProbabilityMeasure (ν t)]
    (h : IndependentDraws P x ρ μ fun t => ((volume : Measure ℝ).restrict (Set.Ioc 0 1)).prod
      ((ν t).prod ((volume : Measure ℝ).restrict (Set.Ioc 0 1)))) (i : Nat) {p : ℝ} (hp : 0 ≤ p) (T : Nat) :
    P (⋂ t ∈ Finset.Ico 1 T, {ω | p < (ρ t i ω).1}) = ENNReal.ofReal (1 - p) ^ (T - 1) := by
  have hinj : Function.Injective fun t : Nat => (Sum.inr (t, i) : Nat ⊕ Nat × Nat) := by
    intro a b hab
    simpa using hab
  have hI : iIndep (fun t : Nat => MeasurableSpace.comap (ρ t i) inferInstance) P := h.indep.precomp hinj
  rw [hI.meas_biInter (s := fun t => {ω | p < (ρ t i ω).1}) fun t _ => ⟨{z | p < z.1}, measurableSet_lt measurable_const measurable_fst, rfl⟩]
  have hu : IsProbabilityMeasure ((volume : Measure ℝ).restrict (Set.Ioc (0 : ℝ) 1)) := ⟨by simp⟩
  have e : ∀ t, P {ω | p < (ρ t i ω).1} = ENNReal.ofReal (1 - p) := by
    intro t
    have e1 : P.map (fun ω => (ρ t i ω).1) = (volume : Measure ℝ).restrict (Set.Ioc 0 1) := by
      have := congrArg (fun m => Measure.map Prod.fst m) (h.law_r t i)
      beta_reduce at this
      rw [Measure.map_map measurable_fst (h.measurable_r t i), Measure.map_fst_prod, measure_univ,
        one_smul] at this
      exact this
    have e2 : P {ω | p < (ρ t i ω).1} = P.map (fun ω => (ρ t i ω).1) (Set.Ioi p) :=
      (Measure.map_apply (measurable_fst.comp (h.measurable_r t i)) measurableSet_Ioi).symm
    rw [e2, e1, Measure.restrict_apply measurableSet_Ioi]
    have e3 : Set.Ioi p ∩ Set.Ioc (0 : ℝ) 1 = Set.Ioc p 1 := by
      ext u
      simp only [Set.mem_inter_iff, Set.mem_Ioi, Set.mem_Ioc]
      constructor
      · rintro ⟨a, _, b⟩; exact ⟨a, b⟩
      · rintro ⟨a, b⟩; exact ⟨a, by linarith, b⟩
    rw [e3, Real.volume_Ioc]
  simp only [e, Finset.prod_const, Nat.card_Ico]

theorem stuck_resampling {x : Nat → Ω → X} {ρ : Nat → Nat → Ω → ℝ × R × ℝ} {μ : Measure X}
    {ν : Nat → Measure R} [∀ t, IsProbabilityMeasure (ν t)]
    (h : IndependentDraws P x ρ μ fun t => ((volume : Measure ℝ).restrict (Set.Ioc 0 1)).prod
      ((ν t).prod ((volume : Measure ℝ).restrict (Set.Ioc 0 1))))
    {step : Noise R ℝ → UpdateCall R X MV ℝ → ParticleFilter R X ℝ →
      Outcome (Bool × ParticleFilter R X ℝ)} {good : ParticleFilter R X ℝ → Prop}
    {c : Nat → UpdateCall R X MV ℝ} {threshold : ℝ}
    (hc : ∀ t, (c t).sys.isSome = true ∧ (c t).meas = none ∧
      StepRuns kthRoot step 1 threshold good (c t) (fun _ a => a) fun _ _ => 1)
    {n : Nat} {prior : Ω → MCPdf ℝ X} {f : Ω → ParticleFilter R X ℝ} {q : Option (Proposal R X ℝ)}
    (hprior : ∀ ω, Holds (prior ω) ((List.range (n + 1)).map fun i => (x i ω, 1 / ((n + 1 : Nat) : ℝ))))
    (hf : ∀ ω, ParticleFilter.make dflt (prior ω) q 1 threshold .multinomial = .ok (f ω))
    (hgood : ∀ g : ParticleFilter R X ℝ, g.proposal = q → good g) (T : Nat) :
    P {ω | ¬ ∃ f' est y, ParticleFilter.run step
        ((List.range T).map fun t => (⟨fun i => (ρ t i ω).2.1, fun i => (ρ t i ω).1,
          fun i => (ρ t i ω).2.2⟩, c t)) (f ω) = .ok (true, f') ∧ Holds f'.postGet est ∧
        est = List.replicate (n + 1) (y, 1 / ((n + 1 : Nat) : ℝ))} ≤
      ENNReal.ofReal ((1 - (1 / ((n + 1 : Nat) : ℝ)) ^ (n + 1)) ^ (T - 1)) := by
  have hN : 0 < n + 1 := Nat.succ_pos n
  have hN' : (0 : ℝ) < ((n + 1 : Nat) : ℝ) := by exact_mod_cast hN
  have hunit : ∀ᵐ ω ∂P, ∀ t i, (0 < (ρ t i ω).1 ∧ (ρ t i ω).1 ≤ 1) ∧
      (0 < (ρ t i ω).2.2 ∧ (ρ t i ω).2.2 ≤ 1) := by
    rw [ae_all_iff]
    intro t
    rw [ae_all_iff]
    intro i
    have hu : IsProbabilityMeasure ((volume : Measure ℝ).restrict (Set.Ioc (0 : ℝ) 1)) :=
      ⟨by simp⟩
    have hin : ∀ᵐ u ∂((volume : Measure ℝ).restrict (Set.Ioc (0 : ℝ) 1)), 0 < u ∧ u ≤ 1 :=
      ae_restrict_mem measurableSet_Ioc
    have e1 : P.map (fun ω => (ρ t i ω).1) = (volume : Measure ℝ).restrict (Set.Ioc 0 1) := by
      have := congrArg (fun m => Measure.map Prod.fst m) (h.law_r t i)
      beta_reduce at this
      rw [Measure.map_map measurable_fst (h.measurable_r t i), Measure.map_fst_prod, measure_univ,
        one_smul] at this
      exact this
    have e2 : P.map (fun ω => (ρ t i ω).2.2) = (volume : Measure ℝ).restrict (Set.Ioc 0 1) := by
      have := congrArg (fun m => Measure.map (Prod.snd ∘ Prod.snd) m) (h.law_r t i)
      beta_reduce at this
      rw [Measure.map_map (measurable_snd.comp measurable_snd) (h.measurable_r t i),
        ← Measure.map_map measurable_snd measurable_snd, Measure.map_snd_prod, measure_univ,
        one_smul, Measure.map_snd_prod, measure_univ, one_smul] at this
      exact this
    rw [← e1] at hin
    have i1 := ae_of_ae_map (measurable_fst.comp (h.measurable_r t i)).aemeasurable hin
    rw [e1, ← e2] at hin
    have i2 := ae_of_ae_map
      ((measurable_snd.comp measurable_snd).comp (h.measurable_r t i)).aemeasurable hin
    filter_upwards [i1, i2] with ω j1 j2
    exact ⟨j1, j2⟩
  obtain ⟨C, hC⟩ : ∃ C : Nat → Ω → Fin (n + 1) → X × ℝ,
    C = fun t => particlesAt 1 c (fun _ _ a => a) (fun _ _ _ => 1) (fun _ => threshold) x ρ t (n + 1) := ⟨_, rfl⟩
  have hC0 : ∀ ω i, C 0 ω i = (x i ω, 1 / ((n + 1 : Nat) : ℝ)) := by
    intro ω i; rw [hC]; rfl
  have hCs : ∀ t ω, C (t + 1) ω = filterStep ((c t).sys.isSome = true ∧ 0 < ticks c t ∧ 1 ∣ ticks c t)
      ((c t).meas.isSome = true) threshold (fun _ a => a) (fun _ _ => 1) (C t ω, fun i => ρ t i ω) := by
    intro t ω; rw [hC]; rfl
  have htick : ∀ t, ticks c t = t := fun t => ticks_eq (T := t) (fun t _ => (hc t).1) t le_rfl
  have hmeas : ∀ t, ¬ (c t).meas.isSome = true := fun t => by rw [(hc t).2.1]; simp
  have key : ∀ t ω, (∀ t i, (0 < (ρ t i ω).1 ∧ (ρ t i ω).1 ≤ 1) ∧ (0 < (ρ t i ω).2.2 ∧ (ρ t i ω).2.2 ≤ 1)) →
      (∀ i, (C t ω i).2 = 1 / ((n + 1 : Nat) : ℝ)) ∧
      ((∃ s ∈ Finset.Ico 1 t, (ρ s n ω).1 ≤ (1 / ((n + 1 : Nat) : ℝ)) ^ (n + 1)) → ∃ y, ∀ i, (C t ω i).1 = y) ∧
        ∃ f', ParticleFilter.run step
        ((List.range t).map fun t => (⟨fun i => (ρ t i ω).2.1, fun i => (ρ t i ω).1,
          fun i => (ρ t i ω).2.2⟩, c t)) (f ω) = .ok (true, f') ∧ good f' ∧
        Ready 1 threshold (ticks c t) f' (List.ofFn (C t ω)) := by
    intro t ω hu
    induction t with
    | zero =>
      refine ⟨fun i => by rw [hC0], fun ⟨s, hs, _⟩ => by simp at hs, ?_⟩
      have hn0 : Normalised ((List.range (n + 1)).map fun i => (x i ω, 1 / ((n + 1 : Nat) : ℝ))) := by
        refine ⟨?_, ?_⟩
        · intro w hw
          simp only [List.map_map, List.mem_map, Function.comp] at hw
          obtain ⟨_, _, rfl⟩ := hw
          positivity
        · rw [List.map_map]
          simp only [Function.comp_def, List.map_const', List.length_range, List.sum_replicate, nsmul_eq_mul]
          exact mul_one_div_cancel hN'.ne'
      obtain ⟨k1, k2, _⟩ := pfMake_ready (hprior ω) hn0 (hf ω)
      have e : List.ofFn (C 0 ω) = (List.range (n + 1)).map fun i => (x i ω, 1 / ((n + 1 : Nat) : ℝ)) := by
        apply List.ext_getElem
        · simp
        · intro i h1 h2
          rw [List.getElem_ofFn, hC0, List.getElem_map, List.getElem_range]
      rw [e]
      exact ⟨f ω, rfl, hgood _ k2, k1⟩
    | succ t ih =>
      obtain ⟨w, same, f1, r1, r2, r3⟩ := ih
      obtain ⟨e1, e2⟩ := stuck_step hN w ((c t).sys.isSome = true ∧ 0 < ticks c t ∧ 1 ∣ ticks c t) (hmeas t) threshold
        (fun i : Fin (n + 1) => ρ t i ω)
      refine ⟨fun i => by rw [hCs, e1]; exact e2 i, ?_, ?_⟩
      · rintro ⟨s, hs, hs'⟩
        rw [Finset.mem_Ico] at hs
        rw [hCs, e1]
        rcases Nat.lt_or_ge s t with hst | hst
        · obtain ⟨y, hy⟩ := same ⟨s, Finset.mem_Ico.2 ⟨hs.1, hst⟩, hs'⟩
          exact ⟨y, stuck_same hy _ _⟩
        · obtain rfl : s = t := by omega
          refine ⟨(C s ω 0).1, stuck_small w ⟨(hc s).1, by rw [htick]; omega, one_dvd _⟩ (fun i => (hu s i).1) ?_⟩
          exact hs'
      · rw [hCs]
        obtain ⟨f2, k1, k2, k3⟩ := step_cloud (fun _ _ => zero_le_one) (hc t).2.2 r3 r2 (v := fun i => ρ t i ω)
          (fun i => (hu t i).1) (fun i => (hu t i).2) Iff.rfl (by
            simp only [mul_one]
            rw [sum_even hN e2]
            exact one_pos)
        refine ⟨f2, ?_, k2, k3⟩
        rw [List.range_succ, List.map_append]
        exact run_snoc step (_, c t) k1 _ r1
  have hsub : {ω | ¬ ∃ f' est y, ParticleFilter.run step
        ((List.range T).map fun t => (⟨fun i => (ρ t i ω).2.1, fun i => (ρ t i ω).1,
          fun i => (ρ t i ω).2.2⟩, c t)) (f ω) = .ok (true, f') ∧ Holds f'.postGet est ∧
        est = List.replicate (n + 1) (y, 1 / ((n + 1 : Nat) : ℝ))} ⊆
      {ω | ¬ ∀ t i, (0 < (ρ t i ω).1 ∧ (ρ t i ω).1 ≤ 1) ∧ (0 < (ρ t i ω).2.2 ∧ (ρ t i ω).2.2 ≤ 1)} ∪
      ⋂ t ∈ Finset.Ico 1 T, {ω | (1 / ((n + 1 : Nat) : ℝ)) ^ (n + 1) < (ρ t n ω).1} := by
    intro ω hω
    by_contra hcon
    rw [Set.mem_union, not_or] at hcon
    obtain ⟨d1, d2⟩ := hcon
    rw [Set.mem_ofPred_eq, not_not] at d1
    simp only [Set.mem_iInter, Set.mem_ofPred_eq, not_forall, not_lt] at d2
    obtain ⟨s, hs, hs'⟩ := d2
    obtain ⟨w, same, f1, r1, _, r3⟩ := key T ω d1
    obtain ⟨y, hy⟩ := same ⟨s, hs, hs'⟩
    refine hω ⟨f1, _, y, r1, r3.live.samples, ?_⟩
    have : C T ω = fun _ => (y, 1 / ((n + 1 : Nat) : ℝ)) := by
      funext i
      exact Prod.ext (hy i) (w i)
    rw [this]
    exact List.ofFn_const _ _
  refine (measure_mono hsub).trans ((measure_union_le _ _).trans ?_)
  have h00 : P {ω | ¬ ∀ t i, (0 < (ρ t i ω).1 ∧ (ρ t i ω).1 ≤ 1) ∧
      (0 < (ρ t i ω).2.2 ∧ (ρ t i ω).2.2 ≤ 1)} = 0 := hunit
  rw [h00, zero_add, all_large h n (by positivity) T, ENNReal.ofReal_pow]
  have : (1 / ((n + 1 : Nat) : ℝ)) ^ (n + 1) ≤ 1 := pow_le_one₀ (by positivity) (by
    rw [div_le_one hN']; push_cast; linarith [(Nat.cast_nonneg n : (0:ℝ) ≤ n)])
  linarith

end BFL.Props
