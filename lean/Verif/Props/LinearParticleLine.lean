import Verif.Props.LinearParticle
import Verif.Props.Steady
import Mathlib.Probability.Independence.InfinitePi

/-!
# C103 on a concrete case

A position on a line. Prior `N(0,1)`; it moves to `2 x + 5 u + 1 + w` with `w` of variance 4 and the input `u = 1`, and is
then read with a noise of variance 8; the reading is 8. The Kalman filter reports the mean 7 and the variance 4, and so
do, in the limit, bootstrap filters.
-/

set_option linter.unusedSectionVars false

namespace BFL.Props

open Matrix MeasureTheory ProbabilityTheory Spec Filter MCPdf ParticleFilter
open scoped ENNReal Topology

/-- Independent draws exist for all laws. -/
theorem draws_exist {X R : Type} [MeasurableSpace X] [MeasurableSpace R] (μ : Measure X) [IsProbabilityMeasure μ]
    (ν : Nat → Measure R) [∀ t, IsProbabilityMeasure (ν t)] :
    ∃ (P : Measure (Nat ⊕ Nat × Nat → X × R)), IsProbabilityMeasure P ∧
      IndependentDraws P (fun i ω => (ω (.inl i)).1) (fun t i ω => (ω (.inr (t, i))).2) μ ν := by
  let law : Nat ⊕ Nat × Nat → Measure (X × R) := fun k => μ.prod (ν (Sum.elim id Prod.fst k))
  have hl : ∀ k, IsProbabilityMeasure (law k) := fun k => inferInstance
  refine ⟨Measure.infinitePi law, inferInstance, fun i => (measurable_pi_apply (Sum.inl i)).fst,
    fun t i => (measurable_pi_apply (Sum.inr (t, i))).snd, fun i => ?_, fun t i => ?_, ?_⟩
  · have h1 : (Measure.infinitePi law).map (fun ω => ω (.inl i)) = law (.inl i) :=
      Measure.infinitePi_map_eval law _
    have h2 : ((Measure.infinitePi law).map (fun ω => ω (.inl i))).map Prod.fst =
        (Measure.infinitePi law).map (fun ω => (ω (.inl i)).1) :=
      Measure.map_map measurable_fst (measurable_pi_apply _)
    rw [← h2, h1, Measure.map_fst_prod, measure_univ, one_smul]
  · have h1 : (Measure.infinitePi law).map (fun ω => ω (.inr (t, i))) = law (.inr (t, i)) :=
      Measure.infinitePi_map_eval law _
    have h2 : ((Measure.infinitePi law).map (fun ω => ω (.inr (t, i)))).map Prod.snd =
        (Measure.infinitePi law).map (fun ω => (ω (.inr (t, i))).2) :=
      Measure.map_map measurable_snd (measurable_pi_apply _)
    rw [← h2, h1, Measure.map_snd_prod, measure_univ, one_smul]
    rfl
  · have h : iIndepFun (fun (k : Nat ⊕ Nat × Nat) (ω : Nat ⊕ Nat × Nat → X × R) => ω k)
        (Measure.infinitePi law) :=
      iIndepFun_infinitePi (P := law) (X := fun _ b => b) fun _ => measurable_id
    rw [iIndepFun_iff_iIndep] at h
    refine iIndep_of_iIndep_of_le h fun k => ?_
    cases k with
    | inl i =>
      exact (measurable_fst.comp (comap_measurable (fun ω : Nat ⊕ Nat × Nat → X × R => ω (.inl i)))).comap_le
    | inr p =>
      exact (measurable_snd.comp
        (comap_measurable (fun ω : Nat ⊕ Nat × Nat → X × R => ω (.inr (p.1, p.2))))).comap_le

/-- Filters with 1, 2, 3, … particles drawn from the prior exist. -/
theorem filters_exist {X R Ω : Type} (dflt : X) (x : Nat → Ω → X) (q : Option (Proposal R X ℝ)) {period : Nat}
    {threshold : Nat → ℝ} (hp : ∀ N, ¬ (period = 0 ∧ threshold N = 0) ∧ ¬ (period ≠ 0 ∧ threshold N ≠ 0)) :
    ∃ (prior : Nat → Ω → MCPdf ℝ X) (f : Nat → Ω → ParticleFilter R X ℝ),
      (∀ N ω, 0 < N → Holds (prior N ω) ((List.range N).map fun i => (x i ω, 1 / (N : ℝ)))) ∧
      ∀ N ω, 0 < N → ParticleFilter.make dflt (prior N ω) q period (threshold N) .multinomial = .ok (f N ω) := by
  have h : ∀ (N : Nat) (ω : Ω), ∃ (prior : MCPdf ℝ X) (f : ParticleFilter R X ℝ), 0 < N →
      Holds prior ((List.range N).map fun i => (x i ω, 1 / (N : ℝ))) ∧
      ParticleFilter.make dflt prior q period (threshold N) .multinomial = .ok f := by
    intro N ω
    have hn : ∀ N : Nat, 0 < N → Normalised ((List.range N).map fun i => (x i ω, 1 / (N : ℝ))) := by
      intro N hN0
      have hN' : (N : ℝ) ≠ 0 := by exact_mod_cast hN0.ne'
      refine ⟨?_, ?_⟩
      · intro w hw
        simp only [List.map_map, List.mem_map, Function.comp] at hw
        obtain ⟨_, _, rfl⟩ := hw
        positivity
      · simp [List.map_map, Function.comp_def, hN']
    by_cases hN : 0 < N
    · obtain ⟨prior, f, _, h2, _, h4, _⟩ := start_exists (R := R) dflt (hn N hN) q .multinomial (hp N)
      exact ⟨prior, f, fun _ => ⟨h2, h4⟩⟩
    · obtain ⟨prior, f, _⟩ := start_exists (R := R) dflt (hn 1 one_pos) q .multinomial (hp N)
      exact ⟨prior, f, fun h => absurd h hN⟩
  choose prior f h using h
  exact ⟨prior, f, fun N ω hN => (h N ω hN).1, fun N ω hN => (h N ω hN).2⟩

namespace LineWorld

open SteadyExample

/-- The sensor: `z = x + v`, `v` of variance 8. -/
noncomputable def lineSensor : LinModel ℝ 1 :=
  ⟨⟨1, [⟨1, 0⟩], [⟨1, 1, !![1]⟩], ![0], !![8], none, none⟩, true⟩

theorem lineSensor_linear : LinearNoInput lineSensor (!![1] : Matrix (Fin 1) (Fin 1) ℝ) ![0] !![8] :=
  ⟨⟨1, 1, !![1]⟩, ![0], !![8], _, _, [], rfl, rfl, rfl, rfl, rfl, rfl⟩

/-- The two models as the Kalman filter sees them (`C44_kalman`). -/
noncomputable def moves : AnalyticModel ℝ 1 1 (Fin 1 → ℝ) :=
  .withInput (fun u x => !![2] *ᵥ x + (!![5] *ᵥ u + ![1])) (fun _ _ => !![2]) (fun _ _ => !![4])

@[inherit_doc moves]
noncomputable def reads : AnalyticModel ℝ 1 1 (Fin 1 → ℝ) :=
  .noInput (fun x => !![1] *ᵥ x + ![0]) (fun _ => !![1]) (fun _ => !![8])

theorem moves_answers : AnswersAs moves (some ![1]) lineModel ![1] := by
  have h := fun x => C44_prediction lineModel _ _ _ _ lineModel_linear ![1] x
  refine ⟨fun x => ?_, fun x => ?_, fun x => ?_⟩ <;> obtain ⟨⟨m1, h1⟩, ⟨m2, h2⟩, ⟨m3, h3⟩, -, -⟩ := h x
  · rw [h1, add_assoc]; rfl
  · rw [h2]; rfl
  · rw [h3]; rfl

theorem reads_answers : AnswersAs reads none lineSensor 0 := by
  have h := fun x => C44_prediction_no_input lineSensor _ _ _ lineSensor_linear ⟨1, 0⟩ x
  refine ⟨fun x => ?_, fun x => ?_, fun x => ?_⟩ <;> obtain ⟨⟨m1, h1⟩, ⟨m2, h2⟩, ⟨m3, h3⟩, -⟩ := h x
  · rw [h1]; rfl
  · rw [h2]; rfl
  · rw [h3]; rfl

/-- The update. -/
noncomputable def call : KStep ℝ 1 (Fin 1 → ℝ) := ⟨1, some (moves, some ![1]), some (reads, ![8], none)⟩

theorem same (be : Backend) : SameUpdate be call
    ⟨some (lineModel.toSysModel be), ![1], some (lineSensor.toModel be 1), ![8], 0⟩ :=
  .full (.withInput lineModel_linear) four_psd (.noInput lineSensor_linear) (one_by_one_pd (by norm_num))
    moves_answers reads_answers

theorem mulVec_line (a b : ℝ) : (!![a] *ᵥ ![b] : Fin 1 → ℝ) = ![a * b] := by
  ext i; fin_cases i; simp [mulVec, dotProduct]

/-- What the Kalman filter reports. -/
theorem report (be : Backend) : runAll be .extended [call] ⟨![0], !![1], 0⟩ = .ok ⟨![7], !![4], 0⟩ := by
  have hs : moves.IsLinear (some ![1]) !![2] (!![5] *ᵥ ![1] + ![1]) !![4] := fun x => ⟨rfl, rfl, rfl⟩
  have hm : reads.IsLinear none !![1] ![0] !![8] := fun x => ⟨rfl, rfl, rfl⟩
  obtain ⟨e1, -⟩ := predict_exact be hs (one_by_one_pd (by norm_num))
    (f := ⟨![0], !![1], 0⟩) (one_by_one_pd one_pos)
  have v1 : (!![2] *ᵥ ![0] + (!![5] *ᵥ ![1] + ![1]) : Fin 1 → ℝ) = ![6] := by
    rw [mulVec_line, mulVec_line]
    ext i; fin_cases i; norm_num
  have v2 : (!![2] * !![1] * !![2]ᵀ + !![4] : Matrix (Fin 1) (Fin 1) ℝ) = !![8] := by
    rw [one_transpose, one_mul_one, one_mul_one]
    ext i j; fin_cases i; fin_cases j; norm_num [Matrix.mul_apply]
  simp only [v1, v2] at e1
  have e2 := measure_exact be (kind := .extended) trivial ![8] hm (one_by_one_pd (by norm_num))
    (f := ⟨![6], !![8], 0⟩) (one_by_one_pd (by norm_num))
  have hi : innovCov (!![8] : Matrix (Fin 1) (Fin 1) ℝ) (!![1] : Matrix (Fin 1) (Fin 1) ℝ) !![8] = !![16] := by
    rw [innovCov, one_transpose, one_mul_one, one_mul_one]
    ext i j; fin_cases i; fin_cases j; norm_num
  have hg : kgain (!![8] : Matrix (Fin 1) (Fin 1) ℝ) (!![1] : Matrix (Fin 1) (Fin 1) ℝ) !![8] = !![1 / 2] := by
    rw [kgain, hi, one_inv (by norm_num), one_transpose, one_mul_one, one_mul_one]
    ext i j; fin_cases i; fin_cases j; norm_num [Matrix.mul_apply]
  have hc : kcov (!![8] : Matrix (Fin 1) (Fin 1) ℝ) (!![1] : Matrix (Fin 1) (Fin 1) ℝ) !![8] = !![4] := by
    rw [kcov, hg]
    ext i j; fin_cases i; fin_cases j; norm_num [Matrix.mul_apply]
  have v3 : (!![1 / 2] *ᵥ (![8] - (!![1] *ᵥ ![6] + ![0])) + ![6] : Fin 1 → ℝ) = ![7] := by
    rw [mulVec_line]
    ext i; fin_cases i; norm_num [mulVec_line]
  simp only [hg, hc, v3] at e2
  simp only [runAll, call, KF.update, e1, e2, Outcome.ok_bind, Outcome.pure_eq]

end LineWorld

open LineWorld SteadyExample in
/-- The example: bootstrap filters that resample after every measurement. -/
example (be : Backend) : ∃ (P : Measure (Nat ⊕ Nat × Nat → (Fin 1 → ℝ) × ℝ × (Fin 1 → ℝ) × ℝ))
    (g : Nat → (Nat ⊕ Nat × Nat → (Fin 1 → ℝ) × ℝ × (Fin 1 → ℝ) × ℝ) → ParticleFilter (Fin 1 → ℝ) (Fin 1 → ℝ) ℝ),
    IsProbabilityMeasure P ∧ ∀ ε > 0, Likely P fun N ω => ∃ g' m S,
      ParticleFilter.run (ParticleFilter.bootUpdate 0 kthRoot)
        [(inputs fun i => (ω (.inr (0, i))).2,
          ⟨some (lineModel.toSysModel be), ![1], some (lineSensor.toModel be 1), ![8], 0⟩)] (g N ω) = .ok (true, g') ∧
      g'.postGet.meanGet = .ok m ∧ g'.postGet.covGet = .ok S ∧ |m 0 - 7| < ε ∧ |S 0 0 - 4| < ε := by
  have hpd : PD (!![1] : Matrix (Fin 1) (Fin 1) ℝ) := one_by_one_pd one_pos
  have := normalLaw_prob (m := ![0]) hpd
  obtain ⟨P, hP, hd⟩ := draws_exist (normalLaw ![0] (!![1] : Matrix (Fin 1) (Fin 1) ℝ))
    fun _ => Spec.uniform.prod ((Measure.pi fun _ : Fin 1 => gaussianReal 0 1).prod Spec.uniform)
  obtain ⟨prior, g, h1, h2⟩ := filters_exist (R := Fin 1 → ℝ) (0 : Fin 1 → ℝ)
    (fun i (ω : Nat ⊕ Nat × Nat → (Fin 1 → ℝ) × ℝ × (Fin 1 → ℝ) × ℝ) => (ω (.inl i)).1) none (period := 0)
    (threshold := fun N => (N : ℝ) + 1) (fun N => by
      have : (N : ℝ) + 1 ≠ 0 := by positivity
      simp [this])
  obtain ⟨f', k1, k2⟩ := C103_bootstrap be (kind := .extended) trivial (f := ⟨![0], !![1], 0⟩) hpd hd
    (st := fun _ => call) (T := 1) (fun _ _ => same be) h1 h2
  have e : f' = ⟨![7], !![4], 0⟩ := Outcome.ok.inj (k1.symm.trans (report be))
  subst e
  refine ⟨P, g, hP, fun ε hε => Rare.mono (k2 ε hε) (Eventually.of_forall fun N ω hω hcon => hω ?_)⟩
  obtain ⟨g', m, S, a1, a2, a3, a4, a5⟩ := hcon
  exact ⟨g', m, S, a1, a2, a3, a4 0, a5 0 0⟩

end BFL.Props
