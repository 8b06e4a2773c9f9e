import Verif.Props.ParticleResamplingToss
import Verif.Props.Moments

/-!
# C102: the mean and the covariance that the particle filters report converge to the exact ones
-/

set_option linter.unusedSectionVars false

namespace BFL.Props

open MeasureTheory ProbabilityTheory Filter Spec MCPdf ParticleFilter
open scoped ENNReal Topology

variable {R MV Ω : Type} [MeasurableSpace R] [MeasurableSpace Ω] {n : Nat}
  {dflt : Fin n → ℝ} {period : Nat} {threshold : Nat → ℝ} {P : Measure Ω} [IsProbabilityMeasure P]
  {x : Nat → Ω → Fin n → ℝ} {ρ : Nat → Nat → Ω → ℝ × R × ℝ} {μ : Measure (Fin n → ℝ)}
  {ν : Nat → Measure R}

theorem average_pairs {X : Type} (ps : List (X × ℝ)) (g : X → ℝ) :
    Spec.average (ps.map Prod.fst) (ps.map Prod.snd) g = averageOver g ps := by
  unfold Spec.average averageOver
  induction ps with
  | nil => rfl
  | cons a l ih => simp only [List.map_cons, List.zipWith_cons_cons, List.sum_cons, ih]

/-- The reported moments in terms of averages over the particles. -/
theorem reported_moments {p : MCPdf ℝ (Fin n → ℝ)} {est : List ((Fin n → ℝ) × ℝ)}
    (h : Holds p est) (hg : Good p (est.map Prod.snd)) :
    p.meanGet = .ok (fun i => averageOver (fun y => y i) est) ∧
      p.covGet = .ok (Matrix.of fun i j => averageOver (fun y => y i * y j) est -
        averageOver (fun y => y i) est * averageOver (fun y => y j) est) := by
  have hv : p.samples.map (·.value) = est.map Prod.fst := by
    have h' : p.samples = _ := h
    rw [h', List.map_map]; rfl
  have hm : meanVector (est.map Prod.fst) (est.map Prod.snd) =
      fun i => averageOver (fun y => y i) est := by
    funext i
    exact average_pairs est _
  refine ⟨?_, ?_⟩
  · rw [meanGet_eq hg, hv, hm]
  · rw [covGet_eq hg, hv]
    congr 1
    ext i j
    have hl : (est.map Prod.fst).length = (est.map Prod.snd).length := by simp
    simp only [covMatrix, Matrix.of_apply, hm]
    generalize hmi : averageOver (fun y : Fin n → ℝ => y i) est = mi
    generalize hmj : averageOver (fun y : Fin n → ℝ => y j) est = mj
    have h1 : (fun y : Fin n → ℝ => (y i - mi) * (y j - mj)) =
        fun y => (y i * y j + ((- mj) * y i + (- mi) * y j)) + mi * mj := by
      funext y; ring
    rw [h1, average_add, average_add, average_add, average_smul, average_smul,
      average_const hl, hg.2.1.2, average_pairs, average_pairs, average_pairs, hmi, hmj]
    ring

/-- Products of nearby numbers are nearby. -/
theorem moments_close {a b c a' b' c' δ ε : ℝ} (h1 : δ ≤ 1) (h2 : δ * (2 + |a| + |b|) ≤ ε)
    (ha : |a' - a| < δ) (hb : |b' - b| < δ) (hc : |c' - c| < δ) : |c' - a' * b' - (c - a * b)| < ε := by
  have e : c' - a' * b' - (c - a * b) = (c' - c) - ((a' - a) * (b' - b) + a * (b' - b) + b * (a' - a)) := by
    ring
  rw [e]
  have t1 := abs_sub (c' - c) ((a' - a) * (b' - b) + a * (b' - b) + b * (a' - a))
  have t2 := abs_add_le ((a' - a) * (b' - b) + a * (b' - b)) (b * (a' - a))
  have t3 := abs_add_le ((a' - a) * (b' - b)) (a * (b' - b))
  rw [abs_mul] at t2 t3
  rw [abs_mul a] at t3
  have p1 : |a' - a| * |b' - b| ≤ 1 * δ :=
    mul_le_mul (ha.le.trans h1) hb.le (abs_nonneg _) zero_le_one
  have p2 : |a| * |b' - b| ≤ |a| * δ := mul_le_mul_of_nonneg_left hb.le (abs_nonneg _)
  have p3 : |b| * |a' - a| ≤ |b| * δ := mul_le_mul_of_nonneg_left ha.le (abs_nonneg _)
  nlinarith

/-- The functions whose averages make up mean and covariance. -/
def monomial : Fin n ⊕ Fin n × Fin n → (Fin n → ℝ) → ℝ
  | .inl i => fun y => y i
  | .inr (i, j) => fun y => y i * y j

theorem measurable_monomial (k : Fin n ⊕ Fin n × Fin n) : Measurable (monomial k) := by
  cases k with
  | inl i => exact measurable_pi_apply i
  | inr p => exact (measurable_pi_apply p.1).mul (measurable_pi_apply p.2)

theorem moments_near {π : Measure (Fin n → ℝ)} {ε : ℝ} (hε : 0 < ε) :
    ∃ δ > 0, ∀ (p : MCPdf ℝ (Fin n → ℝ)) (est : List ((Fin n → ℝ) × ℝ)), Holds p est →
      Good p (est.map Prod.snd) →
      (∀ k, |averageOver (monomial k) est - ∫ y, monomial k y ∂π| < δ) →
      ∃ m S, p.meanGet = .ok m ∧ p.covGet = .ok S ∧
        (∀ i, |m i - ∫ y, y i ∂π| < ε) ∧
        ∀ i j, |S i j - ((∫ y, y i * y j ∂π) - (∫ y, y i ∂π) * ∫ y, y j ∂π)| < ε := by
  set M : ℝ := ∑ i, |∫ y : Fin n → ℝ, y i ∂π| with hM
  have hM0 : 0 ≤ M := Finset.sum_nonneg fun _ _ => abs_nonneg _
  have hle : ∀ i, |∫ y : Fin n → ℝ, y i ∂π| ≤ M := fun i =>
    Finset.single_le_sum (f := fun i => |∫ y : Fin n → ℝ, y i ∂π|) (fun _ _ => abs_nonneg _)
      (Finset.mem_univ i)
  have hd : 0 < min 1 (ε / (2 + M + M)) := lt_min one_pos (by positivity)
  refine ⟨min 1 (ε / (2 + M + M)), hd, fun p est h1 h2 h3 => ?_⟩
  obtain ⟨e1, e2⟩ := reported_moments h1 h2
  have hs : min 1 (ε / (2 + M + M)) * (2 + M + M) ≤ ε := by
    rw [← le_div_iff₀ (by positivity)]; exact min_le_right _ _
  refine ⟨_, _, e1, e2, fun i => lt_of_lt_of_le (h3 (.inl i)) ?_, fun i j => ?_⟩
  · nlinarith
  · refine moments_close (min_le_left _ _) (le_trans ?_ hs) (h3 (.inl i)) (h3 (.inl j))
      (h3 (.inr (i, j)))
    refine mul_le_mul_of_nonneg_left ?_ hd.le
    have := hle i
    have := hle j
    linarith

/-- **C102, particle filter with any proposal.** The probability that all updates succeed and that the mean and the
covariance that the posterior then reports are closer than `ε`, in every component, to the mean and the covariance of
the exact conditional distribution of the state tends to 1 with the number of particles. -/
theorem C102_particleFilter [∀ t, IsProbabilityMeasure (ν t)]
    (h : IndependentDraws P x ρ μ fun t => Spec.uniform.prod ((ν t).prod Spec.uniform))
    {q : Proposal R (Fin n → ℝ) ℝ} {c : Nat → UpdateCall R (Fin n → ℝ) MV ℝ}
    {κ : Nat → Kernel (Fin n → ℝ) (Fin n → ℝ)} {ℓ : Nat → (Fin n → ℝ) → ℝ≥0∞} {T : Nat}
    (hc : ∀ t < T, UpdatesBy q (c t) (ν t) (κ t) (ℓ t)) (hp : Possible κ ℓ μ T)
    {prior : Nat → Ω → MCPdf ℝ (Fin n → ℝ)} {f : Nat → Ω → ParticleFilter R (Fin n → ℝ) ℝ}
    (hprior : ∀ N ω, 0 < N → Holds (prior N ω) ((List.range N).map fun i => (x i ω, 1 / (N : ℝ))))
    (hf : ∀ N ω, 0 < N → ParticleFilter.make dflt (prior N ω) (some q) period (threshold N)
      .multinomial = .ok (f N ω))
    (hint : ∀ i, Integrable (fun y : Fin n → ℝ => y i) (exactFilter κ ℓ μ T))
    (hint2 : ∀ i j, Integrable (fun y : Fin n → ℝ => y i * y j) (exactFilter κ ℓ μ T))
    {ε : ℝ} (hε : 0 < ε) :
    Likely P fun N ω => ∃ f' m S, ParticleFilter.run (ParticleFilter.update dflt kthRoot)
        ((List.range T).map fun t => (inputs fun i => ρ t i ω, c t)) (f N ω) = .ok (true, f') ∧
      f'.postGet.meanGet = .ok m ∧ f'.postGet.covGet = .ok S ∧
      (∀ i, |m i - ∫ y, y i ∂(exactFilter κ ℓ μ T)| < ε) ∧
      ∀ i j, |S i j - ((∫ y, y i * y j ∂(exactFilter κ ℓ μ T)) -
        (∫ y, y i ∂(exactFilter κ ℓ μ T)) * ∫ y, y j ∂(exactFilter κ ℓ μ T))| < ε := by
  simp only [uniform_eq] at h
  obtain ⟨δ, hδ, hnear⟩ := moments_near (π := exactFilter κ ℓ μ T) hε
  refine (converges_resampling_all h (step := ParticleFilter.update dflt kthRoot)
    (good := fun f => f.proposal = some q)
    (fun t htT => runsBy_updates (hc t htT)) hp hprior hf (fun _ hg => hg) (φ := monomial)
    measurable_monomial (fun k => ?_) hδ).mono (Eventually.of_forall fun N ω hω hcon => hω ?_)
  · cases k with
    | inl i => exact hint i
    | inr p => exact hint2 p.1 p.2
  · obtain ⟨f', est, h1, h2, h3, h4⟩ := hcon
    obtain ⟨m, S, k⟩ := hnear _ est h2 h3 h4
    exact ⟨f', m, S, h1, k⟩

/-- **C102, bootstrap filter.** -/
theorem C102_bootstrap [∀ t, IsProbabilityMeasure (ν t)]
    (h : IndependentDraws P x ρ μ fun t => Spec.uniform.prod ((ν t).prod Spec.uniform))
    {c : Nat → UpdateCall R (Fin n → ℝ) MV ℝ}
    {κ : Nat → Kernel (Fin n → ℝ) (Fin n → ℝ)} {ℓ : Nat → (Fin n → ℝ) → ℝ≥0∞} {T : Nat}
    (hc : ∀ t < T, BootUpdatesBy (c t) (ν t) (κ t) (ℓ t)) (hp : Possible κ ℓ μ T)
    {prior : Nat → Ω → MCPdf ℝ (Fin n → ℝ)} {f : Nat → Ω → ParticleFilter R (Fin n → ℝ) ℝ}
    (hprior : ∀ N ω, 0 < N → Holds (prior N ω) ((List.range N).map fun i => (x i ω, 1 / (N : ℝ))))
    (hf : ∀ N ω, 0 < N → ParticleFilter.make dflt (prior N ω) none period (threshold N)
      .multinomial = .ok (f N ω))
    (hint : ∀ i, Integrable (fun y : Fin n → ℝ => y i) (exactFilter κ ℓ μ T))
    (hint2 : ∀ i j, Integrable (fun y : Fin n → ℝ => y i * y j) (exactFilter κ ℓ μ T))
    {ε : ℝ} (hε : 0 < ε) :
    Likely P fun N ω => ∃ f' m S, ParticleFilter.run (ParticleFilter.bootUpdate dflt kthRoot)
        ((List.range T).map fun t => (inputs fun i => ρ t i ω, c t)) (f N ω) = .ok (true, f') ∧
      f'.postGet.meanGet = .ok m ∧ f'.postGet.covGet = .ok S ∧
      (∀ i, |m i - ∫ y, y i ∂(exactFilter κ ℓ μ T)| < ε) ∧
      ∀ i j, |S i j - ((∫ y, y i * y j ∂(exactFilter κ ℓ μ T)) -
        (∫ y, y i ∂(exactFilter κ ℓ μ T)) * ∫ y, y j ∂(exactFilter κ ℓ μ T))| < ε := by
  simp only [uniform_eq] at h
  obtain ⟨δ, hδ, hnear⟩ := moments_near (π := exactFilter κ ℓ μ T) hε
  refine (converges_resampling_all h (step := ParticleFilter.bootUpdate dflt kthRoot)
    (good := fun _ => True)
    (fun t htT => runsBy_bootUpdates (hc t htT)) hp hprior hf (fun _ _ => trivial) (φ := monomial)
    measurable_monomial (fun k => ?_) hδ).mono (Eventually.of_forall fun N ω hω hcon => hω ?_)
  · cases k with
    | inl i => exact hint i
    | inr p => exact hint2 p.1 p.2
  · obtain ⟨f', est, h1, h2, h3, h4⟩ := hcon
    obtain ⟨m, S, k⟩ := hnear _ est h2 h3 h4
    exact ⟨f', m, S, h1, k⟩

/-! ### Example: a plane position that is one of two points, read once -/

namespace TwoPoints

open Toss

/-- The two points. -/
noncomputable def point (b : Bool) : Fin 2 → ℝ := if b then ![1, 0] else ![0, 1]

/-- The sensor answers `true` with probability 3/4 at the first point and 1/4 elsewhere. -/
noncomputable def seen (y : Fin 2 → ℝ) : ℝ := if y 0 = 1 then 3 / 4 else 1 / 4

/-- Pdf of the measurement model, for readings `true`. -/
noncomputable def seenPdf : CondPdf (Fin 2 → ℝ) Bool ℝ :=
  ⟨1, fun a z => match a with | [y] => .ok (if z then seen y else 1 - seen y) | _ => .ub, fun _ => .ok true⟩

theorem seen_bounds (y : Fin 2 → ℝ) : 0 ≤ seen y ∧ seen y ≤ 1 := by
  unfold seen; split <;> norm_num

/-- Measurement model without sensor parameters. -/
noncomputable def sensor : Model (Fin 2 → ℝ) Bool ℝ := ⟨some seenPdf, some true⟩

theorem sensor_isLikelihood :
    IsLikelihood sensor fun z y _ => if z then seen y else 1 - seen y :=
  ⟨seenPdf, rfl, fun z y _ => ⟨by
    have := seen_bounds y
    show (0 : ℝ) ≤ if z = true then seen y else 1 - seen y
    split
    · exact this.1
    · linarith, rfl⟩⟩

/-- Each of the two points has probability 1/2. -/
noncomputable def place : Measure (Fin 2 → ℝ) := coin.map point

theorem measurable_point : Measurable point := Measurable.of_discrete

theorem measurable_seen : Measurable seen := by
  unfold seen
  exact Measurable.ite (measurableSet_eq_fun (measurable_pi_apply 0) measurable_const)
    measurable_const measurable_const

theorem draws_place : IndependentDraws triples (fun i ω => point (ω (.inl i)).2.1)
    (fun t i ω => ω (.inr (t, i))) place fun _ => Spec.uniform.prod (coin.prod Spec.uniform) where
  measurable_x := fun i => measurable_point.comp (draws_triples.measurable_x i)
  measurable_r := draws_triples.measurable_r
  law_x := fun i => by
    have := draws_triples.law_x i
    unfold place
    rw [← this, Measure.map_map measurable_point (draws_triples.measurable_x i)]
    rfl
  law_r := draws_triples.law_r
  indep := by
    refine iIndep_of_iIndep_of_le draws_triples.indep fun k => ?_
    cases k with
    | inl i =>
      have h1 := (measurable_point.comp (comap_measurable 
        (fun ω : Nat ⊕ Nat × Nat → ℝ × Bool × ℝ => (ω (.inl i)).2.1))).comap_le
      exact h1
    | inr p => exact le_rfl

/-- Filters with 1, 2, 3, … particles drawn from the prior exist. -/
theorem filters_place {period : Nat} {threshold : Nat → ℝ}
    (hp : ∀ N, ¬ (period = 0 ∧ threshold N = 0) ∧ ¬ (period ≠ 0 ∧ threshold N ≠ 0)) :
    ∃ (prior : Nat → (Nat ⊕ Nat × Nat → ℝ × Bool × ℝ) → MCPdf ℝ (Fin 2 → ℝ))
      (f : Nat → (Nat ⊕ Nat × Nat → ℝ × Bool × ℝ) → ParticleFilter Bool (Fin 2 → ℝ) ℝ),
      (∀ N ω, 0 < N →
        Holds (prior N ω) ((List.range N).map fun i => (point (ω (.inl i)).2.1, 1 / (N : ℝ)))) ∧
      ∀ N ω, 0 < N → ParticleFilter.make 0 (prior N ω) none period (threshold N) .multinomial =
        .ok (f N ω) := by
  have h : ∀ (N : Nat) (ω : Nat ⊕ Nat × Nat → ℝ × Bool × ℝ), ∃ (prior : MCPdf ℝ (Fin 2 → ℝ))
      (f : ParticleFilter Bool (Fin 2 → ℝ) ℝ), 0 < N →
      Holds prior ((List.range N).map fun i => (point (ω (.inl i)).2.1, 1 / (N : ℝ))) ∧
      ParticleFilter.make 0 prior none period (threshold N) .multinomial = .ok f := by
    intro N ω
    have hn : ∀ N : Nat, 0 < N →
        Normalised ((List.range N).map fun i => (point (ω (.inl i)).2.1, 1 / (N : ℝ))) := by
      intro N hN0
      have hN' : (N : ℝ) ≠ 0 := by exact_mod_cast hN0.ne'
      refine ⟨?_, ?_⟩
      · intro w hw
        simp only [List.map_map, List.mem_map, Function.comp] at hw
        obtain ⟨_, _, rfl⟩ := hw
        positivity
      · simp [List.map_map, Function.comp_def, hN']
    by_cases hN : 0 < N
    · obtain ⟨prior, f, _, h2, _, h4, _⟩ := start_exists (R := Bool) 0 (hn N hN) none .multinomial
        (hp N)
      exact ⟨prior, f, fun _ => ⟨h2, h4⟩⟩
    · obtain ⟨prior, f, _⟩ := start_exists (R := Bool) 0 (hn 1 one_pos) none .multinomial (hp N)
      exact ⟨prior, f, fun h => absurd h hN⟩
  choose prior f h using h
  exact ⟨prior, f, fun N ω hN => (h N ω hN).1, fun N ω hN => (h N ω hN).2⟩

theorem seen_point (b : Bool) : seen (point b) = lik true b := by
  cases b <;> simp [seen, point, lik]

/-- The exact distribution after the reading. -/
theorem exact_place :
    Possible (fun _ => Kernel.id) (fun _ y => ENNReal.ofReal (seen y)) place 1 ∧
    exactFilter (fun _ => Kernel.id) (fun _ y => ENNReal.ofReal (seen y)) place 1 =
      (Toss.dist (odds (3 / 4))).map point := by
  obtain ⟨p0, b0⟩ := bayes_odds (p := 1 / 2) (by norm_num) (by norm_num)
    (Measure.id_comp (μ := Toss.dist (odds (1 / 2))))
  rw [← coin_eq] at p0 b0
  norm_num at b0
  have hm : Measurable fun y => ENNReal.ofReal (seen y) := measurable_seen.ennreal_ofReal
  have hb : place.bind (Kernel.id : Kernel (Fin 2 → ℝ) (Fin 2 → ℝ)) = place := Measure.id_comp
  have hb' : coin.bind (Kernel.id : Kernel Bool Bool) = coin := Measure.id_comp
  have he : evidenceOf Kernel.id (fun y => ENNReal.ofReal (seen y)) place =
      evidenceOf Kernel.id (fun y => ENNReal.ofReal (lik true y)) coin := by
    unfold evidenceOf
    rw [hb, hb']
    unfold place
    rw [lintegral_map hm measurable_point]
    simp only [seen_point]
  refine ⟨?_, ?_⟩
  · intro t ht
    obtain rfl : t = 0 := by omega
    show evidenceOf Kernel.id _ place ≠ 0 ∧ evidenceOf Kernel.id _ place ≠ ∞
    rw [he]
    exact p0
  · show bayesStep Kernel.id _ place = _
    rw [← b0]
    apply Measure.ext_of_lintegral
    intro F hF
    unfold bayesStep
    rw [hb, hb', he, lintegral_map hF measurable_point, lintegral_smul_measure,
      lintegral_smul_measure, lintegral_withDensity_eq_lintegral_mul _ hm hF,
      lintegral_withDensity_eq_lintegral_mul _ Measurable.of_discrete
        (g := fun b => F (point b)) Measurable.of_discrete]
    unfold place
    rw [lintegral_map (hm.mul hF) measurable_point]
    simp only [Pi.mul_apply, seen_point]

theorem integral_place (φ : (Fin 2 → ℝ) → ℝ) (hφ : Measurable φ) :
    Integrable φ ((Toss.dist (odds (3 / 4))).map point) ∧
      ∫ y, φ y ∂((Toss.dist (odds (3 / 4))).map point) = 3 / 4 * φ (point true) + 1 / 4 * φ (point false) := by
  obtain ⟨h1, h2⟩ := integral_dist (odds_nonneg (p := 3 / 4) (by norm_num) (by norm_num)) (φ ∘ point)
  refine ⟨(integrable_map_measure hφ.aestronglyMeasurable measurable_point.aemeasurable).2 h1, ?_⟩
  rw [integral_map measurable_point.aemeasurable hφ.aestronglyMeasurable]
  refine h2.trans ?_
  norm_num [odds]

end TwoPoints

open Toss TwoPoints in
/-- Bootstrap filter, resampling after every measurement: the reported mean tends to (3/4, 1/4), the reported
covariance of the two coordinates to -3/16. -/
example : ∃ f : Nat → (Nat ⊕ Nat × Nat → ℝ × Bool × ℝ) → ParticleFilter Bool (Fin 2 → ℝ) ℝ,
    ∀ ε : ℝ, 0 < ε → Likely triples fun N ω => ∃ f' m S,
      ParticleFilter.run (ParticleFilter.bootUpdate 0 kthRoot)
        [(inputs fun i => ω (.inr (0, i)), ⟨none, 0, some sensor, true, 0⟩)] (f N ω) = .ok (true, f') ∧
      f'.postGet.meanGet = .ok m ∧ f'.postGet.covGet = .ok S ∧
      |m 0 - 3 / 4| < ε ∧ |m 1 - 1 / 4| < ε ∧ |S 0 1 - (-3 / 16)| < ε := by
  obtain ⟨prior, f, h1, h2⟩ := filters_place (period := 0)
    (threshold := fun N => (N : ℝ) + 1) (fun N => by
      have : (N : ℝ) + 1 ≠ 0 := by positivity
      simp [this])
  refine ⟨f, fun ε hε => ?_⟩
  have m1 : ∀ i : Fin 2, Measurable fun y : Fin 2 → ℝ => y i := fun i => measurable_pi_apply i
  have h := C102_bootstrap (MV := Bool) (dflt := 0) draws_place
    (c := fun _ => ⟨none, 0, some sensor, true, 0⟩) (κ := fun _ => Kernel.id)
    (ℓ := fun _ y => ENNReal.ofReal (seen y)) (T := 1)
    (fun t _ => BootUpdatesBy.measurement 0 0 true sensor_isLikelihood measurable_seen)
    exact_place.1 h1 h2 (fun i => by rw [exact_place.2]; exact (integral_place _ (m1 i)).1)
    (fun i j => by rw [exact_place.2]; exact (integral_place _ ((m1 i).mul (m1 j))).1) hε
  rw [exact_place.2] at h
  refine Rare.mono h (Eventually.of_forall fun N ω hω hcon => hω ?_)
  obtain ⟨f', m, S, k1, k2, k3, k4, k5⟩ := hcon
  have e0 := k4 0
  have e1 := k4 1
  have e2 := k5 0 1
  rw [(integral_place _ (m1 0)).2] at e0 e2
  rw [(integral_place _ (m1 1)).2] at e1 e2
  rw [(integral_place (fun y => y 0 * y 1) ((m1 0).mul (m1 1))).2] at e2
  refine ⟨f', m, S, k1, k2, k3, ?_, ?_, ?_⟩
  · simpa [point] using e0
  · simpa [point] using e1
  · have : (3 / 4 * (point true 0 * point true 1) + 1 / 4 * (point false 0 * point false 1) -
        (3 / 4 * point true 0 + 1 / 4 * point false 0) *
          (3 / 4 * point true 1 + 1 / 4 * point false 1) : ℝ) = -3 / 16 := by
      norm_num [point]
    rwa [this] at e2

end BFL.Props
