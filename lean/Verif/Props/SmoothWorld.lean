import Verif.Lemmas.SmoothWorld
import Verif.Props.BestEstimate
import Mathlib.MeasureTheory.Integral.Pi

/-!
# C99: what the smoother reports is right, and it is the best that all readings allow

The world is the one of C64. For every outcome `ω` of the world the filter is run on what the sensors read in `ω`, and
then the smoother is run backwards (`smoothCalls`). `lastState (es.take k) X` is the state after the first `k` events.
-/

set_option linter.unusedSectionVars false

namespace BFL.Props

open Matrix MeasureTheory ProbabilityTheory Spec Moment

variable {Ω : Type} [MeasurableSpace Ω] {n m : Nat} {U : Type}

/-- **C99, the reports are right.** At every time, the smoothed estimate is unbiased and the reported covariance
(which is the same for every `ω`) is the true second moment of its error. -/
theorem C99_error (μ : Measure Ω) [IsProbabilityMeasure μ] (be : Backend) (kind : KF.Kind ℝ n)
    (hk : kind.Runs) (es : List (Event Ω n U)) (X : Ω → Fin n → ℝ) (f : KF ℝ n)
    (hp : PriorRight μ X f) (ht : ∀ e ∈ es, e.Told μ) (hs : ∀ e ∈ es, e.Stirred) (hu : Uncorrelated μ X f es) :
    ∃ (g : Ω → RTS ℝ n) (l : Ω → List (RTS ℝ n)),
      (∀ ω, smoothCalls be kind (calls es X ω) f = .ok (g ω, l ω)) ∧
      ∀ k ≤ es.length, ∃ gk : Ω → RTS ℝ n, (∀ ω, (g ω :: l ω)[k]? = some (gk ω)) ∧
        Centred μ (fun ω => lastState (es.take k) X ω - (gk ω).mu) ∧
        ∀ ω, (gk ω).sigma = moment μ (fun ω => lastState (es.take k) X ω - (gk ω).mu)
          (fun ω => lastState (es.take k) X ω - (gk ω).mu) := by
  obtain ⟨g, l, h1, h2⟩ := smooth_tracks be hk es (tracks_start hp.1 hp.2.1 hp.2.2) (fun e he => ⟨ht e he, hs e he⟩)
    (fun e he => fresh_start (Told.square (ht e he)) (Told.centred (ht e he)) (hu.1 e he)) hu.2
  refine ⟨g, l, h1, fun k hk => ?_⟩
  obtain ⟨gk, P, e, h⟩ := h2 k hk
  exact ⟨gk, e, centred_iff.2 (h.orth _ h.one), fun ω => (h.sigma ω).trans h.moment.symm⟩

/-- **C99, no linear formula does better.** The smoothed estimate is linear in all the readings, earlier and later ones
(plus a constant), and every other such estimate `Y` of the state at that time has a second moment of the error that is
larger by the second moment of its difference from the smoothed estimate. -/
theorem C99_best (μ : Measure Ω) [IsProbabilityMeasure μ] (be : Backend) (kind : KF.Kind ℝ n)
    (hk : kind.Runs) (es : List (Event Ω n U)) (X : Ω → Fin n → ℝ) (f : KF ℝ n)
    (hp : PriorRight μ X f) (ht : ∀ e ∈ es, e.Told μ) (hs : ∀ e ∈ es, e.Stirred) (hu : Uncorrelated μ X f es) :
    ∃ (g : Ω → RTS ℝ n) (l : Ω → List (RTS ℝ n)),
      (∀ ω, smoothCalls be kind (calls es X ω) f = .ok (g ω, l ω)) ∧
      ∀ k ≤ es.length, ∃ gk : Ω → RTS ℝ n, (∀ ω, (g ω :: l ω)[k]? = some (gk ω)) ∧
        AffineIn (readings es X) (fun ω => (gk ω).mu) ∧
        ∀ Y : Ω → Fin n → ℝ, AffineIn (readings es X) Y → ∀ ω,
          PSD (moment μ (fun ω => lastState (es.take k) X ω - Y ω) (fun ω => lastState (es.take k) X ω - Y ω)
            - (gk ω).sigma) ∧
          moment μ (fun ω => lastState (es.take k) X ω - Y ω) (fun ω => lastState (es.take k) X ω - Y ω)
            - (gk ω).sigma = moment μ (fun ω => (gk ω).mu - Y ω) (fun ω => (gk ω).mu - Y ω) := by
  obtain ⟨g, l, h1, h2⟩ := smooth_tracks be hk es (tracks_start hp.1 hp.2.1 hp.2.2) (fun e he => ⟨ht e he, hs e he⟩)
    (fun e he => fresh_start (Told.square (ht e he)) (Told.centred (ht e he)) (hu.1 e he)) hu.2
  refine ⟨g, l, h1, fun k hk => ?_⟩
  obtain ⟨gk, P, e, h⟩ := h2 k hk
  rw [Set.singleton_union] at h
  refine ⟨gk, e, h.inside, fun Y hY ω => ?_⟩
  obtain ⟨hs, e⟩ := pythagoras h hY
  have hsig : (gk ω).sigma = P := h.sigma ω
  rw [e, hsig, add_sub_cancel_left]
  exact ⟨Moment.psd hs, rfl⟩

/-- **C99, hindsight does not hurt.** At every time the smoother reports no more uncertainty, in any direction, than the
filter did at that time. -/
theorem C99_hindsight (μ : Measure Ω) [IsProbabilityMeasure μ] (be : Backend) (kind : KF.Kind ℝ n)
    (hk : kind.Runs) (es : List (Event Ω n U)) (X : Ω → Fin n → ℝ) (f : KF ℝ n)
    (hp : PriorRight μ X f) (ht : ∀ e ∈ es, e.Told μ) (hs : ∀ e ∈ es, e.Stirred) (hu : Uncorrelated μ X f es) :
    ∃ (g : Ω → RTS ℝ n) (l : Ω → List (RTS ℝ n)),
      (∀ ω, smoothCalls be kind (calls es X ω) f = .ok (g ω, l ω)) ∧
      ∀ k ≤ es.length, ∃ (gk : Ω → RTS ℝ n) (fk : Ω → KF ℝ n), (∀ ω, (g ω :: l ω)[k]? = some (gk ω)) ∧
        (∀ ω, runAll be kind (calls (es.take k) X ω) f = .ok (fk ω)) ∧ ∀ ω, PSD ((fk ω).sigma - (gk ω).sigma) := by
  obtain ⟨g, l, h1, h2⟩ := C99_best μ be kind hk es X f hp ht hs hu
  refine ⟨g, l, h1, fun k hk' => ?_⟩
  obtain ⟨gk, e, _, h3⟩ := h2 k hk'
  have hu' : Uncorrelated μ X f (es.take k) :=
    ⟨fun e he => hu.1 e (List.mem_of_mem_take he), hu.2.sublist (List.take_sublist k es)⟩
  have ht' : ∀ e ∈ es.take k, e.Told μ := fun e he => ht e (List.mem_of_mem_take he)
  obtain ⟨fk, e1, _, e2⟩ := C64_error μ be kind hk (es.take k) X f hp ht' hu'
  obtain ⟨fk', e1', e3, _⟩ := C64_best μ be kind hk (es.take k) X f hp ht' hu'
  have : fk = fk' := funext fun ω =>
    Outcome.ok.inj ((e1 ω).symm.trans (e1' ω))
  subst this
  refine ⟨gk, fk, e, e1, fun ω => ?_⟩
  rw [e2 ω]
  exact (h3 _ (fun i => Submodule.span_mono (Set.insert_subset_insert (readings_take es k X)) (e3 i)) ω).1

/-- **C99, the distribution is right.** With jointly normal noise the state at every time is distributed around the
smoothed estimate as the smoother reports, whatever the sensors have read before and afterwards: the error is
independent of all readings, and every combination `a · error` is normal with mean zero and variance `aᵀ Σ a`. -/
theorem C99_distribution (μ : Measure Ω) [IsProbabilityMeasure μ] (be : Backend) (kind : KF.Kind ℝ n)
    (hk : kind.Runs) (es : List (Event Ω n U)) (X : Ω → Fin n → ℝ) (f : KF ℝ n)
    (hp : PriorRight μ X f) (ht : ∀ e ∈ es, e.Told μ) (hs : ∀ e ∈ es, e.Stirred) (hu : Uncorrelated μ X f es)
    (hN : JointlyNormal μ (sources es X)) :
    ∃ (g : Ω → RTS ℝ n) (l : Ω → List (RTS ℝ n)),
      (∀ ω, smoothCalls be kind (calls es X ω) f = .ok (g ω, l ω)) ∧
      ∀ k ≤ es.length, ∃ gk : Ω → RTS ℝ n, (∀ ω, (g ω :: l ω)[k]? = some (gk ω)) ∧
        IndepFun (fun ω => lastState (es.take k) X ω - (gk ω).mu) (heard es X) μ ∧
        ∀ (a : Fin n → ℝ) (ω₀ : Ω), μ.map (fun ω => a ⬝ᵥ (lastState (es.take k) X ω - (gk ω).mu)) =
          gaussianReal 0 (quad (gk ω₀).sigma a).toNNReal := by
  obtain ⟨g, l, h1, h2⟩ := smooth_tracks be hk es (tracks_start hp.1 hp.2.1 hp.2.2) (fun e he => ⟨ht e he, hs e he⟩)
    (fun e he => fresh_start (Told.square (ht e he)) (Told.centred (ht e he)) (hu.1 e he)) hu.2
  refine ⟨g, l, h1, fun k hk => ?_⟩
  obtain ⟨gk, P, e, h⟩ := h2 k hk
  obtain ⟨h7, h8⟩ := smooth_law hN h (take_in es k X)
  refine ⟨gk, e, h8, fun a ω₀ => ?_⟩
  have hsig : (gk ω₀).sigma = P := h.sigma ω₀
  rw [hsig]
  exact normal_combination hN h7 h.square h.moment (centred_iff.2 (h.orth _ h.one)) a

/-! ### Example: a standard normal state moves once, with standard normal noise, and is read once afterwards -/

namespace Walk

noncomputable def law : Measure (Fin 3 → ℝ) := Measure.pi fun _ => gaussianReal 0 1

noncomputable instance : IsProbabilityMeasure law := by unfold law; infer_instance

def state (ω : Fin 3 → ℝ) : Fin 1 → ℝ := ![ω 0]

def motion : Event (Fin 3 → ℝ) 1 Unit := .move Coins.model none !![1] 0 !![1] fun ω => ![ω 1]

def reading : Event (Fin 3 → ℝ) 1 Unit := .read 1 Coins.model none !![1] 0 !![1] fun ω => ![ω 2]

theorem square (i : Fin 3) : MemLp (fun ω : Fin 3 → ℝ => ω i) 2 law :=
  Normals.memLp.comp_measurePreserving (measurePreserving_eval (fun _ : Fin 3 => gaussianReal 0 1) i)

theorem three (a b c : ℝ → ℝ) : ∫ ω : Fin 3 → ℝ, a (ω 0) * b (ω 1) * c (ω 2) ∂law =
    (∫ x, a x ∂gaussianReal 0 1) * (∫ x, b x ∂gaussianReal 0 1) * ∫ x, c x ∂gaussianReal 0 1 := by
  have := integral_fintype_prod_eq_prod (𝕜 := ℝ) (μ := fun _ : Fin 3 => gaussianReal 0 1) ![a, b, c]
  simpa [Fin.prod_univ_three, law] using this

theorem mean (i : Fin 3) : ∫ ω : Fin 3 → ℝ, ω i ∂law = 0 := by
  fin_cases i
  · simpa using three (fun x => x) (fun _ => 1) (fun _ => 1)
  · simpa using three (fun _ => 1) (fun x => x) (fun _ => 1)
  · simpa using three (fun _ => 1) (fun _ => 1) (fun x => x)

theorem second (i : Fin 3) : ∫ ω : Fin 3 → ℝ, ω i * ω i ∂law = 1 := by
  fin_cases i
  · simpa [Normals.second] using three (fun x => x * x) (fun _ => 1) (fun _ => 1)
  · simpa [Normals.second] using three (fun _ => 1) (fun x => x * x) (fun _ => 1)
  · simpa [Normals.second] using three (fun _ => 1) (fun _ => 1) (fun x => x * x)

theorem zero_one : ∫ ω : Fin 3 → ℝ, ω 0 * ω 1 ∂law = 0 := by
  simpa using three (fun x => x) (fun x => x) (fun _ => 1)

theorem zero_two : ∫ ω : Fin 3 → ℝ, ω 0 * ω 2 ∂law = 0 := by
  simpa using three (fun x => x) (fun _ => 1) (fun x => x)

theorem one_two : ∫ ω : Fin 3 → ℝ, ω 1 * ω 2 ∂law = 0 := by
  simpa using three (fun _ => 1) (fun x => x) (fun x => x)

theorem prior : PriorRight law state Coins.start := by
  refine ⟨fun i => ?_, fun i => ?_, ?_⟩
  · fin_cases i
    simpa [state, Coins.start, KF.make] using square 0
  · fin_cases i
    simpa [state, Coins.start, KF.make] using mean 0
  · ext i j
    fin_cases i; fin_cases j
    simpa [Spec.moment, state, Coins.start, KF.make] using second 0

theorem told : ∀ e ∈ [motion, reading], e.Told law := by
  intro e he
  simp only [List.mem_cons, List.not_mem_nil, or_false] at he
  rcases he with rfl | rfl
  · refine ⟨Coins.told.1, fun i => ?_, fun i => ?_, ?_⟩
    · fin_cases i
      exact square 1
    · fin_cases i
      simpa using mean 1
    · ext i j
      fin_cases i; fin_cases j
      simpa [Spec.moment] using second 1
  · refine ⟨Coins.told.1, fun i => ?_, fun i => ?_, ?_, Coins.told.2.2.2.2⟩
    · fin_cases i
      exact square 2
    · fin_cases i
      simpa using mean 2
    · ext i j
      fin_cases i; fin_cases j
      simpa [Spec.moment] using second 2

theorem stirred : ∀ e ∈ [motion, reading], e.Stirred := by
  intro e he
  simp only [List.mem_cons, List.not_mem_nil, or_false] at he
  rcases he with rfl | rfl
  · exact Coins.told.2.2.2.2
  · trivial

theorem uncorrelated : Uncorrelated law state Coins.start [motion, reading] := by
  refine ⟨fun e he => ?_, ?_⟩
  · simp only [List.mem_cons, List.not_mem_nil, or_false] at he
    rcases he with rfl | rfl
    · ext i j
      have hj : j = (0 : Fin 1) := Subsingleton.elim (α := Fin 1) _ _
      subst hj
      fin_cases i
      refine Eq.trans ?_ zero_one
      simp [Spec.moment, state, Coins.start, KF.make, motion, Event.noise]
      rfl
    · ext i j
      have hj : j = (0 : Fin 1) := Subsingleton.elim (α := Fin 1) _ _
      subst hj
      fin_cases i
      refine Eq.trans ?_ zero_two
      simp [Spec.moment, state, Coins.start, KF.make, reading, Event.noise]
      rfl
  · simp only [List.pairwise_cons, List.mem_singleton, forall_eq, List.not_mem_nil, false_imp_iff, implies_true,
      List.Pairwise.nil, and_true]
    ext i j
    have hj : j = (0 : Fin 1) := Subsingleton.elim (α := Fin 1) _ _
    have hi : i = (0 : Fin 1) := Subsingleton.elim (α := Fin 1) _ _
    subst hj hi
    exact one_two

theorem normal : JointlyNormal law (sources [motion, reading] state) := by
  intro Y hY
  have hL : ∃ L : StrongDual ℝ (Fin 3 → ℝ), Y = L := by
    refine Submodule.span_induction ?_ ⟨0, rfl⟩ ?_ ?_ hY
    · rintro Z (⟨i, rfl⟩ | ⟨e, he, i, rfl⟩)
      · refine ⟨ContinuousLinearMap.proj 0, ?_⟩
        fin_cases i
        rfl
      · simp only [List.mem_cons, List.not_mem_nil, or_false] at he
        rcases he with rfl | rfl
        · have hi : i = (0 : Fin 1) := Subsingleton.elim (α := Fin 1) _ _
          subst hi
          exact ⟨ContinuousLinearMap.proj 1, rfl⟩
        · have hi : i = (0 : Fin 1) := Subsingleton.elim (α := Fin 1) _ _
          subst hi
          exact ⟨ContinuousLinearMap.proj 2, rfl⟩
    · rintro _ _ _ _ ⟨L, rfl⟩ ⟨M, rfl⟩
      exact ⟨L + M, rfl⟩
    · rintro a _ _ ⟨L, rfl⟩
      exact ⟨a • L, rfl⟩
  obtain ⟨L, rfl⟩ := hL
  have hi : iIndepFun (fun (i : Fin 3) (ω : Fin 3 → ℝ) => ω i) law :=
    iIndepFun_pi (X := fun _ x => x) fun _ => aemeasurable_id
  have hg : ∀ i : Fin 3, HasGaussianLaw (fun ω : Fin 3 → ℝ => ω i) law := fun i =>
    ⟨by rw [show (fun ω : Fin 3 → ℝ => ω i) = Function.eval i from rfl, law,
      (measurePreserving_eval (fun _ : Fin 3 => gaussianReal 0 1) i).map_eq]; infer_instance⟩
  have := (hi.hasGaussianLaw hg).isGaussian_map
  rw [show (fun ω : Fin 3 → ℝ => (fun i => ω i)) = id from rfl, Measure.map_id] at this
  exact ⟨_, _, IsGaussian.map_eq_gaussianReal L⟩

end Walk

/-- After one motion and a reading the smoothed estimate of the initial state is right about its error. -/
example : ∃ (g : (Fin 3 → ℝ) → RTS ℝ 1) (l : (Fin 3 → ℝ) → List (RTS ℝ 1)),
    (∀ ω, smoothCalls .boost .extended (calls [Walk.motion, Walk.reading] Walk.state ω) Coins.start
      = .ok (g ω, l ω)) ∧
    ∀ ω, (g ω).sigma = moment Walk.law (fun ω => Walk.state ω - (g ω).mu) (fun ω => Walk.state ω - (g ω).mu) := by
  obtain ⟨g, l, h1, h2⟩ := C99_error Walk.law .boost .extended trivial [Walk.motion, Walk.reading] Walk.state
    Coins.start Walk.prior Walk.told Walk.stirred Walk.uncorrelated
  obtain ⟨gk, e, _, h3⟩ := h2 0 (Nat.zero_le _)
  have : g = gk := funext fun ω => Option.some.inj (e ω)
  exact ⟨g, l, h1, this ▸ h3⟩

/-- The best linear estimate of the initial state from the later reading. -/
example : ∃ (g : (Fin 3 → ℝ) → RTS ℝ 1) (l : (Fin 3 → ℝ) → List (RTS ℝ 1)),
    (∀ ω, smoothCalls .eigen .extended (calls [Walk.motion, Walk.reading] Walk.state ω) Coins.start
      = .ok (g ω, l ω)) ∧ AffineIn (readings [Walk.motion, Walk.reading] Walk.state) (fun ω => (g ω).mu) := by
  obtain ⟨g, l, h1, h2⟩ := C99_best Walk.law .eigen .extended trivial [Walk.motion, Walk.reading] Walk.state
    Coins.start Walk.prior Walk.told Walk.stirred Walk.uncorrelated
  obtain ⟨gk, e, h3, _⟩ := h2 0 (Nat.zero_le _)
  have : g = gk := funext fun ω => Option.some.inj (e ω)
  exact ⟨g, l, h1, this ▸ h3⟩

example : ∃ (g : (Fin 3 → ℝ) → RTS ℝ 1) (l : (Fin 3 → ℝ) → List (RTS ℝ 1)),
    (∀ ω, smoothCalls .eigen .extended (calls [Walk.motion, Walk.reading] Walk.state ω) Coins.start
      = .ok (g ω, l ω)) ∧ ∀ ω, PSD (Coins.start.sigma - (g ω).sigma) := by
  obtain ⟨g, l, h1, h2⟩ := C99_hindsight Walk.law .eigen .extended trivial [Walk.motion, Walk.reading] Walk.state
    Coins.start Walk.prior Walk.told Walk.stirred Walk.uncorrelated
  obtain ⟨gk, fk, e, h3, h4⟩ := h2 0 (Nat.zero_le _)
  have : g = gk := funext fun ω => Option.some.inj (e ω)
  have e2 : ∀ ω, Coins.start = fk ω := fun ω => Outcome.ok.inj (h3 ω)
  exact ⟨g, l, h1, fun ω => by rw [e2 ω, this]; exact h4 ω⟩

example : ∃ (g : (Fin 3 → ℝ) → RTS ℝ 1) (l : (Fin 3 → ℝ) → List (RTS ℝ 1)),
    (∀ ω, smoothCalls .eigen .extended (calls [Walk.motion, Walk.reading] Walk.state ω) Coins.start
      = .ok (g ω, l ω)) ∧ ∀ ω₀, Walk.law.map (fun ω => ![1] ⬝ᵥ (Walk.state ω - (g ω).mu)) =
        gaussianReal 0 (quad (g ω₀).sigma ![1]).toNNReal := by
  obtain ⟨g, l, h1, h2⟩ := C99_distribution Walk.law .eigen .extended trivial [Walk.motion, Walk.reading] Walk.state
    Coins.start Walk.prior Walk.told Walk.stirred Walk.uncorrelated Walk.normal
  obtain ⟨gk, e, _, h3⟩ := h2 0 (Nat.zero_le _)
  have : g = gk := funext fun ω => Option.some.inj (e ω)
  exact ⟨g, l, h1, this ▸ h3 ![1]⟩

end BFL.Props
