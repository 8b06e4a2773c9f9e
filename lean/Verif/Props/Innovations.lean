import Verif.Lemmas.Innovations
import Verif.Props.LinearWorld
import Mathlib.Probability.Distributions.Gaussian.Multivariate

/-!
# C94: the innovations are what a consistency check assumes

The world is the one of C64: a state moves linearly with noise and is read by linear sensors with noise,
and the filter is told the truth about both.
-/

set_option linter.unusedSectionVars false

namespace BFL.Props

open Matrix MeasureTheory ProbabilityTheory Spec Moment

variable {Ω : Type} [MeasurableSpace Ω] {n m : Nat} {U : Type}

/-- **C94, innovations are white.** After any history, the difference between the next reading and its
prediction has mean zero and the covariance `H P Hᵀ + R` that the filter uses, and is uncorrelated
with everything that is computed by a linear formula from the earlier readings, for example with all
earlier innovations and with the estimate itself. No noise has to be Gaussian. -/
theorem C94_white (μ : Measure Ω) [IsProbabilityMeasure μ] (be : Backend) (kind : KF.Kind ℝ n)
    (hk : kind.Runs) (es : List (Event Ω n U)) (X : Ω → Fin n → ℝ) (f : KF ℝ n)
    (hp : PriorRight μ X f) (model : AnalyticModel ℝ n m U) (s : Option U) (H : Matrix (Fin m) (Fin n) ℝ)
    (c : Fin m → ℝ) (R : Matrix (Fin m) (Fin m) ℝ) (v : Ω → Fin m → ℝ)
    (ht : ∀ e ∈ es ++ [.read m model s H c R v], e.Told μ)
    (hu : Uncorrelated μ X f (es ++ [.read m model s H c R v])) :
    ∃ (f' : Ω → KF ℝ n) (ν : Ω → Fin m → ℝ), (∀ ω, runAll be kind (calls es X ω) f = .ok (f' ω)) ∧
      (∀ ω, ∃ Z, model.predictionGet s (f' ω).mu = .ok Z ∧ ν ω = H *ᵥ lastState es X ω + c + v ω - Z) ∧
      Centred μ ν ∧ (∀ ω, moment μ ν ν = H * (f' ω).sigma * Hᵀ + R) ∧
      AffineIn (readings es X) (fun ω => (f' ω).mu) ∧
      ∀ {k : Nat} (Y : Ω → Fin k → ℝ), AffineIn (readings es X) Y → moment μ ν Y = 0 := by
  have hpw := List.pairwise_append.1 hu.2
  have htr := ht (.read m model s H c R v) (by simp)
  obtain ⟨f', P', h1, h2, h3⟩ := run_tracks be hk es (tracks_start hp.1 hp.2.1 hp.2.2)
    (fun e he => ht e (by simp [he]))
    (fun e he => fresh_start (Told.square (ht e (by simp [he]))) (Told.centred (ht e (by simp [he])))
      (hu.1 e (by simp [he]))) hpw.1
  have hv : Fresh μ ({fun _ => 1} ∪ readings es X) (lastState es X) f' v :=
    h3 (fresh_start (Told.square htr) (Told.centred htr) (hu.1 (.read m model s H c R v) (by simp)))
      fun e he => hpw.2.2 e he (.read m model s H c R v) (by simp)
  obtain ⟨hl, _, _, hR, _⟩ := htr
  obtain ⟨i1, i2, i3, _⟩ := innovation_moments (H := H) (c := c) (v := v) h2 hv hR
  have hin := h2.inside
  rw [Set.singleton_union] at hin
  refine ⟨f', fun ω => H *ᵥ lastState es X ω + c + v ω - (H *ᵥ (f' ω).mu + c), h1,
    fun ω => ⟨_, (hl (f' ω).mu).1, rfl⟩, centred_iff.2 (i3 _ h2.one), fun ω => ?_, hin, fun Y hY => ?_⟩
  · rw [i2, h2.sigma ω]
  · refine (In.orth i1 (fun Z hZ => ⟨h2.mem Z hZ, i3 Z hZ⟩) (Y := Y) ?_).2
    rw [Set.singleton_union]
    exact hY

theorem whitened_run (μ : Measure Ω) [IsProbabilityMeasure μ] (be : Backend)
    (es : List (Event Ω n U)) (X : Ω → Fin n → ℝ) (f : KF ℝ n) (hp : PriorRight μ X f)
    (hpl : ∀ e ∈ es, e.Plain) (ht : ∀ e ∈ es, e.Told μ) (hu : Uncorrelated μ X f es) :
    ∃ bs : List (Σ m : Nat, Ω → Fin m → ℝ), bs.map (·.1) = readingSizes es ∧
      (∀ ω, nisRun be (calls es X ω) f = .ok (bs.map fun b => b.2 ω ⬝ᵥ b.2 ω)) ∧
      Whitened μ (sources es X) bs := by
  obtain ⟨bs, d1, d2, d3, d4⟩ := run_blocks be es hpl (tracks_start hp.1 hp.2.1 hp.2.2) ht
    (fun e he => fresh_start (Told.square (ht e he)) (Told.centred (ht e he)) (hu.1 e he)) hu.2
  refine ⟨bs, d1, d2, ⟨fun b hb => ?_, d4⟩⟩
  obtain ⟨_, c2, c3, c4⟩ := d3 b hb
  refine ⟨c2, centred_iff.2 (c3 _ rfl), fun i => ?_⟩
  have h1 : (fun _ => (1 : ℝ)) ∈ Submodule.span ℝ (insert (fun _ => (1 : ℝ)) (sources es X)) :=
    Submodule.subset_span (Set.mem_insert _ _)
  refine Submodule.span_le.2 ?_ (c4 i)
  rintro Y (rfl | hY)
  · exact h1
  · exact readings_in h1 es (fun i => Submodule.subset_span (Or.inr (Or.inl ⟨i, rfl⟩)))
      (fun e he i => Submodule.subset_span (Or.inr (Or.inr ⟨e, he, i, rfl⟩))) Y hY

/-- **C94, the checks are independent and chi-square.** If initial state and noises are jointly normal,
then the values of `NisGet`, asked for before every reading of a history, are independent, and each has
the chi-square distribution with as many degrees of freedom as the reading has values. -/
theorem C94_independent (μ : Measure Ω) [IsProbabilityMeasure μ] (be : Backend)
    (es : List (Event Ω n U)) (X : Ω → Fin n → ℝ) (f : KF ℝ n) (hp : PriorRight μ X f)
    (hpl : ∀ e ∈ es, e.Plain) (ht : ∀ e ∈ es, e.Told μ) (hu : Uncorrelated μ X f es)
    (hN : JointlyNormal μ (sources es X)) :
    ∃ nis : Fin (readingSizes es).length → Ω → ℝ,
      (∀ ω, nisRun be (calls es X ω) f = .ok (List.ofFn fun k => nis k ω)) ∧ iIndepFun nis μ ∧
      ∀ k, μ.map (nis k) = chiSquare ((readingSizes es).get k) := by
  obtain ⟨bs, d1, d2, d3⟩ := whitened_run μ be es X f hp hpl ht hu
  obtain ⟨l1, l2, _⟩ := d3.laws hN
  have hlen : (readingSizes es).length = bs.length := by rw [← d1, List.length_map]
  refine ⟨fun k ω => (bs.get (k.cast hlen)).2 ω ⬝ᵥ (bs.get (k.cast hlen)).2 ω, fun ω => ?_, ?_, fun k => ?_⟩
  · rw [d2 ω]
    congr 1
    refine List.ext_getElem (by simp [hlen]) fun i _ _ => ?_
    simp
  · exact l1.precomp (Fin.cast_injective hlen)
  · rw [l2 (k.cast hlen)]
    congr 1
    have : (readingSizes es).get k = (bs.map (·.1)).get (k.cast (by rw [d1])) := by
      simp [d1]
    rw [this]
    simp

/-- **C94, the whole run.** The sum of all values of `NisGet` has the chi-square distribution with as many
degrees of freedom as there are measured values in the history. -/
theorem C94_sum (μ : Measure Ω) [IsProbabilityMeasure μ] (be : Backend)
    (es : List (Event Ω n U)) (X : Ω → Fin n → ℝ) (f : KF ℝ n) (hp : PriorRight μ X f)
    (hpl : ∀ e ∈ es, e.Plain) (ht : ∀ e ∈ es, e.Told μ) (hu : Uncorrelated μ X f es)
    (hN : JointlyNormal μ (sources es X)) :
    ∃ nis : Ω → List ℝ, (∀ ω, nisRun be (calls es X ω) f = .ok (nis ω)) ∧
      μ.map (fun ω => (nis ω).sum) = chiSquare (readingSizes es).sum := by
  obtain ⟨bs, d1, d2, d3⟩ := whitened_run μ be es X f hp hpl ht hu
  obtain ⟨_, _, l3⟩ := d3.laws hN
  refine ⟨_, d2, ?_⟩
  have e1 : ∀ ω, (bs.map fun b => b.2 ω ⬝ᵥ b.2 ω).sum = ∑ k : Fin bs.length, (bs.get k).2 ω ⬝ᵥ (bs.get k).2 ω := by
    intro ω
    rw [← List.sum_ofFn]
    congr 1
    exact (List.ofFn_getElem_eq_map bs (fun b => b.2 ω ⬝ᵥ b.2 ω)).symm
  have e2 : (readingSizes es).sum = ∑ k : Fin bs.length, (bs.get k).1 := by
    rw [← d1, ← List.sum_ofFn]
    congr 1
    exact (List.ofFn_getElem_eq_map bs (fun b => b.1)).symm
  simp only [e1]
  rw [e2]
  exact l3

/-! ### Examples: tosses of coins, and a world with two independent standard normal numbers -/

/-- With coins the innovation of a reading takes the values −2, 0 and 2 and its covariance is 2. -/
example : ∃ (f' : Bool × Bool → KF ℝ 1) (ν : Bool × Bool → Fin 1 → ℝ),
    (∀ ω, runAll .boost .extended (calls ([] : List (Event _ 1 Unit)) Coins.state ω) Coins.start = .ok (f' ω)) ∧
    ∀ ω, moment Coins.law ν ν = !![1] * (f' ω).sigma * !![1]ᵀ + !![1] := by
  obtain ⟨f', ν, h1, _, _, h4, _⟩ := C94_white Coins.law .boost .extended trivial [] Coins.state
    Coins.start Coins.prior Coins.model none !![1] 0 !![1] (fun ω => ![Coins.sign ω.2])
    (fun e he => by (rw [List.nil_append, List.mem_singleton] at he; subst he; exact Coins.told))
    Coins.uncorrelated
  exact ⟨f', ν, h1, h4⟩

namespace Normals

noncomputable def law : Measure (ℝ × ℝ) := (gaussianReal 0 1).prod (gaussianReal 0 1)

noncomputable instance : IsProbabilityMeasure law := by unfold law; infer_instance

def state (ω : ℝ × ℝ) : Fin 1 → ℝ := ![ω.1]

def reading : Event (ℝ × ℝ) 1 Unit := .read 1 Coins.model none !![1] 0 !![1] fun ω => ![ω.2]

theorem memLp : MemLp (fun x : ℝ => x) 2 (gaussianReal 0 1) := memLp_id_gaussianReal 2

theorem second : ∫ x, x * x ∂gaussianReal 0 1 = 1 := by
  have h := variance_fun_id_gaussianReal (μ := 0) (v := 1)
  rw [variance_of_integral_eq_zero (by fun_prop) (by simp)] at h
  simpa [sq] using h

theorem fst_square : MemLp (fun ω : ℝ × ℝ => ω.1) 2 law := memLp.comp_fst _

theorem snd_square : MemLp (fun ω : ℝ × ℝ => ω.2) 2 law := memLp.comp_snd _

theorem fst_fst : ∫ ω : ℝ × ℝ, ω.1 * ω.1 ∂law = 1 := by
  have := integral_prod_mul (μ := gaussianReal 0 1) (ν := gaussianReal 0 1) (fun x : ℝ => x * x) (fun _ => (1 : ℝ))
  simpa [second, law] using this

theorem snd_snd : ∫ ω : ℝ × ℝ, ω.2 * ω.2 ∂law = 1 := by
  have := integral_prod_mul (μ := gaussianReal 0 1) (ν := gaussianReal 0 1) (fun _ => (1 : ℝ)) (fun x : ℝ => x * x)
  simpa [second, law] using this

theorem fst_snd : ∫ ω : ℝ × ℝ, ω.1 * ω.2 ∂law = 0 := by
  have := integral_prod_mul (μ := gaussianReal 0 1) (ν := gaussianReal 0 1) (fun x : ℝ => x) (fun x : ℝ => x)
  simpa [law] using this

theorem fst_mean : ∫ ω : ℝ × ℝ, ω.1 ∂law = 0 := by
  have := integral_prod_mul (μ := gaussianReal 0 1) (ν := gaussianReal 0 1) (fun x : ℝ => x) (fun _ => (1 : ℝ))
  simpa [law] using this

theorem snd_mean : ∫ ω : ℝ × ℝ, ω.2 ∂law = 0 := by
  have := integral_prod_mul (μ := gaussianReal 0 1) (ν := gaussianReal 0 1) (fun _ => (1 : ℝ)) (fun x : ℝ => x)
  simpa [law] using this

theorem prior : PriorRight law state Coins.start := by
  refine ⟨fun i => ?_, fun i => ?_, ?_⟩
  · fin_cases i
    simpa [state, Coins.start, KF.make] using fst_square
  · fin_cases i
    simpa [state, Coins.start, KF.make] using fst_mean
  · ext i j
    fin_cases i; fin_cases j
    simpa [Spec.moment, state, Coins.start, KF.make] using fst_fst

theorem told : reading.Told law := by
  refine ⟨Coins.told.1, fun i => ?_, fun i => ?_, ?_, Coins.told.2.2.2.2⟩
  · fin_cases i
    exact snd_square
  · fin_cases i
    simpa using snd_mean
  · ext i j
    fin_cases i; fin_cases j
    simpa [Spec.moment] using snd_snd

theorem uncorrelated : Uncorrelated law state Coins.start [reading] := by
  refine ⟨fun e he => ?_, by simp⟩
  simp only [List.mem_singleton] at he
  subst he
  ext i j
  have hj : j = (0 : Fin 1) := Subsingleton.elim (α := Fin 1) _ _
  subst hj
  fin_cases i
  refine Eq.trans ?_ fst_snd
  simp [Spec.moment, state, Coins.start, KF.make, reading, Event.noise]
  rfl

theorem normal : JointlyNormal law (sources [reading] state) := by
  intro Y hY
  have hL : ∃ L : StrongDual ℝ (ℝ × ℝ), Y = L := by
    refine Submodule.span_induction ?_ ⟨0, rfl⟩ ?_ ?_ hY
    · rintro Z (⟨i, rfl⟩ | ⟨e, he, i, rfl⟩)
      · refine ⟨ContinuousLinearMap.fst ℝ ℝ ℝ, ?_⟩
        fin_cases i
        rfl
      · simp only [List.mem_singleton] at he
        subst he
        have hi : i = (0 : Fin 1) := Subsingleton.elim (α := Fin 1) _ _
        subst hi
        exact ⟨ContinuousLinearMap.snd ℝ ℝ ℝ, rfl⟩
    · rintro _ _ _ _ ⟨L, rfl⟩ ⟨M, rfl⟩
      exact ⟨L + M, rfl⟩
    · rintro a _ _ ⟨L, rfl⟩
      exact ⟨a • L, rfl⟩
  obtain ⟨L, rfl⟩ := hL
  have : IsGaussian law := by unfold law; infer_instance
  exact ⟨_, _, IsGaussian.map_eq_gaussianReal L⟩

end Normals

example : ∃ nis : Fin 1 → ℝ × ℝ → ℝ,
    (∀ ω, nisRun .boost (calls [Normals.reading] Normals.state ω) Coins.start
      = .ok (List.ofFn fun k => nis k ω)) ∧ Normals.law.map (nis 0) = chiSquare 1 := by
  obtain ⟨nis, h1, _, h3⟩ := C94_independent Normals.law .boost [Normals.reading] Normals.state Coins.start
    Normals.prior (by simp [Normals.reading, Event.Plain]) (by simpa using Normals.told) Normals.uncorrelated
    Normals.normal
  exact ⟨nis, h1, h3 (0 : Fin 1)⟩

example : ∃ nis : ℝ × ℝ → List ℝ,
    (∀ ω, nisRun .eigen (calls [Normals.reading] Normals.state ω) Coins.start = .ok (nis ω)) ∧
    Normals.law.map (fun ω => (nis ω).sum) = chiSquare 1 :=
  C94_sum Normals.law .eigen [Normals.reading] Normals.state Coins.start Normals.prior
    (by simp [Normals.reading, Event.Plain]) (by simpa using Normals.told) Normals.uncorrelated Normals.normal

end BFL.Props
