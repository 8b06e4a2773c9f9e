import Verif.Lemmas.Innovations
import Verif.Spec.BestEstimate
import Mathlib.Probability.Distributions.Gaussian.IsGaussianProcess.Independence
import Mathlib.Probability.Independence.Integration

/-! # Errors and readings in a linear world with normal noise -/

set_option linter.unusedSectionVars false

namespace BFL

open Matrix MeasureTheory ProbabilityTheory Spec Moment

variable {Ω : Type} [MeasurableSpace Ω] {μ : Measure Ω} {n m k : Nat} {U : Type}

theorem lastState_in {W : Submodule ℝ (Ω → ℝ)} (h1 : (fun _ => (1 : ℝ)) ∈ W) (es : List (Event Ω n U)) :
    ∀ {X : Ω → Fin n → ℝ}, In W X → (∀ e ∈ es, In W e.noise) → In W (lastState es X) := by
  induction es with
  | nil => intro X hX _; exact hX
  | cons e es ih =>
    intro X hX hn
    have hne := hn e (by simp)
    cases e with
    | move model u A b Q w =>
      exact ih (((hX.mulVec A).add (In.const h1 b)).add hne) (fun a h => hn a (by simp [h]))
    | read m model s H c R v => exact ih hX (fun a h => hn a (by simp [h]))

/-- Affine combinations of jointly normal numbers that are uncorrelated with others are independent of them. -/
theorem indep_of_orth [IsProbabilityMeasure μ] {S T : Set (Ω → ℝ)} (hS : JointlyNormal μ S)
    {E : Ω → Fin n → ℝ} (hE : In (Submodule.span ℝ (insert (fun _ => (1 : ℝ)) S)) E)
    (hT : ∀ Y ∈ T, Y ∈ Submodule.span ℝ (insert (fun _ => (1 : ℝ)) S)) (h0 : Centred μ E)
    (ho : ∀ Y ∈ T, moment μ E (col Y) = 0) :
    IndepFun E (fun ω (Y : T) => Y.1 ω) μ := by
  refine IsGaussianProcess.indepFun_of_covariance_eq_zero (X := fun i ω => E ω i) (Y := fun (Y : T) ω => Y.1 ω)
    ⟨fun I => ?_⟩ (fun i => (normal_const hS (hE i)).1) (fun Y => (normal_const hS (hT _ Y.2)).1) fun i Y => ?_
  · exact gaussian_vector hS (Y := fun (j : I) => Sum.elim (fun i ω => E ω i) (fun (Y : T) ω => Y.1 ω) j.1)
      fun j => by
        obtain ⟨j | j, hj⟩ := j
        · exact hE j
        · exact hT _ j.2
  · have m1 : MemLp (fun ω => E ω i) 2 μ :=
      ((gaussian_vector hS (Y := fun _ : Unit => fun ω => E ω i) fun _ => hE i).eval ()).memLp_two
    have m2 : MemLp Y.1 2 μ := ((gaussian_vector hS (Y := fun _ : Unit => Y.1) fun _ => hT _ Y.2).eval ()).memLp_two
    rw [covariance_eq_sub m1 m2, h0 i, zero_mul, sub_zero]
    exact congrFun (congrFun (ho _ Y.2) i) 0

/-- An affine formula is a measurable function of what it uses. -/
theorem affine_function {T : Set (Ω → ℝ)} {Y : Ω → Fin n → ℝ} (h : AffineIn T Y) :
    ∃ g : (T → ℝ) → Fin n → ℝ, Measurable g ∧ ∀ ω, Y ω = g fun t => t.1 ω := by
  have key : ∀ Z ∈ Submodule.span ℝ (insert (fun _ => (1 : ℝ)) T),
      ∃ g : (T → ℝ) → ℝ, Measurable g ∧ ∀ ω, Z ω = g fun t => t.1 ω := by
    intro Z hZ
    refine Submodule.span_induction ?_ ⟨fun _ => 0, by fun_prop, fun _ => rfl⟩ ?_ ?_ hZ
    · rintro Z (rfl | hZ)
      · exact ⟨fun _ => 1, by fun_prop, fun _ => rfl⟩
      · exact ⟨fun x => x ⟨Z, hZ⟩, by fun_prop, fun _ => rfl⟩
    · rintro a b _ _ ⟨g, hg, eg⟩ ⟨g', hg', eg'⟩
      exact ⟨fun x => g x + g' x, by fun_prop, fun ω => by rw [Pi.add_apply, eg, eg']⟩
    · rintro a b _ ⟨g, hg, eg⟩
      exact ⟨fun x => a * g x, by fun_prop, fun ω => by rw [Pi.smul_apply, eg]; rfl⟩
  choose g hg eg using fun i => key _ (h i)
  exact ⟨fun x i => g i x, measurable_pi_lambda _ hg, fun ω => funext fun i => eg i ω⟩

/-- Everything about the error after a history. -/
theorem error_law [IsProbabilityMeasure μ] (be : Backend) {kind : KF.Kind ℝ n} (hk : kind.Runs)
    (es : List (Event Ω n U)) (X : Ω → Fin n → ℝ) (f : KF ℝ n)
    (hp : PriorRight μ X f) (ht : ∀ e ∈ es, e.Told μ) (hu : Uncorrelated μ X f es)
    (hN : JointlyNormal μ (sources es X)) :
    ∃ (f' : Ω → KF ℝ n) (P : Matrix (Fin n) (Fin n) ℝ), (∀ ω, Props.runAll be kind (calls es X ω) f = .ok (f' ω)) ∧
      (∀ ω, (f' ω).sigma = P) ∧ Square μ (fun ω => lastState es X ω - (f' ω).mu) ∧
      moment μ (fun ω => lastState es X ω - (f' ω).mu) (fun ω => lastState es X ω - (f' ω).mu) = P ∧
      Centred μ (fun ω => lastState es X ω - (f' ω).mu) ∧ AffineIn (readings es X) (fun ω => (f' ω).mu) ∧
      In (Submodule.span ℝ (insert (fun _ => (1 : ℝ)) (sources es X))) (fun ω => lastState es X ω - (f' ω).mu) ∧
      IndepFun (fun ω => lastState es X ω - (f' ω).mu) (heard es X) μ := by
  obtain ⟨f', P', h1, h2, _⟩ := run_tracks be hk es (tracks_start hp.1 hp.2.1 hp.2.2) ht
    (fun e he => fresh_start (Told.square (ht e he)) (Told.centred (ht e he)) (hu.1 e he)) hu.2
  have hc := centred_iff.2 (h2.orth _ h2.one)
  have one : (fun _ => (1 : ℝ)) ∈ Submodule.span ℝ (insert (fun _ => (1 : ℝ)) (sources es X)) :=
    Submodule.subset_span (Set.mem_insert _ _)
  have hX : In (Submodule.span ℝ (insert (fun _ => (1 : ℝ)) (sources es X))) X :=
    fun i => Submodule.subset_span (Or.inr (Or.inl ⟨i, rfl⟩))
  have hw : ∀ e ∈ es, In (Submodule.span ℝ (insert (fun _ => (1 : ℝ)) (sources es X))) e.noise :=
    fun e he i => Submodule.subset_span (Or.inr (Or.inr ⟨e, he, i, rfl⟩))
  have hr := readings_in one es hX hw
  have hin : AffineIn (readings es X) (fun ω => (f' ω).mu) := by
    have := h2.inside
    rw [Set.singleton_union] at this
    exact this
  have hE : In (Submodule.span ℝ (insert (fun _ => (1 : ℝ)) (sources es X)))
      (fun ω => lastState es X ω - (f' ω).mu) :=
    (lastState_in one es hX hw).sub fun i =>
      Submodule.span_le.2 (by rintro Y (rfl | hY); exacts [one, hr Y hY]) (hin i)
  exact ⟨f', P', h1, h2.sigma, h2.square, h2.moment, hc, hin, hE,
    indep_of_orth hN hE hr hc fun Y hY => h2.orth Y (Or.inr hY)⟩

/-- The normalised error of a centred normal vector is chi-square. -/
theorem nees_law [IsProbabilityMeasure μ] {S : Set (Ω → ℝ)} (hS : JointlyNormal μ S)
    {E : Ω → Fin n → ℝ} (hE : In (Submodule.span ℝ (insert (fun _ => (1 : ℝ)) S)) E) (h0 : Centred μ E)
    (h2 : Square μ E) (hP : PD (moment μ E E)) :
    μ.map (fun ω => quad (moment μ E E)⁻¹ (E ω)) = chiSquare n := by
  obtain ⟨M, hM, hM'⟩ := whiten hP
  have hw : Whitened μ S [⟨n, fun ω => M *ᵥ E ω⟩] := by
    refine ⟨fun b hb => ?_, by simp⟩
    simp only [List.mem_singleton] at hb
    subst hb
    refine ⟨?_, ?_, hE.mulVec M⟩
    · show moment μ (fun ω => M *ᵥ E ω) (fun ω => M *ᵥ E ω) = 1
      rw [mulVec_left M h2 (square_mulVec M h2), mulVec_right M h2 h2, ← Matrix.mul_assoc, hM]
    · show Centred μ (fun ω => M *ᵥ E ω)
      rw [centred_iff, mulVec_left M h2 (square_col (memLp_const 1)), centred_iff.1 h0, Matrix.mul_zero]
  have := (hw.laws hS).2.1 ⟨0, by simp⟩
  have e : (fun ω => quad (moment μ E E)⁻¹ (E ω)) = fun ω => (M *ᵥ E ω) ⬝ᵥ (M *ᵥ E ω) := by
    funext ω; exact quad_whiten hM' (E ω)
  rw [e]
  exact this

end BFL
