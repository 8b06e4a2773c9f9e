import Verif.Lemmas.LinearWorld
import Verif.Spec.Innovations
import Verif.Props.InnovationsSetup
import Verif.Props.GaussianLaw
import Mathlib.Probability.Distributions.Gaussian.HasGaussianLaw.Independence
import Mathlib.Probability.Moments.Covariance

/-! # Innovations in a linear world -/

set_option linter.unusedSectionVars false

namespace BFL

open Matrix MeasureTheory ProbabilityTheory Spec Moment

variable {Ω : Type} [MeasurableSpace Ω] {μ : Measure Ω} {n m k : Nat} {U : Type}

/-- Moments of the innovation of a reading. -/
theorem innovation_moments {S : Set (Ω → ℝ)} {X : Ω → Fin n → ℝ} {f : Ω → KF ℝ n}
    {P : Matrix (Fin n) (Fin n) ℝ} {H : Matrix (Fin m) (Fin n) ℝ} {R : Matrix (Fin m) (Fin m) ℝ}
    {c : Fin m → ℝ} {v : Ω → Fin m → ℝ}
    (h : Tracks μ S X f P) (hv : Fresh μ S X f v) (hR : moment μ v v = R) :
    Square μ (fun ω => H *ᵥ X ω + c + v ω - (H *ᵥ (f ω).mu + c)) ∧
    moment μ (fun ω => H *ᵥ X ω + c + v ω - (H *ᵥ (f ω).mu + c))
      (fun ω => H *ᵥ X ω + c + v ω - (H *ᵥ (f ω).mu + c)) = innovCov P H R ∧
    (∀ Y ∈ S, moment μ (fun ω => H *ᵥ X ω + c + v ω - (H *ᵥ (f ω).mu + c)) (col Y) = 0) ∧
    In (Submodule.span ℝ (S ∪ {Y | ∃ i : Fin m, Y = fun ω => (H *ᵥ X ω + c + v ω) i}))
      (fun ω => H *ᵥ X ω + c + v ω - (H *ᵥ (f ω).mu + c)) := by
  have e : (fun ω => H *ᵥ X ω + c + v ω - (H *ᵥ (f ω).mu + c)) =
      fun ω => H *ᵥ (X ω - (f ω).mu) + v ω := by
    funext ω; rw [Matrix.mulVec_sub]; abel
  have hHE := square_mulVec H h.square
  have hinn := square_add hHE hv.square
  refine ⟨by rw [e]; exact hinn, ?_, fun Y hY => ?_, ?_⟩
  · rw [e, add_left hHE hv.square hinn, add_right hHE hv.square hHE, add_right hHE hv.square hv.square,
      mulVec_left H h.square hHE, mulVec_left H h.square hv.square,
      mulVec_right H h.square h.square, mulVec_right H h.square hv.square, h.moment, hv.error,
      hR, swap _ v, hv.error, innovCov]
    simp [Matrix.mul_assoc]
  · have hY2 := square_col (h.mem Y hY)
    rw [e, add_left hHE hv.square hY2, mulVec_left H h.square hY2, h.orth Y hY, hv.orth Y hY,
      Matrix.mul_zero, add_zero]
  · have hle := Submodule.span_mono (R := ℝ) (Set.subset_union_left (s := S)
      (t := {Y | ∃ i : Fin m, Y = fun ω => (H *ᵥ X ω + c + v ω) i}))
    have hzi : In (Submodule.span ℝ (S ∪ {Y | ∃ i : Fin m, Y = fun ω => (H *ᵥ X ω + c + v ω) i}))
        (fun ω => H *ᵥ X ω + c + v ω) := fun i => Submodule.subset_span (Or.inr ⟨i, rfl⟩)
    exact hzi.sub fun i => hle (((h.inside.mulVec H).add (In.const (Submodule.subset_span h.one) c)) i)

/-- Scaling of a random vector to unit covariance. -/
theorem whiten {S : Matrix (Fin m) (Fin m) ℝ} (hS : PD S) :
    ∃ M : Matrix (Fin m) (Fin m) ℝ, M * S * Mᵀ = 1 ∧ Mᵀ * M = S⁻¹ := by
  obtain ⟨L, hL, hd⟩ := Props.pd_factor hS
  have hu : IsUnit L.det := isUnit_iff_ne_zero.2 hd
  refine ⟨L⁻¹, ?_, ?_⟩
  · rw [← hL, Matrix.mul_assoc, Matrix.mul_assoc, ← Matrix.mul_assoc L⁻¹, Matrix.nonsing_inv_mul _ hu,
      Matrix.one_mul, transpose_nonsing_inv, Matrix.mul_nonsing_inv _ (by rwa [det_transpose])]
  · rw [← hL, Matrix.mul_inv_rev, transpose_nonsing_inv]

theorem quad_whiten {S M : Matrix (Fin m) (Fin m) ℝ} (hM : Mᵀ * M = S⁻¹) (x : Fin m → ℝ) :
    quad S⁻¹ x = (M *ᵥ x) ⬝ᵥ (M *ᵥ x) := by
  rw [quad, ← hM, ← Matrix.mulVec_mulVec, Matrix.dotProduct_mulVec, Matrix.vecMul_transpose]

theorem run_blocks [IsProbabilityMeasure μ] (be : Backend)
    (es : List (Event Ω n U)) (hpl : ∀ e ∈ es, e.Plain) : ∀ {S : Set (Ω → ℝ)} {X : Ω → Fin n → ℝ}
    {f : Ω → KF ℝ n} {P : Matrix (Fin n) (Fin n) ℝ}, Tracks μ S X f P → (∀ e ∈ es, e.Told μ) →
    (∀ e ∈ es, Fresh μ S X f e.noise) → Apart μ es →
    ∃ bs : List (Σ m : Nat, Ω → Fin m → ℝ), bs.map (·.1) = readingSizes es ∧
      (∀ ω, Props.nisRun be (calls es X ω) (f ω) = .ok (bs.map fun b => b.2 ω ⬝ᵥ b.2 ω)) ∧
      (∀ b ∈ bs, Square μ b.2 ∧ moment μ b.2 b.2 = 1 ∧ (∀ Y ∈ S, moment μ b.2 (col Y) = 0) ∧
        In (Submodule.span ℝ (S ∪ readings es X)) b.2) ∧
      bs.Pairwise fun a b => moment μ a.2 b.2 = 0 := by
  induction es with
  | nil =>
    intro S X f P _ _ _ _
    exact ⟨[], rfl, fun _ => rfl, by simp, List.Pairwise.nil⟩
  | cons e es ih =>
    intro S X f P h ht hf ha
    have hP : PSD P := by rw [← h.moment]; exact psd h.square
    have hfe := hf e (by simp)
    have hte := ht e (by simp)
    obtain ⟨ha1, ha2⟩ := List.pairwise_cons.1 ha
    obtain ⟨f1, P1, r1, t1, fr1⟩ := run_tracks be (kind := .extended) trivial [e] h (by simpa using hte) (by simpa using hfe)
      (List.pairwise_singleton _ _)
    have hrd : readings [e] X = e.numbers X := by simp [readings]
    rw [hrd] at t1 fr1
    have hls : lastState [e] X = e.next X := rfl
    rw [hls] at t1 fr1
    obtain ⟨bs, d1, d2, d3, d4⟩ := ih (fun a h => hpl a (by simp [h])) t1 (fun a h => ht a (by simp [h]))
      (fun a h => fr1 (hf a (by simp [h])) (by simpa using ha1 a h)) ha2
    have hun : S ∪ readings (e :: es) X = S ∪ e.numbers X ∪ readings es (e.next X) := by
      rw [readings, Set.union_assoc]
    have hupd : ∀ ω, ∃ b, (f ω).update be .extended (e.call X ω).sys (e.call X ω).meas = .ok (b, f1 ω) := by
      intro ω
      have := r1 ω
      simp only [calls, Props.runAll] at this
      obtain ⟨⟨b, g⟩, h1, h2⟩ := Outcome.bind_eq_ok.1 this
      refine ⟨b, ?_⟩
      have : g = f1 ω := Outcome.ok.inj h2
      rw [h1, this]
    cases e with
    | move model u A b0 Q w =>
      refine ⟨bs, d1, fun ω => ?_, ?_, d4⟩
      · obtain ⟨b, hb⟩ := hupd ω
        have hn : Props.nisOf be ((Event.move model u A b0 Q w : Event Ω n U).call X ω) (f ω) = .ok ([], f ω) := rfl
        simp only [calls, Props.nisRun]
        rw [hn, Outcome.ok_bind]
        simp only
        rw [hb, Outcome.ok_bind]
        simp only
        rw [d2 ω]
        rfl
      · intro b hb
        obtain ⟨c1, c2, c3, c4⟩ := d3 b hb
        exact ⟨c1, c2, fun Y hY => c3 Y (Or.inl hY), by rw [hun]; exact c4⟩
    | read m model s H c R v =>
      obtain ⟨hl, hv, hc, hR, hpd⟩ := hte
      have hs : s = none := hpl _ (List.mem_cons_self ..)
      subst hs
      have hS := innovCov_pd (H := H) hP hpd
      obtain ⟨M, hM1, hM2⟩ := whiten hS
      obtain ⟨i1, i2, i3, i4⟩ := innovation_moments (H := H) (c := c) (v := v) h hfe hR
      have hin : In (Submodule.span ℝ (S ∪ Event.numbers (.read m model none H c R v : Event Ω n U) X))
          (fun ω => M *ᵥ (H *ᵥ X ω + c + v ω - (H *ᵥ (f ω).mu + c))) := i4.mulVec M
      refine ⟨⟨m, fun ω => M *ᵥ (H *ᵥ X ω + c + v ω - (H *ᵥ (f ω).mu + c))⟩ :: bs, ?_, fun ω => ?_, ?_, ?_⟩
      · rw [List.map_cons, d1]; rfl
      · obtain ⟨b, hb⟩ := hupd ω
        have hnis : (f ω).nisGet be model (H *ᵥ X ω + c + v ω) =
            .ok (quad (innovCov P H R)⁻¹ (H *ᵥ X ω + c + v ω - (H *ᵥ (f ω).mu + c)), f ω) := by
          simp only [KF.nisGet]
          rw [(hl (f ω).mu).1, (hl (f ω).mu).2.1, (hl (f ω).mu).2.2]
          refine (calculateNis_ok be (f ω) _ _ H R (by rw [h.sigma ω]; exact hS.det_ne)).trans ?_
          rw [h.sigma ω]
        have hn : Props.nisOf be ((Event.read m model none H c R v : Event Ω n U).call X ω) (f ω) =
            .ok ([quad (innovCov P H R)⁻¹ (H *ᵥ X ω + c + v ω - (H *ᵥ (f ω).mu + c))], f ω) := by
          simp only [Props.nisOf, Event.call]
          rw [hnis]
          rfl
        simp only [calls, Props.nisRun]
        rw [hn, Outcome.ok_bind]
        simp only
        rw [hb, Outcome.ok_bind]
        simp only
        rw [d2 ω, quad_whiten hM2]
        rfl
      · rw [List.forall_mem_cons]
        refine ⟨⟨square_mulVec M i1, ?_, fun Y hY => ?_, ?_⟩, fun b hb => ?_⟩
        · show moment μ (fun ω => M *ᵥ (H *ᵥ X ω + c + v ω - (H *ᵥ (f ω).mu + c)))
            (fun ω => M *ᵥ (H *ᵥ X ω + c + v ω - (H *ᵥ (f ω).mu + c))) = 1
          rw [mulVec_left M i1 (square_mulVec M i1), mulVec_right M i1 i1, i2, ← Matrix.mul_assoc, hM1]
        · show moment μ (fun ω => M *ᵥ (H *ᵥ X ω + c + v ω - (H *ᵥ (f ω).mu + c))) _ = 0
          rw [mulVec_left M i1 (square_col (h.mem Y hY)), i3 Y hY, Matrix.mul_zero]
        · rw [hun]
          exact fun i => Submodule.span_mono (Set.subset_union_left) (hin i)
        · obtain ⟨c1, c2, c3, c4⟩ := d3 b hb
          exact ⟨c1, c2, fun Y hY => c3 Y (Or.inl hY), by rw [hun]; exact c4⟩
      · rw [List.pairwise_cons]
        refine ⟨fun b hb => ?_, d4⟩
        obtain ⟨c1, c2, c3, c4⟩ := d3 b hb
        rw [swap, (hin.orth c1 fun Y hY => ⟨t1.mem Y hY, c3 Y hY⟩).2, transpose_zero]

theorem readings_in {W : Submodule ℝ (Ω → ℝ)} (h1 : (fun _ => (1 : ℝ)) ∈ W) (es : List (Event Ω n U)) :
    ∀ {X : Ω → Fin n → ℝ}, In W X → (∀ e ∈ es, In W e.noise) → ∀ Y ∈ readings es X, Y ∈ W := by
  induction es with
  | nil => intro X _ _ Y hY; exact absurd hY (by simp [readings])
  | cons e es ih =>
    intro X hX hn Y hY
    have hne := hn e (by simp)
    cases e with
    | move model u A b Q w =>
      rcases hY with hY | hY
      · exact absurd hY (by simp [Event.numbers])
      · exact ih (((hX.mulVec A).add (In.const h1 b)).add hne) (fun a h => hn a (by simp [h])) Y hY
    | read m model s H c R v =>
      rcases hY with ⟨i, rfl⟩ | hY
      · exact (((hX.mulVec H).add (In.const h1 c)).add hne) i
      · exact ih hX (fun a h => hn a (by simp [h])) Y hY

/-- Constants may be added to jointly normal numbers. -/
theorem normal_const [IsProbabilityMeasure μ] {S : Set (Ω → ℝ)} (h : JointlyNormal μ S) {Y : Ω → ℝ}
    (hY : Y ∈ Submodule.span ℝ (insert (fun _ => (1 : ℝ)) S)) :
    AEMeasurable Y μ ∧ ∃ mean var, μ.map Y = gaussianReal mean var := by
  obtain ⟨a, z, hz, rfl⟩ := Submodule.mem_span_insert.1 hY
  obtain ⟨mean, var, e⟩ := h z hz
  have hm : AEMeasurable z μ := AEMeasurable.of_map_ne_zero (by
    rw [e]; exact IsProbabilityMeasure.ne_zero _)
  have e2 : (a • (fun _ => (1 : ℝ)) + z : Ω → ℝ) = (fun x => x + a) ∘ z := by
    funext ω
    simp [add_comm]
  refine ⟨by rw [e2]; exact (measurable_add_const a).comp_aemeasurable hm, mean + a, var, ?_⟩
  rw [e2, ← AEMeasurable.map_map_of_aemeasurable (by fun_prop) hm, e, gaussianReal_map_add_const]

/-- Affine combinations of jointly normal numbers are a Gaussian vector. -/
theorem gaussian_vector [IsProbabilityMeasure μ] {S : Set (Ω → ℝ)} (h : JointlyNormal μ S) {ι : Type}
    [Fintype ι] {Y : ι → Ω → ℝ} (hY : ∀ i, Y i ∈ Submodule.span ℝ (insert (fun _ => (1 : ℝ)) S)) :
    HasGaussianLaw (fun ω i => Y i ω) μ := by
  classical
  have hm : AEMeasurable (fun ω i => Y i ω) μ := aemeasurable_pi_lambda _ fun i => (normal_const h (hY i)).1
  refine ⟨isGaussian_of_map_eq_gaussianReal fun L => ?_⟩
  rw [AEMeasurable.map_map_of_aemeasurable (by fun_prop) hm]
  refine (normal_const h ?_).2
  have : (L ∘ fun ω i => Y i ω) = ∑ i, L (Pi.single i 1) • Y i := by
    funext ω
    have := LinearMap.pi_apply_eq_sum_univ (L : (ι → ℝ) →ₗ[ℝ] ℝ) (fun i => Y i ω)
    simp only [ContinuousLinearMap.coe_coe] at this
    rw [Function.comp, this, Finset.sum_apply]
    refine Finset.sum_congr rfl fun i _ => ?_
    rw [Pi.smul_apply, smul_eq_mul, smul_eq_mul, mul_comm]
    congr 2
    funext j
    simp [Pi.single_apply, eq_comm]
  rw [this]
  exact Submodule.sum_mem _ fun i _ => Submodule.smul_mem _ _ (hY i)

/-- Jointly normal numbers with mean zero and unit covariance are independent standard normal numbers. -/
theorem standard_vector [IsProbabilityMeasure μ] {ι : Type} [Fintype ι] [DecidableEq ι] {Y : ι → Ω → ℝ}
    (hY : HasGaussianLaw (fun ω i => Y i ω) μ) (h0 : ∀ i, ∫ ω, Y i ω ∂μ = 0)
    (h1 : ∀ i j, ∫ ω, Y i ω * Y j ω ∂μ = if i = j then 1 else 0) :
    μ.map (fun ω i => Y i ω) = Measure.pi fun _ => gaussianReal 0 1 := by
  have hL : ∀ i, MemLp (Y i) 2 μ := fun i => (hY.eval i).memLp_two
  have hc : ∀ i j, cov[Y i, Y j; μ] = if i = j then 1 else 0 := by
    intro i j
    rw [covariance_eq_sub (hL i) (hL j), h0 i, zero_mul, sub_zero]
    exact h1 i j
  have hind := hY.iIndepFun_of_covariance_eq_zero fun i j hij => by rw [hc, if_neg hij]
  rw [hind.map_fun_eq_pi_map fun i => (hY.eval i).aemeasurable]
  congr 1
  funext i
  rw [(hY.eval i).map_eq_gaussianReal]
  have hv : Var[Y i; μ] = 1 := by
    rw [← covariance_self (hY.eval i).aemeasurable, hc, if_pos rfl]
  rw [h0 i, hv, Real.toNNReal_one]

/-- Blocks of jointly normal numbers, as they come out of `run_blocks`. -/
structure Whitened (μ : Measure Ω) (S : Set (Ω → ℝ)) (bs : List (Σ m : Nat, Ω → Fin m → ℝ)) : Prop where
  each : ∀ b ∈ bs, moment μ b.2 b.2 = 1 ∧ Centred μ b.2 ∧ In (Submodule.span ℝ (insert (fun _ => (1 : ℝ)) S)) b.2
  apart : bs.Pairwise fun a b => moment μ a.2 b.2 = 0

theorem Whitened.cross {S : Set (Ω → ℝ)} {bs : List (Σ m : Nat, Ω → Fin m → ℝ)} (h : Whitened μ S bs)
    (i j : Σ k : Fin bs.length, Fin (bs.get k).1) :
    ∫ ω, (bs.get i.1).2 ω i.2 * (bs.get j.1).2 ω j.2 ∂μ = if i = j then 1 else 0 := by
  obtain ⟨a, i⟩ := i
  obtain ⟨b, j⟩ := j
  have hp := List.pairwise_iff_get.1 h.apart
  rcases lt_trichotomy a b with hab | rfl | hab
  · have := congrFun (congrFun (hp a b hab) i) j
    rw [if_neg (by rintro ⟨⟩; exact lt_irrefl _ hab)]
    exact this
  · have := congrFun (congrFun (h.each _ (List.get_mem bs a)).1 i) j
    have e : (∫ ω, (bs.get a).2 ω i * (bs.get a).2 ω j ∂μ) = (1 : Matrix _ _ ℝ) i j := this
    rw [e, Matrix.one_apply]
    congr 1
    simp
  · have := congrFun (congrFun (hp b a hab) j) i
    rw [if_neg (by rintro ⟨⟩; exact lt_irrefl _ hab)]
    have e : (∫ ω, (bs.get b).2 ω j * (bs.get a).2 ω i ∂μ) = 0 := this
    rw [← e]
    congr 1; funext ω; ring

theorem chiSquare_of_law [IsProbabilityMeasure μ] {d : Nat} {Y : Fin d → Ω → ℝ} (hm : ∀ i, AEMeasurable (Y i) μ)
    (h : μ.map (fun ω i => Y i ω) = Measure.pi fun _ => gaussianReal 0 1) :
    μ.map (fun ω => ∑ i, Y i ω ^ 2) = chiSquare d := by
  have hf : Measurable fun g : Fin d → ℝ => ∑ i, g i ^ 2 := by fun_prop
  rw [chiSquare, ← h, AEMeasurable.map_map_of_aemeasurable hf.aemeasurable (aemeasurable_pi_lambda _ hm)]
  rfl

theorem Whitened.laws [IsProbabilityMeasure μ] {S : Set (Ω → ℝ)} (hS : JointlyNormal μ S)
    {bs : List (Σ m : Nat, Ω → Fin m → ℝ)} (h : Whitened μ S bs) :
    iIndepFun (fun (k : Fin bs.length) ω => (bs.get k).2 ω ⬝ᵥ (bs.get k).2 ω) μ ∧
    (∀ k : Fin bs.length, μ.map (fun ω => (bs.get k).2 ω ⬝ᵥ (bs.get k).2 ω) = chiSquare (bs.get k).1) ∧
    μ.map (fun ω => ∑ k : Fin bs.length, (bs.get k).2 ω ⬝ᵥ (bs.get k).2 ω) =
      chiSquare (∑ k : Fin bs.length, (bs.get k).1) := by
  have hY : ∀ i : Σ k : Fin bs.length, Fin (bs.get k).1, (fun ω => (bs.get i.1).2 ω i.2) ∈
      Submodule.span ℝ (insert (fun _ => (1 : ℝ)) S) := fun i => (h.each _ (List.get_mem bs i.1)).2.2 i.2
  have hmean : ∀ i : Σ k : Fin bs.length, Fin (bs.get k).1, ∫ ω, (bs.get i.1).2 ω i.2 ∂μ = 0 :=
    fun i => (h.each _ (List.get_mem bs i.1)).2.1 i.2
  have hm : ∀ i : Σ k : Fin bs.length, Fin (bs.get k).1, AEMeasurable (fun ω => (bs.get i.1).2 ω i.2) μ :=
    fun i => (normal_const hS (hY i)).1
  have hsq : ∀ (k : Fin bs.length), (fun ω => (bs.get k).2 ω ⬝ᵥ (bs.get k).2 ω) =
      fun ω => ∑ j, (bs.get k).2 ω j ^ 2 := by
    intro k; funext ω; simp only [dotProduct, sq]
  refine ⟨?_, fun k => ?_, ?_⟩
  · have hG := gaussian_vector hS hY
    let L : ((Σ k : Fin bs.length, Fin (bs.get k).1) → ℝ) →L[ℝ] ((k : Fin bs.length) → Fin (bs.get k).1 → ℝ) :=
      ContinuousLinearMap.pi fun k => ContinuousLinearMap.pi fun j =>
        ContinuousLinearMap.proj (R := ℝ) (φ := fun _ => ℝ) (⟨k, j⟩ : Σ k : Fin bs.length, Fin (bs.get k).1)
    have hG' : HasGaussianLaw (fun ω (k : Fin bs.length) (j : Fin (bs.get k).1) => (bs.get k).2 ω j) μ :=
      hG.map_fun L
    have hi := hG'.iIndepFun_of_covariance_eval (X := fun k j ω => (bs.get k).2 ω j) fun a b hab i j => by
      have c := h.cross ⟨a, i⟩ ⟨b, j⟩
      rw [if_neg (by rintro ⟨⟩; exact hab rfl)] at c
      rw [covariance_eq_sub (hG.eval ⟨a, i⟩).memLp_two (hG.eval ⟨b, j⟩).memLp_two, hmean ⟨a, i⟩, zero_mul,
        sub_zero]
      exact c
    have := hi.comp (fun k (x : Fin (bs.get k).1 → ℝ) => ∑ j, x j ^ 2) (fun k => by fun_prop)
    have e : (fun (k : Fin bs.length) ω => (bs.get k).2 ω ⬝ᵥ (bs.get k).2 ω) =
        fun (k : Fin bs.length) ω => ∑ j, (bs.get k).2 ω j ^ 2 := funext hsq
    rw [e]
    exact this
  · rw [hsq]
    refine chiSquare_of_law (fun j => hm ⟨k, j⟩) ?_
    refine standard_vector (gaussian_vector hS fun j => hY ⟨k, j⟩) (fun j => hmean ⟨k, j⟩) fun i j => ?_
    rw [h.cross ⟨k, i⟩ ⟨k, j⟩]
    congr 1
    simp
  · let e : Fin (∑ k : Fin bs.length, (bs.get k).1) ≃ Σ k : Fin bs.length, Fin (bs.get k).1 :=
      (finSigmaFinEquiv).symm
    have hs : (fun ω => ∑ k : Fin bs.length, (bs.get k).2 ω ⬝ᵥ (bs.get k).2 ω) =
        fun ω => ∑ i, (bs.get (e i).1).2 ω (e i).2 ^ 2 := by
      funext ω
      rw [Equiv.sum_comp e (fun x => (bs.get x.1).2 ω x.2 ^ 2), Fintype.sum_sigma]
      exact Finset.sum_congr rfl fun k _ => congrFun (hsq k) ω
    rw [hs]
    refine chiSquare_of_law (fun i => hm (e i)) ?_
    refine standard_vector (gaussian_vector hS fun i => hY (e i)) (fun i => hmean (e i)) fun i j => ?_
    rw [h.cross (e i) (e j)]
    congr 1
    simp

end BFL
