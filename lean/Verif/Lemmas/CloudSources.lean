import Verif.Lemmas.ParticleConvergence
import Verif.Lemmas.CloudPair

/-!
# Particle sets driven by independent random inputs
-/

set_option linter.unusedSectionVars false

namespace BFL

open MeasureTheory ProbabilityTheory Filter Spec
open scoped ENNReal Topology

variable {R X Ω S A V W : Type} [MeasurableSpace X] [MeasurableSpace R] [MeasurableSpace Ω]
  [MeasurableSpace S] [MeasurableSpace A] [MeasurableSpace V] [MeasurableSpace W]
  {P : Measure Ω} [IsProbabilityMeasure P] {x : Nat → Ω → X} {r : Nat → Nat → Ω → R}
  {μ : Measure X} {ν : Nat → Measure R} {N : ℕ}

/-- State after `t` steps with the random inputs of `N` particles. -/
def driven (Φ : Nat → S × (Fin N → R) → S) (init : (Fin N → X) → S) (x : Nat → Ω → X)
    (r : Nat → Nat → Ω → R) : Nat → Ω → S
  | 0 => fun ω => init fun i => x i ω
  | t + 1 => fun ω => Φ t (driven Φ init x r t ω, fun i => r t i ω)

/-- Sources used in the first `t` steps. -/
def before (t : Nat) : Set (Nat ⊕ Nat × Nat) :=
  {k | (∃ i, k = .inl i) ∨ ∃ s i, s < t ∧ k = .inr (s, i)}

/-- Sources of step `t`. -/
def during (t : Nat) : Set (Nat ⊕ Nat × Nat) := {k | ∃ i, k = .inr (t, i)}

theorem before_mono (t : Nat) : before t ⊆ before (t + 1) := by
  rintro k (h | ⟨s, i, hs, h⟩)
  · exact Or.inl h
  · exact Or.inr ⟨s, i, by omega, h⟩

theorem during_before (t : Nat) : during t ⊆ before (t + 1) := by
  rintro k ⟨i, h⟩
  exact Or.inr ⟨t, i, by omega, h⟩

theorem measurable_source_x {B : Set (Nat ⊕ Nat × Nat)} {i : Nat} (h : .inl i ∈ B) :
    Measurable[⨆ k ∈ B, sourceAlg x r k] (x i) :=
  Measurable.mono (comap_measurable (x i))
    (le_iSup₂_of_le (f := fun k (_ : k ∈ B) => sourceAlg x r k) (.inl i) h le_rfl) le_rfl

theorem measurable_source_r {B : Set (Nat ⊕ Nat × Nat)} {t i : Nat} (h : .inr (t, i) ∈ B) :
    Measurable[⨆ k ∈ B, sourceAlg x r k] (r t i) :=
  Measurable.mono (comap_measurable (r t i))
    (le_iSup₂_of_le (f := fun k (_ : k ∈ B) => sourceAlg x r k) (.inr (t, i)) h le_rfl) le_rfl

theorem measurable_inputs {B : Set (Nat ⊕ Nat × Nat)} {t : Nat} (h : during t ⊆ B) :
    Measurable[⨆ k ∈ B, sourceAlg x r k] fun ω (i : Fin N) => r t i ω :=
  @measurable_pi_lambda _ _ _ (_) _ _ fun i => measurable_source_r (h ⟨i, rfl⟩)

theorem measurable_driven {Φ : Nat → S × (Fin N → R) → S} {init : (Fin N → X) → S}
    (hΦ : ∀ t, Measurable (Φ t)) (hi : Measurable init) : ∀ t,
    Measurable[⨆ k ∈ before t, sourceAlg x r k] (driven Φ init x r t)
  | 0 => by
    have h1 : Measurable[⨆ k ∈ before 0, sourceAlg x r k] fun ω (i : Fin N) => x i ω :=
      @measurable_pi_lambda _ _ _ (_) _ _ fun i => measurable_source_x (Or.inl ⟨i, rfl⟩)
    exact hi.comp h1
  | t + 1 => by
    have h1 : Measurable[⨆ k ∈ before (t + 1), sourceAlg x r k] (driven Φ init x r t) :=
      Measurable.mono (measurable_driven hΦ hi t) (biSup_mono (before_mono t)) le_rfl
    have h2 : Measurable[⨆ k ∈ before (t + 1), sourceAlg x r k] fun ω (i : Fin N) => r t i ω :=
      measurable_inputs (during_before t)
    exact (hΦ t).comp (@Measurable.prodMk _ _ _ _ _ (_) _ _ h1 h2)

theorem map_inputs (h : IndependentDraws P x r μ ν) (N t : Nat) :
    P.map (fun ω (i : Fin N) => r t i ω) = Measure.pi fun _ => ν t := by
  have hinj : Function.Injective fun i : Fin N => (Sum.inr (t, i.1) : Nat ⊕ Nat × Nat) := by
    intro i j hij
    simpa [Fin.ext_iff] using hij
  have hI : iIndepFun (fun (i : Fin N) => r t i) P := by
    have := h.indep.precomp hinj
    exact this
  have he : P.map (fun ω (i : Fin N) => r t i ω) = Measure.pi fun i : Fin N => P.map (r t i) :=
    (iIndepFun_iff_map_fun_eq_pi_map (f := fun i : Fin N => r t i.1) fun i => (h.measurable_r t i).aemeasurable).1 hI
  simp only [h.law_r] at he
  exact he

theorem map_initial (h : IndependentDraws P x r μ ν) (N : Nat) :
    P.map (fun ω (i : Fin N) => x i ω) = Measure.pi fun _ => μ := by
  have hinj : Function.Injective fun i : Fin N => (Sum.inl i.1 : Nat ⊕ Nat × Nat) := by
    intro i j hij
    simpa [Fin.ext_iff] using hij
  have hI : iIndepFun (fun (i : Fin N) => x i) P := by
    have := h.indep.precomp hinj
    exact this
  have he : P.map (fun ω (i : Fin N) => x i ω) = Measure.pi fun i : Fin N => P.map (x i) :=
    (iIndepFun_iff_map_fun_eq_pi_map (f := fun i : Fin N => x i.1) fun i => (h.measurable_x i).aemeasurable).1 hI
  simp only [h.law_x] at he
  exact he

/-- The inputs of a step are independent of the state before it. -/
theorem driven_law (h : IndependentDraws P x r μ ν) {Φ : Nat → S × (Fin N → R) → S}
    {init : (Fin N → X) → S} (hΦ : ∀ t, Measurable (Φ t)) (hi : Measurable init) (t : Nat) :
    Measurable (driven Φ init x r t) ∧ (Measurable fun ω (i : Fin N) => r t i ω) ∧
    P.map (fun ω => (driven Φ init x r t ω, fun i : Fin N => r t i ω)) =
      (P.map (driven Φ init x r t)).prod (Measure.pi fun _ : Fin N => ν t) := by
  have hm : Measurable (driven Φ init x r t) := Measurable.mono (measurable_driven hΦ hi t)
    (iSup₂_le fun k _ => sourceAlg_le h k) le_rfl
  have hv : Measurable fun ω (i : Fin N) => r t i ω :=
    measurable_pi_lambda _ fun i => h.measurable_r t i
  refine ⟨hm, hv, ?_⟩
  have hd : Disjoint (before t) (during t) := by
    rw [Set.disjoint_left]
    rintro k (⟨i, h1⟩ | ⟨s, i, hs, h1⟩) ⟨j, h2⟩ <;> rw [h1] at h2 <;> cases h2
    omega
  have h1 := indep_iSup_of_disjoint (sourceAlg_le h) h.indep hd
  have hI : IndepFun (driven Φ init x r t) (fun ω (i : Fin N) => r t i ω) P := by
    rw [IndepFun_iff_Indep]
    apply indep_of_indep_of_le_left _ (measurable_driven hΦ hi t).comap_le
    exact indep_of_indep_of_le_right h1 (measurable_inputs subset_rfl).comap_le
  rw [← map_inputs h N t]
  exact (indepFun_iff_map_prod_eq_prod_map_map hm.aemeasurable hv.aemeasurable).1 hI

/-- A function of the first component keeps the independence. -/
theorem law_left {X : Ω → S} {Y : Ω → A} {α : Measure A} [SFinite α] (hX : Measurable X)
    (hY : Measurable Y) (h : P.map (fun ω => (X ω, Y ω)) = (P.map X).prod α) {f : S → V}
    (hf : Measurable f) :
    P.map (fun ω => (f (X ω), Y ω)) = (P.map fun ω => f (X ω)).prod α := by
  have e1 : P.map (fun ω => (f (X ω), Y ω)) =
      (P.map fun ω => (X ω, Y ω)).map (Prod.map f id) := by
    rw [Measure.map_map (hf.prodMap measurable_id) (hX.prodMk hY)]
    rfl
  have : SFinite (P.map X) := inferInstance
  rw [e1, h, ← Measure.map_prod_map _ _ hf measurable_id, Measure.map_id, Measure.map_map hf hX]
  rfl

theorem law_right {X : Ω → S} {Y : Ω → A} {α : Measure A} [SFinite α] (hX : Measurable X)
    (hY : Measurable Y) (h : P.map (fun ω => (X ω, Y ω)) = (P.map X).prod α) {f : A → V}
    (hf : Measurable f) :
    P.map (fun ω => (X ω, f (Y ω))) = (P.map X).prod (α.map f) := by
  have e1 : P.map (fun ω => (X ω, f (Y ω))) =
      (P.map fun ω => (X ω, Y ω)).map (Prod.map id f) := by
    rw [Measure.map_map (measurable_id.prodMap hf) (hX.prodMk hY)]
    rfl
  rw [e1, h, ← Measure.map_prod_map _ _ measurable_id hf, Measure.map_id]

/-- Two independent inputs, one after the other. -/
theorem law_split {X : Ω → S} {Y : Ω → A} {Z : Ω → V} {α : Measure A} {β : Measure V}
    [IsProbabilityMeasure α] [IsProbabilityMeasure β] (hX : Measurable X) (hY : Measurable Y)
    (hZ : Measurable Z) (h : P.map (fun ω => (X ω, (Y ω, Z ω))) = (P.map X).prod (α.prod β)) :
    P.map (fun ω => (X ω, Y ω)) = (P.map X).prod α ∧
    P.map (fun ω => ((X ω, Y ω), Z ω)) = (P.map fun ω => (X ω, Y ω)).prod β := by
  have h1 : P.map (fun ω => (X ω, Y ω)) = (P.map X).prod α := by
    have := law_right hX (hY.prodMk hZ) h measurable_fst
    rw [Measure.map_fst_prod, measure_univ, one_smul] at this
    exact this
  refine ⟨h1, ?_⟩
  have e1 : P.map (fun ω => ((X ω, Y ω), Z ω)) =
      (P.map fun ω => (X ω, (Y ω, Z ω))).map MeasurableEquiv.prodAssoc.symm := by
    rw [Measure.map_map MeasurableEquiv.prodAssoc.symm.measurable (hX.prodMk (hY.prodMk hZ))]
    rfl
  rw [e1, h, h1]
  have := Measure.prodAssoc_prod (μ := P.map X) (ν := α) (τ := β)
  rw [← this, Measure.map_map MeasurableEquiv.prodAssoc.symm.measurable
    MeasurableEquiv.prodAssoc.measurable]
  simp

/-- The three parts of the inputs of a step. -/
theorem map_triple (α : Measure A) (β : Measure V) (γ : Measure W) [IsProbabilityMeasure α]
    [IsProbabilityMeasure β] [IsProbabilityMeasure γ] (N : ℕ) :
    (Measure.pi fun _ : Fin N => α.prod (β.prod γ)).map
      (fun v => ((fun i => (v i).1 : Fin N → A), ((fun i => (v i).2.1 : Fin N → V),
        (fun i => (v i).2.2 : Fin N → W)))) =
    (Measure.pi fun _ : Fin N => α).prod
      ((Measure.pi fun _ : Fin N => β).prod (Measure.pi fun _ : Fin N => γ)) := by
  have h1 := measurePreserving_arrowProdEquivProdArrow A (V × W) (Fin N) (fun _ => α)
    (fun _ => β.prod γ)
  have h2 := measurePreserving_arrowProdEquivProdArrow V W (Fin N) (fun _ => β) (fun _ => γ)
  have h3 := ((MeasurePreserving.id (Measure.pi fun _ : Fin N => α)).prod h2).comp h1
  exact h3.map_eq

end BFL
