import Verif.Props.Uniform
import Mathlib.MeasureTheory.Measure.Lebesgue.Basic
import Mathlib.MeasureTheory.Constructions.Pi
import Mathlib.MeasureTheory.Measure.WithDensity

set_option linter.unusedSectionVars false

/-!
# Properties of the uniform density, continued: C56, samples follow the reported density
-/

namespace BFL.Props

open Spec MeasureTheory Set

variable {n : Nat}

/-- One coordinate: the image of a uniform random number under `u ↦ a + u b`. -/
theorem scaled_uniform {a b : ℝ} (hb : 0 < b) (s : Set ℝ) (hs : MeasurableSet s) :
    (volume.restrict (Icc (0 : ℝ) 1)).map (fun u => a + u * b) s =
      ENNReal.ofReal (1 / b) * volume (s ∩ Icc a (a + b)) := by
  have hm : Measurable fun u : ℝ => a + u * b := by fun_prop
  rw [Measure.map_apply hm hs, Measure.restrict_apply (hm hs)]
  have : (fun u : ℝ => a + u * b) ⁻¹' s ∩ Icc 0 1 =
      (fun u => u * b) ⁻¹' ((fun x => a + x) ⁻¹' (s ∩ Icc a (a + b))) := by
    ext u
    simp only [mem_inter_iff, mem_preimage, mem_Icc]
    constructor
    · rintro ⟨h1, h2, h3⟩
      exact ⟨h1, by nlinarith, by nlinarith⟩
    · rintro ⟨h1, h2, h3⟩
      refine ⟨h1, ?_, ?_⟩
      · by_contra h; nlinarith
      · by_contra h; nlinarith
  rw [this, Real.volume_preimage_mul_right hb.ne', measure_preimage_add, abs_of_pos (inv_pos.2 hb),
    one_div]

/-- The density of a box, as a function. -/
noncomputable def boxDensity (c w x : Fin n → ℝ) : ℝ :=
  open Classical in
  if ∀ i, c i - w i / 2 ≤ x i ∧ x i ≤ c i + w i / 2 then 1 / ∏ i, w i else 0

theorem uniform_law {c w : Fin n → ℝ} (hw : ∀ i, 0 < w i) :
    (Measure.pi fun _ : Fin n => volume.restrict (Icc (0 : ℝ) 1)).map
      (fun u i => c i - w i / 2 + u i * w i) =
    volume.withDensity fun x => ENNReal.ofReal (boxDensity c w x) := by
  rw [Measure.pi_map_pi (f := fun i u => c i - w i / 2 + u * w i) (hf := fun i => by fun_prop)]
  refine Measure.pi_eq fun s hs => ?_
  set box : Set (Fin n → ℝ) := univ.pi fun i => Icc (c i - w i / 2) (c i - w i / 2 + w i) with hbox
  have hboxm : MeasurableSet box := MeasurableSet.univ_pi fun i => measurableSet_Icc
  have hd : (fun x => ENNReal.ofReal (boxDensity c w x)) =
      box.indicator fun _ => ENNReal.ofReal (1 / ∏ i, w i) := by
    ext x
    have hiff : x ∈ box ↔ ∀ i, c i - w i / 2 ≤ x i ∧ x i ≤ c i + w i / 2 := by
      simp only [hbox, mem_pi, mem_univ, true_implies, mem_Icc]
      constructor
      · intro h i; exact ⟨(h i).1, by linarith [(h i).2]⟩
      · intro h i; exact ⟨(h i).1, by linarith [(h i).2]⟩
    by_cases h : x ∈ box
    · rw [indicator_of_mem h, boxDensity, if_pos (hiff.1 h)]
    · rw [indicator_of_notMem h, boxDensity, if_neg (fun h' => h (hiff.2 h')), ENNReal.ofReal_zero]
  rw [hd, withDensity_indicator hboxm, withDensity_const, Measure.smul_apply,
    Measure.restrict_apply (MeasurableSet.univ_pi hs), hbox, ← pi_inter_distrib, volume_pi,
    Measure.pi_pi, smul_eq_mul]
  have h1 : ENNReal.ofReal (1 / ∏ i, w i) = ∏ i, ENNReal.ofReal (1 / w i) := by
    rw [← ENNReal.ofReal_prod_of_nonneg fun i _ => (one_div_pos.2 (hw i)).le]
    congr 1
    simp
  rw [h1, ← Finset.prod_mul_distrib]
  exact Finset.prod_congr rfl fun i _ => (scaled_uniform (hw i) (s i) (hs i)).symm

theorem drawn_ofFn : ∀ {n : Nat} (c w u : Fin n → ℝ),
    Uniform.drawn (List.ofFn c) (List.ofFn w) (List.ofFn u) =
      List.ofFn fun i => c i - w i / 2 + u i * w i := by
  intro n
  induction n with
  | zero => intro c w u; rfl
  | succ n ih =>
    intro c w u
    simp only [List.ofFn_succ, Uniform.drawn]
    rw [ih]

theorem inBox_ofFn (c w x : Fin n → ℝ) :
    InBox (List.ofFn c) (List.ofFn w) (List.ofFn x) ↔
      ∀ i, c i - w i / 2 ≤ x i ∧ x i ≤ c i + w i / 2 := by
  constructor
  · intro h i
    exact h i (c i) (w i) (x i) (by simp) (by simp) (by simp)
  · intro h i ci wi xi h1 h2 h3
    rw [List.getElem?_ofFn] at h1 h2 h3
    split at h1
    · rename_i hi
      rw [dif_pos hi] at h2 h3
      simp only [Option.some.injEq] at h1 h2 h3
      subst h1 h2 h3
      exact h ⟨i, hi⟩
    · simp at h1

/-- **C56.** Whatever was set before: if the random numbers are independent and uniform on [0, 1], the
samples have exactly the distribution whose density `ProbabilityGet` reports, and that density
integrates to one. -/
theorem C56_law (f : Uniform ℝ) (c w : Fin n → ℝ)
    (hf : BuiltUniform f (List.ofFn c) (List.ofFn w)) (hw : ∀ i, 0 < w i) :
    ∃ (sample : (Fin n → ℝ) → (Fin n → ℝ)) (density : (Fin n → ℝ) → ℝ),
      (∀ u, f.sampleOne .default (List.ofFn u) = .ok (some (List.ofFn (sample u)))) ∧
      (∀ x, f.probabilityGet (List.ofFn x) = .ok (density x)) ∧
      (Measure.pi fun _ : Fin n => volume.restrict (Icc (0 : ℝ) 1)).map sample =
        (volume.withDensity fun x => ENNReal.ofReal (density x)) ∧
      ∫⁻ x, ENNReal.ofReal (density x) = 1 := by
  have hw' : ∀ a ∈ List.ofFn w, 0 < a := by
    intro a ha
    obtain ⟨i, rfl⟩ := (List.mem_ofFn' w a).1 ha
    exact hw i
  have hlaw := uniform_law (c := c) hw
  refine ⟨fun u i => c i - w i / 2 + u i * w i, boxDensity c w, fun u => ?_, fun x => ?_, hlaw, ?_⟩
  · obtain ⟨h1, h2⟩ := built_state hf
    rw [h2]
    simp only [Uniform.sampleOne]
    rw [Uniform.drawLoop_ok _ _ _ h1 (by simp), drawn_ofFn]
    simp
  · obtain ⟨h1, h2⟩ := C43_density f _ _ hf hw' (List.ofFn x) (by simp)
    by_cases h : InBox (List.ofFn c) (List.ofFn w) (List.ofFn x)
    · rw [h1 h, boxDensity, if_pos ((inBox_ofFn c w x).1 h), boxVolume, List.prod_ofFn]
    · rw [h2 h, boxDensity, if_neg (fun h' => h ((inBox_ofFn c w x).2 h'))]
  · have h1 := congrArg (fun μ : Measure (Fin n → ℝ) => μ univ) hlaw
    simp only [withDensity_apply _ MeasurableSet.univ, Measure.restrict_univ] at h1
    rw [← h1, Measure.map_apply (by fun_prop) MeasurableSet.univ, preimage_univ, Measure.pi_univ]
    simp

example : ∃ f : Uniform ℝ, BuiltUniform f (List.ofFn ![1, 2]) (List.ofFn ![4, 1 / 2]) ∧
    ∀ i, (0 : ℝ) < ![4, 1 / 2] i := by
  refine ⟨_, .inl ⟨[1, 2], [4, 1 / 2], ⟨2, [some (1 - 4 / 2), some (2 - 1 / 2 / 2)],
    [some (1 + 4 / 2), some (2 + 1 / 2 / 2)], Uniform.heightOf [4, 1 / 2], 2⟩, [], by simp, ?_, rfl, ?_⟩, ?_⟩
  · simp [Uniform.make, cassert, Uniform.lowerOf, Uniform.higherOf]
  · simp
  · intro i; fin_cases i <;> norm_num

end BFL.Props
