import Mathlib.MeasureTheory.Function.JacobianOneDim
import Mathlib.MeasureTheory.Measure.Lebesgue.EqHaar
import Mathlib.MeasureTheory.Constructions.Pi
import Mathlib.GroupTheory.Perm.Fin
import Mathlib.Analysis.SpecialFunctions.Pow.NNReal
import Mathlib.Analysis.Calculus.Deriv.Pow
import Mathlib.MeasureTheory.Constructions.BorelSpace.Basic
import Mathlib.MeasureTheory.Function.SpecialFunctions.Basic

/-!
# Ordered uniform numbers made from roots

`n` independent uniform numbers `u 0, …, u (n-1)` are turned into the products of the `(j+1)`-th
roots of `u j`, `j ≥ i`. Every symmetric function of the result has the same average as for the
independent numbers themselves.
-/

set_option linter.unusedSectionVars false

namespace BFL

open MeasureTheory Set
open scoped ENNReal

/-- `n` independent numbers, uniform on `(0, 1]`. -/
noncomputable def unifs (n : Nat) : Measure (Fin n → ℝ) :=
  Measure.pi fun _ => (volume : Measure ℝ).restrict (Ioc 0 1)

instance : IsProbabilityMeasure ((volume : Measure ℝ).restrict (Ioc 0 1)) :=
  ⟨by simp⟩

instance (n : Nat) : IsProbabilityMeasure (unifs n) := by
  unfold unifs; infer_instance

/-- The function does not depend on the order of its arguments. -/
def Symm {α β : Type} {n : Nat} (F : (Fin n → α) → β) : Prop :=
  ∀ v w, (List.ofFn v).Perm (List.ofFn w) → F v = F w

/-- Products of roots, from the last draw to the first. -/
noncomputable def orderedVec : {n : Nat} → (Fin n → ℝ) → (Fin n → ℝ)
  | 0, u => u
  | n + 1, u => Fin.snoc (α := fun _ => ℝ)
      (u (Fin.last n) ^ (1 / ((n + 1 : Nat) : ℝ)) • orderedVec (Fin.init (α := fun _ => ℝ) u))
      (u (Fin.last n) ^ (1 / ((n + 1 : Nat) : ℝ)))

theorem unifs_eq (n : Nat) :
    unifs n = (volume : Measure (Fin n → ℝ)).restrict (Set.pi univ fun _ => Ioc 0 1) := by
  unfold unifs
  rw [← Measure.restrict_pi_pi]
  rfl

theorem perm_insertNth {α : Type} {n : Nat} (i : Fin (n + 1)) (s : α) (v : Fin n → α) :
    (List.ofFn (i.insertNth (α := fun _ => α) s v)).Perm (s :: List.ofFn v) := by
  have h : (fun j => (i.insertNth (α := fun _ => α) s v) (i.cycleRange.symm j)) =
      Fin.cons (α := fun _ => α) s v := by
    funext j
    exact Fin.insertNth_apply_cycleRange_symm i s v j
  have h2 := Equiv.Perm.ofFn_comp_perm i.cycleRange.symm (i.insertNth (α := fun _ => α) s v)
  have h3 : (i.insertNth (α := fun _ => α) s v) ∘ i.cycleRange.symm =
      Fin.cons (α := fun _ => α) s v := h
  rw [h3, List.ofFn_cons] at h2
  exact h2.symm

theorem perm_snoc {α : Type} {n : Nat} (s : α) (v : Fin n → α) :
    (List.ofFn (Fin.snoc (α := fun _ => α) v s)).Perm (s :: List.ofFn v) := by
  rw [← Fin.insertNth_last']
  exact perm_insertNth _ _ _

/-- Two given coordinates are different for almost all vectors. -/
theorem ae_ne {n : Nat} {i j : Fin n} (hij : i ≠ j) : ∀ᵐ v ∂(unifs n), v i ≠ v j := by
  rw [unifs_eq]
  apply ae_restrict_of_ae
  let S : Submodule ℝ (Fin n → ℝ) :=
    LinearMap.ker (LinearMap.proj (R := ℝ) (φ := fun _ => ℝ) i - LinearMap.proj j)
  have hS : S ≠ ⊤ := by
    intro h
    have : (Pi.single i 1 : Fin n → ℝ) ∈ S := by rw [h]; trivial
    simp [S, LinearMap.mem_ker, hij.symm] at this
  have h0 := Measure.addHaar_submodule (volume : Measure (Fin n → ℝ)) S hS
  rw [ae_iff]
  convert h0 using 2
  ext v
  simp [S, LinearMap.mem_ker, sub_eq_zero]

theorem lintegral_split {n : Nat} (i : Fin (n + 1)) {F : (Fin (n + 1) → ℝ) → ℝ≥0∞}
    (hF : Measurable F) :
    ∫⁻ v, F v ∂(unifs (n + 1)) =
      ∫⁻ s in Ioc (0 : ℝ) 1, ∫⁻ v, F (i.insertNth (α := fun _ => ℝ) s v) ∂(unifs n) := by
  have h := (measurePreserving_piFinSuccAbove
    (fun _ : Fin (n + 1) => (volume : Measure ℝ).restrict (Ioc 0 1)) i).symm
  have h1 := h.lintegral_comp hF
  unfold unifs
  rw [← h1, lintegral_prod]
  · rfl
  · exact (hF.comp (MeasurableEquiv.measurable _)).aemeasurable

theorem lintegral_max {n : Nat} {F : (Fin (n + 1) → ℝ) → ℝ≥0∞} (hF : Measurable F) (hs : Symm F) :
    ∫⁻ v, F v ∂(unifs (n + 1)) = (n + 1 : Nat) * ∫⁻ s in Ioc (0 : ℝ) 1,
      ∫⁻ v, {v : Fin n → ℝ | ∀ j, v j ≤ s}.indicator
        (fun v => F (Fin.cons (α := fun _ => ℝ) s v)) v ∂(unifs n) := by
  have hmeas : ∀ i : Fin (n + 1), MeasurableSet {v : Fin (n + 1) → ℝ | ∀ j, v j ≤ v i} := by
    intro i
    have : {v : Fin (n + 1) → ℝ | ∀ j, v j ≤ v i} = ⋂ j, {v | v j ≤ v i} := by
      ext; simp
    rw [this]
    exact MeasurableSet.iInter fun j =>
      measurableSet_le (measurable_pi_apply j) (measurable_pi_apply i)
  have hsum : ∀ᵐ v ∂(unifs (n + 1)), F v =
      ∑ i : Fin (n + 1), {v : Fin (n + 1) → ℝ | ∀ j, v j ≤ v i}.indicator F v := by
    have hall : ∀ᵐ v ∂(unifs (n + 1)), ∀ i j : Fin (n + 1), i ≠ j → v i ≠ v j := by
      rw [ae_all_iff]; intro i
      rw [ae_all_iff]; intro j
      by_cases h : i = j
      · exact Filter.Eventually.of_forall fun v hc => absurd h hc
      · filter_upwards [ae_ne h] with v hv _
        exact hv
    filter_upwards [hall] with v hv
    obtain ⟨k, hk⟩ := Finite.exists_max v
    rw [Finset.sum_eq_single k]
    · rw [indicator_of_mem (show v ∈ {v : Fin (n + 1) → ℝ | ∀ j, v j ≤ v k} from hk)]
    · intro j _ hj
      apply indicator_of_notMem
      intro hm
      exact hv j k hj (le_antisymm (hk j) (hm k))
    · intro h; exact absurd (Finset.mem_univ _) h
  rw [lintegral_congr_ae hsum, lintegral_finsetSum _ fun i _ => hF.indicator (hmeas i)]
  have hterm : ∀ i : Fin (n + 1),
      ∫⁻ v, {v : Fin (n + 1) → ℝ | ∀ j, v j ≤ v i}.indicator F v ∂(unifs (n + 1)) =
      ∫⁻ s in Ioc (0 : ℝ) 1, ∫⁻ v, {v : Fin n → ℝ | ∀ j, v j ≤ s}.indicator
        (fun v => F (Fin.cons (α := fun _ => ℝ) s v)) v ∂(unifs n) := by
    intro i
    rw [lintegral_split i (hF.indicator (hmeas i))]
    congr 1
    funext s
    congr 1
    funext v
    have he : F (i.insertNth (α := fun _ => ℝ) s v) = F (Fin.cons (α := fun _ => ℝ) s v) := by
      apply hs
      rw [List.ofFn_cons]
      exact perm_insertNth i s v
    have hiff : (i.insertNth (α := fun _ => ℝ) s v ∈ {v : Fin (n + 1) → ℝ | ∀ j, v j ≤ v i}) ↔
        v ∈ {v : Fin n → ℝ | ∀ j, v j ≤ s} := by
      simp only [mem_ofPred_eq, Fin.insertNth_apply_same]
      constructor
      · intro h j
        simpa using h (i.succAbove j)
      · intro h j
        rcases Fin.eq_self_or_eq_succAbove i j with rfl | ⟨k, rfl⟩
        · simp
        · simpa using h k
    by_cases hc : v ∈ {v : Fin n → ℝ | ∀ j, v j ≤ s}
    · rw [indicator_of_mem hc, indicator_of_mem (hiff.2 hc), he]
    · rw [indicator_of_notMem hc, indicator_of_notMem (fun h => hc (hiff.1 h))]
  rw [Finset.sum_congr rfl fun i _ => hterm i]
  simp

theorem lintegral_scale {n : Nat} {s : ℝ} (h0 : 0 < s) (h1 : s ≤ 1) {G : (Fin n → ℝ) → ℝ≥0∞}
    (hG : Measurable G) :
    ∫⁻ v, {v : Fin n → ℝ | ∀ j, v j ≤ s}.indicator G v ∂(unifs n) =
      ENNReal.ofReal (s ^ n) * ∫⁻ w, G (s • w) ∂(unifs n) := by
  have hC : MeasurableSet (Set.pi univ fun _ : Fin n => Ioc (0 : ℝ) 1) :=
    MeasurableSet.univ_pi fun _ => measurableSet_Ioc
  have hS : MeasurableSet {v : Fin n → ℝ | ∀ j, v j ≤ s} := by
    have : {v : Fin n → ℝ | ∀ j, v j ≤ s} = ⋂ j, {v | v j ≤ s} := by ext; simp
    rw [this]
    exact MeasurableSet.iInter fun j => measurableSet_le (measurable_pi_apply j) measurable_const
  have hD : MeasurableSet (Set.pi univ fun _ : Fin n => Ioc (0 : ℝ) s) :=
    MeasurableSet.univ_pi fun _ => measurableSet_Ioc
  have hmap := Measure.map_addHaar_smul (volume : Measure (Fin n → ℝ)) h0.ne'
  have hleft : ∫⁻ v, {v : Fin n → ℝ | ∀ j, v j ≤ s}.indicator G v ∂(unifs n) =
      ∫⁻ v, (Set.pi univ fun _ : Fin n => Ioc (0 : ℝ) s).indicator G v := by
    rw [unifs_eq, ← lintegral_indicator hC]
    congr 1
    funext v
    rw [indicator_indicator]
    congr 1
    ext v
    simp only [mem_inter_iff, mem_pi, mem_univ, forall_const, mem_Ioc, mem_ofPred_eq]
    constructor
    · rintro ⟨ha, hb⟩ i
      exact ⟨(ha i).1, hb i⟩
    · intro h
      exact ⟨fun i => ⟨(h i).1, (h i).2.trans h1⟩, fun i => (h i).2⟩
  have hright : ∫⁻ w, G (s • w) ∂(unifs n) =
      ∫⁻ w, ((Set.pi univ fun _ : Fin n => Ioc (0 : ℝ) s).indicator G) (s • w) := by
    rw [unifs_eq, ← lintegral_indicator hC]
    congr 1
    funext w
    have hiff : w ∈ (Set.pi univ fun _ : Fin n => Ioc (0 : ℝ) 1) ↔
        s • w ∈ (Set.pi univ fun _ : Fin n => Ioc (0 : ℝ) s) := by
      simp only [mem_pi, mem_univ, forall_const, mem_Ioc, Pi.smul_apply, smul_eq_mul]
      constructor
      · intro h i
        exact ⟨mul_pos h0 (h i).1, by nlinarith [(h i).2]⟩
      · intro h i
        refine ⟨by have := (h i).1; exact (pos_iff_pos_of_mul_pos this).1 h0, ?_⟩
        have := (h i).2
        by_contra hc
        push Not at hc
        nlinarith
    by_cases hc : w ∈ (Set.pi univ fun _ : Fin n => Ioc (0 : ℝ) 1)
    · rw [indicator_of_mem hc, indicator_of_mem (hiff.1 hc)]
    · rw [indicator_of_notMem hc, indicator_of_notMem (fun h => hc (hiff.2 h))]
  rw [hleft, hright, ← lintegral_map (g := fun w : Fin n → ℝ => s • w) (hG.indicator hD)
      (by fun_prop), hmap, lintegral_smul_measure,
    smul_eq_mul, ← mul_assoc, ← ENNReal.ofReal_mul (by positivity)]
  have hpos : (0 : ℝ) < s ^ n := by positivity
  simp [abs_of_pos (inv_pos.2 hpos), hpos.ne']

theorem lintegral_root (n : Nat) (Φ : ℝ → ℝ≥0∞) :
    ∫⁻ u in Ioc (0 : ℝ) 1, Φ (u ^ (1 / ((n + 1 : Nat) : ℝ))) =
      ∫⁻ s in Ioc (0 : ℝ) 1, ENNReal.ofReal ((n + 1 : Nat) * s ^ n) * Φ s := by
  have hinj : InjOn (fun s : ℝ => s ^ (n + 1)) (Ioc 0 1) := by
    intro a ha b hb hab
    exact (pow_left_inj₀ ha.1.le hb.1.le (by omega)).1 hab
  have himg : (fun s : ℝ => s ^ (n + 1)) '' Ioc 0 1 = Ioc 0 1 := by
    ext u
    simp only [mem_image, mem_Ioc]
    constructor
    · rintro ⟨s, ⟨h0, h1⟩, rfl⟩
      exact ⟨by positivity, pow_le_one₀ h0.le h1⟩
    · rintro ⟨h0, h1⟩
      refine ⟨u ^ (1 / ((n + 1 : Nat) : ℝ)), ⟨Real.rpow_pos_of_pos h0 _,
        Real.rpow_le_one h0.le h1 (by positivity)⟩, ?_⟩
      rw [one_div, Real.rpow_inv_natCast_pow h0.le (by omega)]
  have h := lintegral_image_eq_lintegral_abs_deriv_mul (s := Ioc (0 : ℝ) 1)
    (f := fun s : ℝ => s ^ (n + 1)) (f' := fun s => ((n + 1 : Nat) : ℝ) * s ^ n) measurableSet_Ioc
    (fun x _ => by simpa using (hasDerivAt_pow (n + 1) x).hasDerivWithinAt) hinj
    (fun u => Φ (u ^ (1 / ((n + 1 : Nat) : ℝ))))
  rw [himg] at h
  rw [h]
  apply setLIntegral_congr_fun measurableSet_Ioc
  intro s hs
  have h0 : 0 < s := hs.1
  have h1 : (s ^ (n + 1)) ^ (1 / ((n + 1 : Nat) : ℝ)) = s := by
    rw [one_div, Real.pow_rpow_inv_natCast h0.le (by omega)]
  show ENNReal.ofReal |((n + 1 : Nat) : ℝ) * s ^ n| * Φ ((s ^ (n + 1)) ^ (1 / ((n + 1 : Nat) : ℝ))) = _
  rw [h1, abs_of_nonneg (by positivity)]

theorem measurable_orderedVec : ∀ n : Nat, Measurable (orderedVec : (Fin n → ℝ) → Fin n → ℝ)
  | 0 => by
    have : (orderedVec : (Fin 0 → ℝ) → Fin 0 → ℝ) = id := by funext u; rfl
    rw [this]; exact measurable_id
  | n + 1 => by
    have ih := measurable_orderedVec n
    rw [measurable_pi_iff]
    intro i
    have hr : Measurable fun u : Fin (n + 1) → ℝ =>
        u (Fin.last n) ^ (1 / ((n + 1 : Nat) : ℝ)) :=
      (measurable_pi_apply _).pow_const _
    have hi : Measurable fun u : Fin (n + 1) → ℝ => Fin.init (α := fun _ => ℝ) u := by
      rw [measurable_pi_iff]
      intro j
      exact measurable_pi_apply _
    refine Fin.lastCases ?_ (fun j => ?_) i
    · simp only [orderedVec, Fin.snoc_last]
      exact hr
    · simp only [orderedVec, Fin.snoc_castSucc, Pi.smul_apply, smul_eq_mul]
      exact hr.mul ((measurable_pi_apply j).comp (ih.comp hi))

/-- Symmetric functions of the ordered numbers and of the independent numbers have the same
average. -/
theorem orderedVec_law : ∀ (n : Nat) {F : (Fin n → ℝ) → ℝ≥0∞}, Measurable F → Symm F →
    ∫⁻ u, F (orderedVec u) ∂(unifs n) = ∫⁻ u, F u ∂(unifs n)
  | 0, F, _, _ => rfl
  | n + 1, F, hF, hs => by
    have hcons : Measurable fun p : ℝ × (Fin n → ℝ) => Fin.cons (α := fun _ => ℝ) p.1 p.2 := by
      rw [measurable_pi_iff]
      intro i
      refine Fin.cases ?_ (fun j => ?_) i
      · simpa using measurable_fst
      · simp only [Fin.cons_succ]
        exact (measurable_pi_apply j).comp measurable_snd
    rw [lintegral_max hF hs, lintegral_split (F := fun u => F (orderedVec u)) (Fin.last n)
      (hF.comp (measurable_orderedVec (n + 1)))]
    have hl : ∀ s : ℝ, ∫⁻ v, F (orderedVec ((Fin.last n).insertNth (α := fun _ => ℝ) s v))
          ∂(unifs n) =
        (fun r => ∫⁻ v, F (Fin.cons (α := fun _ => ℝ) r (r • v)) ∂(unifs n))
          (s ^ (1 / ((n + 1 : Nat) : ℝ))) := by
      intro s
      have hsym : Symm fun w : Fin n → ℝ =>
          F (Fin.cons (α := fun _ => ℝ) (s ^ (1 / ((n + 1 : Nat) : ℝ)))
            (s ^ (1 / ((n + 1 : Nat) : ℝ)) • w)) := by
        intro v w hvw
        apply hs
        rw [List.ofFn_cons, List.ofFn_cons]
        apply List.Perm.cons
        have hm : ∀ v : Fin n → ℝ, List.ofFn (s ^ (1 / ((n + 1 : Nat) : ℝ)) • v) =
            (List.ofFn v).map (s ^ (1 / ((n + 1 : Nat) : ℝ)) * ·) := by
          intro v
          rw [List.map_ofFn]
          rfl
        rw [hm, hm]
        exact hvw.map _
      have hmeas : Measurable fun w : Fin n → ℝ =>
          F (Fin.cons (α := fun _ => ℝ) (s ^ (1 / ((n + 1 : Nat) : ℝ)))
            (s ^ (1 / ((n + 1 : Nat) : ℝ)) • w)) := by
        have h1 : Measurable fun w : Fin n → ℝ => (s ^ (1 / ((n + 1 : Nat) : ℝ)),
            s ^ (1 / ((n + 1 : Nat) : ℝ)) • w) := by fun_prop
        exact hF.comp (hcons.comp h1)
      dsimp only
      rw [← orderedVec_law n hmeas hsym]
      congr 1
      funext v
      apply hs
      rw [Fin.insertNth_last', orderedVec, List.ofFn_cons]
      simp only [Fin.snoc_last, Fin.init_snoc]
      exact perm_snoc _ _
    rw [lintegral_congr (g := fun s : ℝ => (fun r => ∫⁻ v, F (Fin.cons (α := fun _ => ℝ) r (r • v))
      ∂(unifs n)) (s ^ (1 / ((n + 1 : Nat) : ℝ)))) hl,
      lintegral_root n (fun r => ∫⁻ v, F (Fin.cons (α := fun _ => ℝ) r (r • v)) ∂(unifs n)),
      ← lintegral_const_mul']
    · apply setLIntegral_congr_fun measurableSet_Ioc
      intro s hsr
      have hm : Measurable fun v : Fin n → ℝ => F (Fin.cons (α := fun _ => ℝ) s v) :=
        hF.comp (hcons.comp (measurable_const.prodMk measurable_id))
      dsimp only
      rw [lintegral_scale hsr.1 hsr.2 hm, ← mul_assoc, ENNReal.ofReal_mul (by positivity),
        ENNReal.ofReal_natCast]
    · simp

end BFL
