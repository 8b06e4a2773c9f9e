import Verif.Lemmas.SampleOrder
import Verif.Lemmas.CloudResample

set_option linter.unusedSectionVars false
set_option linter.unusedSimpArgs false

/-!
# The law of draws from weighted samples depends only on where the weight lies
-/

namespace BFL

open MeasureTheory Spec
open scoped ENNReal

variable {T : Type} [DecidableEq T]

/-- Probability that one drawn value lies in `A`. -/
theorem selected_law {ps : List (T × ℝ)} (hd : IsDistribution (ps.map Prod.snd)) {val : Nat → T}
    (hval : ∀ j (hj : j < ps.length), val j = ps[j].1) (A : T → Prop) [DecidablePred A] :
    (volume.restrict (Set.Ioc (0 : ℝ) 1)) {u | A (val (sel (ps.map Prod.snd) u))} =
      ENNReal.ofReal (ps.map fun a => a.2 * if A a.1 then 1 else 0).sum := by
  have hm : MeasurableSet {u | A (val (sel (ps.map Prod.snd) u))} :=
    measurable_sel (ps.map Prod.snd) (MeasurableSet.of_discrete (s := {j | A (val j)}))
  have h1 := lintegral_sel hd fun j => if A (val j) then 1 else 0
  have h2 : ∫⁻ u in Set.Ioc (0 : ℝ) 1, (if A (val (sel (ps.map Prod.snd) u)) then (1 : ℝ≥0∞) else 0) =
      (volume.restrict (Set.Ioc (0 : ℝ) 1)) {u | A (val (sel (ps.map Prod.snd) u))} := by
    rw [← lintegral_indicator_one hm]
    refine lintegral_congr fun u => ?_
    by_cases h : A (val (sel (ps.map Prod.snd) u))
    · rw [if_pos h, Set.indicator_of_mem (show u ∈ {u | A (val (sel (ps.map Prod.snd) u))} from h)]; rfl
    · rw [if_neg h, Set.indicator_of_notMem (show u ∉ {u | A (val (sel (ps.map Prod.snd) u))} from h)]
  rw [← h2, h1]
  have h3 : (ps.map fun a => a.2 * if A a.1 then (1 : ℝ) else 0) =
      List.ofFn fun j : Fin ps.length => ps[j].2 * if A ps[j].1 then (1 : ℝ) else 0 := by
    apply List.ext_getElem <;> simp
  have h0 : ∀ j : Fin ps.length, 0 ≤ ps[j].2 := fun j =>
    hd.1 _ (List.mem_map_of_mem (List.getElem_mem j.2))
  rw [h3, List.sum_ofFn, ENNReal.ofReal_sum_of_nonneg fun j _ => mul_nonneg (h0 j) (by split <;> norm_num)]
  apply Fintype.sum_equiv (finCongr (List.length_map ..))
  intro j
  have hj : j.1 < ps.length := by simpa using j.2
  simp only [Fin.getElem_fin, List.getElem_map, finCongr_apply, Fin.val_cast, hval j.1 hj]
  by_cases h : A ps[j.1].1
  · simp [h]
  · simp [h]

/-- Several values drawn: every event is equally likely for lists that say the same. -/
theorem selected_list_law {ps qs : List (T × ℝ)} (hp : IsDistribution (ps.map Prod.snd))
    (hq : IsDistribution (qs.map Prod.snd)) (h : SameWeights ps qs) {val wal : Nat → T}
    (hval : ∀ j (hj : j < ps.length), val j = ps[j].1) (hwal : ∀ j (hj : j < qs.length), wal j = qs[j].1)
    {N : Nat} (B : (Fin N → T) → Prop) :
    unifs N {u | B fun i => val (sel (ps.map Prod.snd) (u i))} =
      unifs N {u | B fun i => wal (sel (qs.map Prod.snd) (u i))} := by
  classical
  have hne : ps ≠ [] := by
    rintro rfl
    have := hp.2
    simp at this
  obtain ⟨d, -⟩ := List.exists_mem_of_ne_nil ps hne
  let S : List T := ps.map Prod.fst ++ qs.map Prod.fst
  let code : T → Nat := fun x => S.idxOf x
  let dec : Nat → T := fun k => S.getD k d.1
  have hdec : ∀ x ∈ S, dec (code x) = x := by
    intro x hx
    have hlt := List.idxOf_lt_length_of_mem hx
    show S.getD (S.idxOf x) d.1 = x
    rw [List.getD_eq_getElem?_getD, List.getElem?_eq_getElem hlt, Option.getD_some, List.getElem_idxOf]
  have key : ∀ (rs : List (T × ℝ)) (v : Nat → T), IsDistribution (rs.map Prod.snd) →
      (∀ j (hj : j < rs.length), v j = rs[j].1) → (∀ a ∈ rs, a.1 ∈ S) →
      unifs N {u | B fun i => v (sel (rs.map Prod.snd) (u i))} =
        (Measure.pi fun _ : Fin N => (volume.restrict (Set.Ioc (0 : ℝ) 1)).map
          fun u => code (v (sel (rs.map Prod.snd) u))) {k | B fun i => dec (k i)} := by
    intro rs v hr hv hS
    have hmeas : Measurable fun u : ℝ => code (v (sel (rs.map Prod.snd) u)) :=
      (Measurable.of_discrete (f := fun j => code (v j))).comp (measurable_sel _)
    have hm2 : Measurable fun (u : Fin N → ℝ) (i : Fin N) => code (v (sel (rs.map Prod.snd) (u i))) :=
      measurable_pi_lambda _ fun i => hmeas.comp (measurable_pi_apply i)
    rw [← Measure.pi_map_pi fun _ => hmeas.aemeasurable, Measure.map_apply hm2 MeasurableSet.of_discrete]
    refine measure_congr ?_
    filter_upwards [ae_unit N] with u hu
    apply propext
    show B _ ↔ B _
    have : (fun i => dec (code (v (sel (rs.map Prod.snd) (u i))))) = fun i => v (sel (rs.map Prod.snd) (u i)) := by
      funext i
      have hj := (sel_inverts hr (hu i).1 (hu i).2).1
      rw [List.length_map] at hj
      exact hdec _ (by rw [hv _ hj]; exact hS _ (List.getElem_mem hj))
    rw [this]
  rw [key ps val hp hval fun a ha => List.mem_append_left _ (List.mem_map_of_mem ha),
    key qs wal hq hwal fun a ha => List.mem_append_right _ (List.mem_map_of_mem ha)]
  congr 2
  funext _
  refine Measure.ext_of_singleton fun k => ?_
  have m1 : Measurable fun u : ℝ => code (val (sel (ps.map Prod.snd) u)) :=
    (Measurable.of_discrete (f := fun j => code (val j))).comp (measurable_sel _)
  have m2 : Measurable fun u : ℝ => code (wal (sel (qs.map Prod.snd) u)) :=
    (Measurable.of_discrete (f := fun j => code (wal j))).comp (measurable_sel _)
  rw [Measure.map_apply m1 (measurableSet_singleton k), Measure.map_apply m2 (measurableSet_singleton k)]
  have e1 := selected_law hp hval fun x => code x = k
  have e2 := selected_law hq hwal fun x => code x = k
  refine e1.trans (Eq.trans ?_ e2.symm)
  rw [h.sum fun x => if code x = k then (1 : ℝ) else 0]

end BFL
