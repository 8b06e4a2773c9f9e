import Verif.Spec.SampleOrder
import Verif.Spec.Particles
import Verif.Spec.Moments
import Verif.Lemmas.Ripley
import Mathlib.Algebra.BigOperators.Ring.Finset
import Mathlib.Data.List.Perm.Basic

set_option linter.unusedSectionVars false
set_option linter.unusedSimpArgs false

/-!
# Lemmas on weighted samples that say the same
-/

namespace BFL

open Spec

variable {K X : Type} [Field K] [DecidableEq X]

theorem weightAt_nil (x : X) : weightAt ([] : List (X × K)) x = 0 := rfl

theorem weightAt_cons (a : X × K) (ps : List (X × K)) (x : X) :
    weightAt (a :: ps) x = (if a.1 = x then a.2 else 0) + weightAt ps x := by
  unfold weightAt
  by_cases h : a.1 = x
  · simp [h]
  · simp [h]

theorem sum_eq_weightAt (g : X → K) : ∀ (ps : List (X × K)) (S : Finset X), (∀ a ∈ ps, a.1 ∈ S) →
    (ps.map fun a => a.2 * g a.1).sum = ∑ x ∈ S, weightAt ps x * g x := by
  intro ps S
  induction ps with
  | nil => intro _; simp [weightAt_nil]
  | cons a ps ih =>
    intro h
    rw [List.map_cons, List.sum_cons, ih fun b hb => h b (List.mem_cons_of_mem _ hb)]
    simp only [weightAt_cons, add_mul, Finset.sum_add_distrib, ite_mul, zero_mul, Finset.sum_ite_eq,
      h a List.mem_cons_self, if_true]

/-- Lists that say the same have the same weighted sums of every function. -/
theorem Spec.SameWeights.sum {ps qs : List (X × K)} (h : SameWeights ps qs) (g : X → K) :
    (ps.map fun a => a.2 * g a.1).sum = (qs.map fun a => a.2 * g a.1).sum := by
  let S : Finset X := (ps.map Prod.fst).toFinset ∪ (qs.map Prod.fst).toFinset
  rw [sum_eq_weightAt g ps S fun a ha => by
      rw [Finset.mem_union, List.mem_toFinset]; exact Or.inl (List.mem_map_of_mem ha),
    sum_eq_weightAt g qs S fun a ha => by
      rw [Finset.mem_union, List.mem_toFinset, List.mem_toFinset]; exact Or.inr (List.mem_map_of_mem ha)]
  exact Finset.sum_congr rfl fun x _ => by rw [h x]

theorem Spec.SameWeights.symm {ps qs : List (X × K)} (h : SameWeights ps qs) : SameWeights qs ps := fun x => (h x).symm

theorem sameWeights_perm {ps qs : List (X × K)} (h : ps.Perm qs) : SameWeights ps qs :=
  fun _ => ((h.filter _).map _).sum_eq

theorem sameWeights_merge (x : X) (a b : K) (ps : List (X × K)) :
    SameWeights ((x, a) :: (x, b) :: ps) ((x, a + b) :: ps) := by
  intro y
  simp only [weightAt_cons]
  by_cases h : x = y
  · simp only [h, if_true]; ring
  · simp only [h, if_false]; ring

theorem sameWeights_zero (x : X) (ps : List (X × K)) : SameWeights ((x, 0) :: ps) ps := by
  intro y
  simp [weightAt_cons]

theorem weightAt_map (G : X → K) (c : K) (x : X) : ∀ ps : List (X × K),
    weightAt (ps.map fun a => (a.1, a.2 * G a.1 / c)) x = weightAt ps x * G x / c := by
  intro ps
  induction ps with
  | nil => simp [weightAt_nil]
  | cons a ps ih =>
    rw [List.map_cons, weightAt_cons, weightAt_cons, ih]
    by_cases h : a.1 = x
    · subst h; simp only [if_true]; ring
    · simp only [h, if_false]; ring

/-- Readings keep two lists that say the same in step. -/
theorem Spec.SameWeights.reweighted {ps qs : List (X × K)} [LinearOrder K] (h : SameWeights ps qs) (G : X → K) :
    SameWeights (reweightedBy G ps) (reweightedBy G qs) := by
  intro x
  unfold reweightedBy
  rw [weightAt_map, weightAt_map, h x, h.sum G]

theorem weightAt_of_zero {ps : List (X × K)} (h : ∀ a ∈ ps, a.2 = 0) (x : X) : weightAt ps x = 0 := by
  induction ps with
  | nil => rfl
  | cons a ps ih =>
    rw [weightAt_cons, ih fun b hb => h b (List.mem_cons_of_mem _ hb), h a List.mem_cons_self]
    simp

theorem average_eq_sum (ps : List (X × K)) (g : X → K) :
    average (ps.map Prod.fst) (ps.map Prod.snd) g = (ps.map fun a => a.2 * g a.1).sum := by
  unfold average
  rw [List.zipWith_map, List.zipWith_self]

theorem Spec.SameWeights.average {ps qs : List (X × K)} (h : SameWeights ps qs) (g : X → K) :
    average (ps.map Prod.fst) (ps.map Prod.snd) g = average (qs.map Prod.fst) (qs.map Prod.snd) g := by
  rw [average_eq_sum, average_eq_sum, h.sum g]

theorem reweighted_eq [LinearOrder K] {ps ps1 : List (X × K)} {g : Nat → K} {G : X → K}
    (hg : ∀ i (hi : i < ps.length), g i = G ps[i].1) (h : Reweighted g ps ps1) : ps1 = reweightedBy G ps := by
  obtain ⟨hl, h⟩ := h
  have ht : totalWeight g ps = (ps.map fun b => b.2 * G b.1).sum := by
    unfold totalWeight
    rw [← List.sum_ofFn]
    congr 1
    apply List.ext_getElem
    · simp
    · intro i h1 h2
      have : i < ps.length := by simpa using h1
      simp [hg i this]
  refine List.ext_getElem (by simp [reweightedBy, hl]) fun i h1 h2 => ?_
  have hi : i < ps.length := hl ▸ h1
  rw [h i hi, ht]
  simp only [reweightedBy, List.getElem_map, hg i hi]

theorem totalWeight_eq_sum [LinearOrder K] {ps : List (X × K)} {g : Nat → K} {G : X → K}
    (hg : ∀ i (hi : i < ps.length), g i = G ps[i].1) : totalWeight g ps = (ps.map fun b => b.2 * G b.1).sum := by
  unfold totalWeight
  rw [← List.sum_ofFn]
  congr 1
  apply List.ext_getElem
  · simp
  · intro i h1 h2
    have : i < ps.length := by simpa using h1
    simp [hg i this]

end BFL
