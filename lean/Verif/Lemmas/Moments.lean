import Verif.Spec.Moments
import Verif.Lemmas.MCPdf
import Mathlib.Data.Matrix.Mul
import Mathlib.Algebra.BigOperators.Ring.Finset

/-! Helper lemmas about weighted averages. -/

set_option linter.unusedSectionVars false

namespace BFL

open Spec

variable {K X : Type} [Field K] [LinearOrder K] [IsStrictOrderedRing K]

theorem average_nil (ws : List K) (g : X → K) : average [] ws g = 0 := by simp [average]

theorem average_cons (x : X) (xs : List X) (w : K) (ws : List K) (g : X → K) :
    average (x :: xs) (w :: ws) g = w * g x + average xs ws g := by simp [average]

theorem average_add (xs : List X) (ws : List K) (f g : X → K) :
    average xs ws (fun x => f x + g x) = average xs ws f + average xs ws g := by
  induction xs generalizing ws with
  | nil => simp [average]
  | cons x xs ih =>
    cases ws with
    | nil => simp [average]
    | cons w ws => rw [average_cons, average_cons, average_cons, ih]; ring

theorem average_smul (xs : List X) (ws : List K) (c : K) (g : X → K) :
    average xs ws (fun x => c * g x) = c * average xs ws g := by
  induction xs generalizing ws with
  | nil => simp [average]
  | cons x xs ih =>
    cases ws with
    | nil => simp [average]
    | cons w ws => rw [average_cons, average_cons, ih]; ring

theorem average_const {xs : List X} {ws : List K} (hl : xs.length = ws.length) (c : K) :
    average xs ws (fun _ => c) = ws.sum * c := by
  induction xs generalizing ws with
  | nil =>
    have : ws = [] := List.length_eq_zero_iff.1 hl.symm
    simp [average, this]
  | cons x xs ih =>
    cases ws with
    | nil => simp at hl
    | cons w ws => rw [average_cons, ih (by simpa using hl), List.sum_cons]; ring

theorem average_finset {ι : Type} (s : Finset ι) (xs : List X) (ws : List K) (g : ι → X → K) :
    average xs ws (fun x => ∑ i ∈ s, g i x) = ∑ i ∈ s, average xs ws (g i) := by
  classical
  induction s using Finset.induction_on with
  | empty =>
    simp only [Finset.sum_empty]
    have := average_smul xs ws 0 (fun _ => (0 : K))
    simpa using this
  | insert a s ha ih =>
    simp only [Finset.sum_insert ha]
    rw [average_add, ih]

theorem average_nonneg {xs : List X} {ws : List K} (hw : ∀ w ∈ ws, 0 ≤ w) {g : X → K}
    (hg : ∀ x ∈ xs, 0 ≤ g x) : 0 ≤ average xs ws g := by
  induction xs generalizing ws with
  | nil => simp [average]
  | cons x xs ih =>
    cases ws with
    | nil => simp [average]
    | cons w ws =>
      rw [average_cons]
      have h1 := hw w (by simp)
      have h2 := hg x (by simp)
      have h3 := ih (ws := ws) (fun w' h => hw w' (by simp [h])) (fun x' h => hg x' (by simp [h]))
      have := mul_nonneg h1 h2
      linarith

theorem average_mono {xs : List X} {ws : List K} (hw : ∀ w ∈ ws, 0 ≤ w) {f g : X → K}
    (hfg : ∀ x ∈ xs, f x ≤ g x) : average xs ws f ≤ average xs ws g := by
  have h := average_nonneg (xs := xs) hw (g := fun x => g x + (-1) * f x)
    (fun x hx => by have := hfg x hx; linarith)
  rw [average_add, average_smul] at h
  linarith

theorem average_congr {xs : List X} {ws : List K} {f g : X → K}
    (hfg : ∀ x ∈ xs, f x = g x) : average xs ws f = average xs ws g := by
  induction xs generalizing ws with
  | nil => simp [average]
  | cons x xs ih =>
    cases ws with
    | nil => simp [average]
    | cons w ws =>
      rw [average_cons, average_cons, hfg x (by simp), ih (fun y hy => hfg y (by simp [hy]))]

theorem average_zip (xs : List X) (ws : List K) (g : X → K) :
    average xs ws g = ((xs.zip ws).map fun p => p.2 * g p.1).sum := by
  unfold average
  rw [List.zip, List.map_zipWith]

namespace MCPdf

variable {n : Nat}

theorem meanGet_eq {p : MCPdf K (Fin n → K)} {ws : List K} (hg : Good p ws) :
    p.meanGet = .ok (meanVector (p.samples.map (·.value)) ws) := by
  unfold meanGet
  rw [weightGets_eq_ok.2 hg.1, Outcome.ok_bind, hg.2.2.2]
  simp only [inv_one, one_smul, Outcome.pure_eq, Outcome.ok.injEq]
  funext k
  rw [list_sum_apply, List.map_zipWith]
  simp only [meanVector, average, List.zipWith_map_left]
  rfl

theorem matrix_list_sum_apply (l : List (Matrix (Fin n) (Fin n) K)) (i j : Fin n) :
    l.sum i j = (l.map (fun a => a i j)).sum := by
  induction l with
  | nil => rfl
  | cons x xs ih => simp [ih]

theorem covRaw_eq {p : MCPdf K (Fin n → K)} {ws : List K} (hg : Good p ws) :
    p.covRaw = .ok (covMatrix (p.samples.map (·.value)) ws) := by
  unfold covRaw
  rw [meanGet_eq hg, Outcome.ok_bind, weightGets_eq_ok.2 hg.1, Outcome.ok_bind, hg.2.2.2]
  simp only [inv_one, one_smul, Outcome.pure_eq, Outcome.ok.injEq]
  ext i j
  rw [matrix_list_sum_apply, List.map_zipWith]
  simp only [covMatrix, average, List.zipWith_map_left, Matrix.of_apply]
  congr 2
  funext s w
  ring

theorem covMatrix_comm (xs : List (Fin n → K)) (ws : List K) (i j : Fin n) :
    covMatrix xs ws i j = covMatrix xs ws j i := by
  simp only [covMatrix, Matrix.of_apply]
  congr 1
  funext x
  ring

theorem covGet_eq {p : MCPdf K (Fin n → K)} {ws : List K} (hg : Good p ws) :
    p.covGet = .ok (covMatrix (p.samples.map (·.value)) ws) := by
  unfold covGet
  rw [covRaw_eq hg]
  simp only [Outcome.ok_bind, Outcome.pure_eq, Outcome.ok.injEq]
  ext i j
  simp only [symmetrize, Matrix.of_apply]
  split
  · rfl
  · exact covMatrix_comm _ _ _ _

end MCPdf

end BFL
