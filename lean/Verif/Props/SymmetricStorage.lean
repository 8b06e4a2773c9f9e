import Verif.Model.SymmetricStorage
import Verif.Spec.LinearConditional
import Verif.Lemmas.LinearConditional
import Mathlib.Algebra.Field.Rat

/-!
# C58: a symmetric matrix is symmetric
-/

set_option linter.unusedSectionVars false

namespace BFL.Props

open SymStore Spec

variable {K : Type} {n : Nat}

/-- The value that a call gives to the entries `(a, b)` and `(b, a)`: what a matrix that is always
symmetric does. -/
def symmetricSets (a b : Nat) : Op K → Option (Option K)
  | .put a' b' x => if (a' = a ∧ b' = b) ∨ (a' = b ∧ b' = a) then some (some x) else none
  | .fill x => some (some x)

/-- The value that a call gives to the entry `(a, b)` of a matrix whose entries are independent. -/
def plainSets (a b : Nat) : Op K → Option (Option K)
  | .put a' b' x => if a' = a ∧ b' = b then some (some x) else none
  | .fill x => some (some x)

theorem place_boost_eq (i j k l : Fin n) :
    place .boost i j = place .boost k l ↔ (i = k ∧ j = l) ∨ (i = l ∧ j = k) := by
  simp only [place]
  split <;> split <;> simp only [Prod.mk.injEq] <;> omega

theorem run_place (be : Backend) (i j : Fin n) (sets : Op K → Option (Option K))
    (hsets : ∀ s s' : SymStore K n, ∀ op, s.step be op = .ok s' →
      s' (place be i j).1 (place be i j).2 =
        (sets op).getD (s (place be i j).1 (place be i j).2))
    (ops : List (Op K)) : ∀ s s' : SymStore K n, s.run be ops = .ok s' →
      s' (place be i j).1 (place be i j).2 =
        latest sets ops (s (place be i j).1 (place be i j).2) := by
  induction ops with
  | nil => intro s s' h; cases h; rfl
  | cons op ops ih =>
    intro s s' h
    simp only [run, Outcome.bind_eq_ok] at h
    obtain ⟨t, h1, h2⟩ := h
    rw [latest_cons, ih t s' h2, hsets s t op h1]

theorem get_of (be : Backend) (s : SymStore K n) (i j : Fin n) :
    s.get be (i + 1) (j + 1) = readMember (s (place be i j).1 (place be i j).2) := by
  rw [SymStore.get, dif_pos (by omega)]
  rfl

/-- **C58**, Boost back end: after any calls on a new symmetric matrix, the entry `(i, j)` is the one
written last at `(i, j)` or at `(j, i)` — so `(i, j)` and `(j, i)` always agree. -/
theorem C58_boost_partial (ops : List (Op K)) (s : SymStore K n)
    (h : run .boost make ops = .ok s) (i j : Fin n) :
    s.get .boost (i + 1) (j + 1) =
      readMember (latest (symmetricSets (i + 1) (j + 1)) ops none) ∧
    s.get .boost (i + 1) (j + 1) = s.get .boost (j + 1) (i + 1) := by
  have hs : place Backend.boost i j = place .boost j i := by
    rw [place_boost_eq]; tauto
  refine ⟨?_, by rw [get_of, get_of, hs]⟩
  rw [get_of, run_place .boost i j (symmetricSets (i + 1) (j + 1)) _ ops make s h]
  · rfl
  intro s s' op hop
  cases op with
  | fill x => cases hop; rfl
  | put a b x =>
    simp only [step, SymStore.put] at hop
    split at hop
    · rename_i hab
      cases hop
      simp only [symmetricSets, Prod.mk.eta, place_boost_eq, Fin.ext_iff]
      by_cases hc : (a = i + 1 ∧ b = j + 1) ∨ (a = j + 1 ∧ b = i + 1)
      · rw [if_pos hc, if_pos (by omega)]; rfl
      · rw [if_neg hc, if_neg (by omega)]; rfl
    · cases hop

/-- **C58**, Eigen back end: after any calls on a new symmetric matrix, the entry `(i, j)` is the
one written last at `(i, j)` itself. The two triangles are independent. -/
theorem C58_eigen (ops : List (Op K)) (s : SymStore K n) (h : run .eigen make ops = .ok s)
    (i j : Fin n) :
    s.get .eigen (i + 1) (j + 1) = readMember (latest (plainSets (i + 1) (j + 1)) ops none) := by
  rw [get_of, run_place .eigen i j (plainSets (i + 1) (j + 1)) _ ops make s h]
  · rfl
  intro s s' op hop
  cases op with
  | fill x => cases hop; rfl
  | put a b x =>
    simp only [step, SymStore.put] at hop
    split at hop
    · rename_i hab
      cases hop
      simp only [plainSets, place, Prod.mk.injEq, Fin.ext_iff]
      by_cases hc : a = i + 1 ∧ b = j + 1
      · rw [if_pos hc, if_pos (by omega)]; rfl
      · rw [if_neg hc, if_neg (by omega)]; rfl
    · cases hop

/-- **C58**, Eigen back end: the claim is false. Whenever two different off-diagonal entries of one
pair differ — for instance after filling the matrix with zeros and writing one of them — the matrix
is not symmetric. -/
theorem C58_eigen_not_symmetric (i j : Fin n) (hij : i ≠ j) (x y : K) (hxy : x ≠ y) :
    ∃ s : SymStore K n, run .eigen make [.fill x, .put (i + 1) (j + 1) y] = .ok s ∧
      s.get .eigen (i + 1) (j + 1) = .ok y ∧ s.get .eigen (j + 1) (i + 1) = .ok x ∧
      s.get .eigen (i + 1) (j + 1) ≠ s.get .eigen (j + 1) (i + 1) := by
  have h : run .eigen (make : SymStore K n) [.fill x, .put (i + 1) (j + 1) y] =
      .ok fun k l => if (k, l) = (i, j) then some y else some x := by
    simp only [run, step, Outcome.ok_bind, SymStore.put]
    rw [dif_pos (by omega)]
    rfl
  have h1 : SymStore.get .eigen
      (fun k l : Fin n => if (k, l) = (i, j) then some y else some x) (i + 1) (j + 1) = .ok y := by
    rw [get_of]
    show readMember (if (i, j) = (i, j) then some y else some x) = _
    rw [if_pos rfl]; rfl
  have h2 : SymStore.get .eigen
      (fun k l : Fin n => if (k, l) = (i, j) then some y else some x) (j + 1) (i + 1) = .ok x := by
    rw [get_of]
    show readMember (if (j, i) = (i, j) then some y else some x) = _
    rw [if_neg (by simp only [Prod.mk.injEq, not_and]; intro h; exact absurd h.symm hij)]
    rfl
  refine ⟨_, h, h1, h2, ?_⟩
  rw [h1, h2]
  simpa using fun h => hxy h.symm

/-! Concrete cases. -/

example : (do
    let s ← run .boost (make : SymStore ℚ 2) [.fill 0, .put 1 2 5]
    s.get .boost 2 1) = .ok 5 := by decide +kernel
example : (do
    let s ← run .eigen (make : SymStore ℚ 2) [.fill 0, .put 1 2 5]
    s.get .eigen 2 1) = .ok 0 := by decide +kernel

end BFL.Props
