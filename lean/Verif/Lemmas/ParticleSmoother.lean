import Verif.Model.ParticleSmoother
import Verif.Lemmas.MCPdf

set_option linter.unusedSectionVars false

/-! Closed forms of the loops of the particle smoother; helper lemmas only. -/

namespace BFL

open Spec

variable {K T : Type} [Field K] [LinearOrder K]

/-- A particle whose weight has been set. -/
def weighted (a : T × K) : WSample K T := ⟨a.1, some a.2⟩

@[simp] theorem weighted_weightGet (a : T × K) : (weighted a).weightGet = .ok a.2 := rfl
@[simp] theorem weighted_value (a : T × K) : (weighted a).value = a.1 := rfl

namespace PSmoother

variable {density : T → T → Outcome K} {p : T → T → K}

theorem gammaRow_ok (hp : ∀ y x, density y x = .ok (p y x)) (y : T) (fs : List (T × K)) :
    ∀ (j : Nat) (g : K) (gamma : List K), j + fs.length ≤ gamma.length →
      gammaRow density y (fs.map weighted) j g gamma = .ok (fs.map (fun a => p y a.1),
        gamma.take j ++ (runningSums g (fs.map fun a => a.2 * p y a.1)).tail
          ++ gamma.drop (j + fs.length)) := by
  induction fs with
  | nil => intro j g gamma h; simp [gammaRow, runningSums]
  | cons a fs ih =>
    intro j g gamma h
    simp only [List.length_cons] at h
    simp only [List.map_cons, gammaRow, weighted_value, weighted_weightGet, hp, Outcome.ok_bind]
    rw [vset_of_lt (by omega), Outcome.ok_bind, ih _ _ _ (by simp; omega)]
    simp only [Outcome.ok_bind, Outcome.pure_eq, Outcome.ok.injEq, Prod.mk.injEq, true_and]
    have h1 : (gamma.set j (g + a.2 * p y a.1)).take (j + 1) = gamma.take j ++ [g + a.2 * p y a.1] := by
      rw [List.take_add_one, List.take_set_of_le (le_refl j)]
      simp [show j < gamma.length by omega]
    have h2 : (gamma.set j (g + a.2 * p y a.1)).drop (j + 1 + fs.length)
        = gamma.drop (j + (a :: fs).length) := by
      rw [List.drop_set_of_lt (by omega)]
      simp only [List.length_cons]; congr 1; omega
    rw [h1, h2]
    have h3 : ∀ (s : K) l, runningSums s l = s :: (runningSums s l).tail := by
      intro s l; cases l <;> rfl
    rw [show (runningSums g (a.2 * p y a.1 :: fs.map fun a => a.2 * p y a.1)).tail =
      (g + a.2 * p y a.1) :: (runningSums (g + a.2 * p y a.1) (fs.map fun a => a.2 * p y a.1)).tail from
      h3 _ _]
    simp

theorem gammaRow_ub (hp : ∀ y x, density y x = .ok (p y x)) (y : T) (fs : List (T × K)) :
    ∀ (j : Nat) (g : K) (gamma : List K), gamma.length < j + fs.length → j ≤ gamma.length →
      gammaRow density y (fs.map weighted) j g gamma = .ub := by
  induction fs with
  | nil => intro j g gamma h h'; simp at h; omega
  | cons a fs ih =>
    intro j g gamma h h'
    simp only [List.length_cons] at h
    simp only [List.map_cons, gammaRow, weighted_value, weighted_weightGet, hp, Outcome.ok_bind]
    by_cases hj : j < gamma.length
    · rw [vset_of_lt hj, Outcome.ok_bind, ih _ _ _ (by simp; omega) (by simp; omega)]
      rfl
    · simp [vset, hj]

/-- The correction factors the loops leave behind: running sums for the last smoothed particle. -/
def leftover (p : T → T → K) (fs : List (T × K)) (y : T) : List K :=
  (runningSums 0 (fs.map fun a => a.2 * p y a.1)).tail

theorem leftover_length (p : T → T → K) (fs : List (T × K)) (y : T) :
    (leftover p fs y).length = fs.length := by simp [leftover]

theorem gammaLoop_ok (hp : ∀ y x, density y x = .ok (p y x)) (fs : List (T × K)) :
    ∀ (os : List (T × K)) (hos : os ≠ []) (gamma : List K), fs.length ≤ gamma.length →
      gammaLoop density (fs.map weighted) (os.map weighted) gamma = .ok
        (os.map (fun b => fs.map fun a => p b.1 a.1),
          leftover p fs (os.getLast hos).1 ++ gamma.drop fs.length) := by
  intro os
  induction os with
  | nil => intro hos; exact absurd rfl hos
  | cons b os ih =>
    intro hos gamma h
    simp only [List.map_cons, gammaLoop, weighted_value]
    rw [gammaRow_ok hp b.1 fs 0 0 gamma (by omega), Outcome.ok_bind]
    simp only [List.take_zero, List.nil_append, Nat.zero_add]
    cases os with
    | nil => rfl
    | cons c os =>
      rw [ih (by simp) _ (by simp)]
      simp only [Outcome.ok_bind, Outcome.pure_eq, Outcome.ok.injEq, Prod.mk.injEq, List.map_cons,
        true_and]
      rw [List.getLast_cons (a := b) (by simp : c :: os ≠ []), List.drop_append_of_le_length (by simp),
        List.drop_of_length_le (by simp), List.nil_append]

/-- Every entry of the row that is used, divided by its correction factor; `0` where the factor is
zero, because Lean divides by zero to zero. -/
def deltaSum (row gamma : List K) (os : List (T × K)) (j : Nat) : K :=
  ((os.zipIdx j).map fun e => e.1.2 * row.getD e.2 0 / gamma.getD e.2 0).sum

theorem deltaLoop_ok {prob : List (List K)} {row gamma : List K} {i : Nat} (hrow : prob[i]? = some row)
    (hz : ∀ k, row.length ≤ k → gamma.getD k 0 = 0) (os : List (T × K)) :
    ∀ (j : Nat) (acc : K), j + os.length ≤ gamma.length →
      deltaLoop prob gamma i (os.map weighted) j acc = .ok (acc + deltaSum row gamma os j) := by
  induction os with
  | nil => intro j acc _; simp [deltaLoop, deltaSum]
  | cons b os ih =>
    intro j acc h
    simp only [List.length_cons] at h
    have hj : j < gamma.length := by omega
    simp only [List.map_cons, deltaLoop]
    rw [vget_of_lt hj, Outcome.ok_bind]
    have hd : gamma.getD j 0 = gamma[j] := by simp [List.getD, hj]
    have hsum : deltaSum row gamma (b :: os) j =
        b.2 * row.getD j 0 / gamma.getD j 0 + deltaSum row gamma os (j + 1) := by
      simp [deltaSum]
    by_cases hg : gamma[j] ≠ 0
    · have hr : j < row.length := by
        by_contra hc
        exact hg (hd ▸ hz j (by omega))
      simp only [if_pos hg, weighted_weightGet, Outcome.ok_bind, probGet]
      rw [vget_eq_ok.2 hrow, Outcome.ok_bind, vget_of_lt hr, Outcome.ok_bind, ih _ _ (by omega), hsum,
        hd]
      have : row.getD j 0 = row[j] := by simp [List.getD, hr]
      rw [this, add_assoc]
    · simp only [if_neg hg]
      rw [ih _ _ (by omega), hsum, hd]
      simp only [ne_eq, not_not] at hg
      rw [hg, div_zero, zero_add]

theorem deltaLoop_not_abort (prob : List (List K)) (gamma : List K) (i : Nat) (os : List (T × K)) :
    ∀ (j : Nat) (acc : K), deltaLoop prob gamma i (os.map weighted) j acc ≠ .abort := by
  induction os with
  | nil => intro j acc; simp [deltaLoop]
  | cons b os ih =>
    intro j acc
    simp only [List.map_cons, deltaLoop, vget]
    split
    · simp only [Outcome.ok_bind]
      split
      · simp only [weighted_weightGet, Outcome.ok_bind, probGet, vget]
        split
        · simp only [Outcome.ok_bind]
          split
          · exact ih _ _
          · simp
        · simp
      · exact ih _ _
    · simp

theorem gammaLoop_not_abort (hp : ∀ y x, density y x = .ok (p y x)) (fs : List (T × K)) :
    ∀ (os : List (T × K)) (gamma : List K),
      gammaLoop density (fs.map weighted) (os.map weighted) gamma ≠ .abort := by
  intro os
  induction os with
  | nil => intro gamma; simp [gammaLoop]
  | cons b os ih =>
    intro gamma
    simp only [List.map_cons, gammaLoop, weighted_value]
    by_cases h : fs.length ≤ gamma.length
    · rw [gammaRow_ok hp b.1 fs 0 0 gamma (by omega), Outcome.ok_bind]
      simp only
      have := ih (gamma.take 0 ++ (runningSums 0 (fs.map fun a => a.2 * p b.1 a.1)).tail
        ++ gamma.drop (0 + fs.length))
      cases hc : gammaLoop density (fs.map weighted) (os.map weighted)
        (gamma.take 0 ++ (runningSums 0 (fs.map fun a => a.2 * p b.1 a.1)).tail
        ++ gamma.drop (0 + fs.length)) with
      | ok r => simp
      | abort => exact absurd hc this
      | ub => simp
    · rw [gammaRow_ub hp b.1 fs 0 0 gamma (by omega) (by omega)]
      simp

theorem weightLoop_ok {prob : List (List K)} {gamma : List K} {os : List (T × K)}
    (d : Nat → K)
    (hd : ∀ i, i < prob.length → deltaLoop prob gamma i (os.map weighted) 0 0 = .ok (d i))
    (fs : List (T × K)) :
    ∀ (i : Nat) (t : K), i + fs.length ≤ prob.length →
      weightLoop prob gamma (os.map weighted) (fs.map weighted) i (some t) = .ok
        ((fs.zipIdx i).map (fun e => e.1.2 * d e.2),
          some (t + ((fs.zipIdx i).map (fun e => e.1.2 * d e.2)).sum)) := by
  induction fs with
  | nil => intro i t _; simp [weightLoop]
  | cons a fs ih =>
    intro i t h
    simp only [List.length_cons] at h
    simp only [List.map_cons, weightLoop]
    rw [hd i (by omega), Outcome.ok_bind]
    simp only [weighted_weightGet, Outcome.ok_bind, readTotal]
    rw [ih _ _ (by omega)]
    simp [add_assoc]

end PSmoother

end BFL
