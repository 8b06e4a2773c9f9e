import Verif.Model.Uniform
import Verif.Spec.Uniform
import Mathlib.Tactic.Ring
import Mathlib.Tactic.Linarith

set_option linter.unusedSectionVars false

/-! Helper lemmas about the uniform density. -/

namespace BFL

open Spec

variable {K : Type} [Field K] [LinearOrder K] [IsStrictOrderedRing K]

theorem inBox_nil (c w : List K) : InBox c w [] := by
  intro i ci wi xi _ _ h; simp at h

theorem inBox_cons {c w x : K} {cs ws xs : List K} :
    InBox (c :: cs) (w :: ws) (x :: xs) ↔ (c - w / 2 ≤ x ∧ x ≤ c + w / 2) ∧ InBox cs ws xs := by
  constructor
  · intro h
    exact ⟨h 0 c w x rfl rfl rfl, fun i ci wi xi h1 h2 h3 =>
      h (i + 1) ci wi xi (by simpa using h1) (by simpa using h2) (by simpa using h3)⟩
  · rintro ⟨h1, h2⟩ i ci wi xi h3 h4 h5
    cases i with
    | zero =>
      simp only [List.getElem?_cons_zero, Option.some.injEq] at h3 h4 h5
      subst h3 h4 h5
      exact h1
    | succ i =>
      simp only [List.getElem?_cons_succ] at h3 h4 h5
      exact h2 i ci wi xi h3 h4 h5

namespace Uniform

theorem foldl_div (w : List K) : ∀ a : K, w.foldl (· / ·) a = a / w.prod := by
  induction w with
  | nil => intro a; simp
  | cons x w ih => intro a; rw [List.foldl_cons, ih, List.prod_cons, div_div]

theorem heightOf_pos {w : List K} (h : ∀ x ∈ w, 0 < x) : heightOf w = .ok (1 / boxVolume w) := by
  rw [heightOf, if_neg (fun h0 => lt_irrefl _ (h 0 h0)), foldl_div, boxVolume]

theorem boxVolume_pos {w : List K} (h : ∀ x ∈ w, 0 < x) : 0 < boxVolume w := by
  induction w with
  | nil => simp [boxVolume]
  | cons x w ih =>
    rw [boxVolume, List.prod_cons]
    exact mul_pos (h x (by simp)) (ih fun y hy => h y (by simp [hy]))

theorem insideLoop_ok : ∀ (x c w : List K), x.length ≤ c.length → c.length = w.length →
    ∃ b, insideLoop x ((higherOf c w).map some) ((lowerOf c w).map some) = .ok b ∧
      (b = true ↔ InBox c w x) := by
  intro x
  induction x with
  | nil => intro c w _ _; exact ⟨true, rfl, by simp [inBox_nil]⟩
  | cons x xs ih =>
    intro c w h1 h2
    cases c with
    | nil => simp at h1
    | cons c cs =>
      cases w with
      | nil => simp at h2
      | cons w ws =>
        simp only [higherOf, lowerOf, List.zipWith_cons_cons, List.map_cons, insideLoop, readMember,
          Outcome.ok_bind]
        by_cases h3 : x > c + w / 2
        · refine ⟨false, by rw [if_pos h3]; rfl, ?_⟩
          rw [inBox_cons]
          simp only [Bool.false_eq_true, false_iff, not_and]
          intro h4
          linarith [h4.2]
        · rw [if_neg h3]
          by_cases h4 : x < c - w / 2
          · refine ⟨false, by rw [if_pos h4]; rfl, ?_⟩
            rw [inBox_cons]
            simp only [Bool.false_eq_true, false_iff, not_and]
            intro h5
            linarith [h5.1]
          · rw [if_neg h4]
            obtain ⟨b, hb, hb'⟩ := ih cs ws (by simpa using h1) (by simpa using h2)
            refine ⟨b, hb, ?_⟩
            rw [hb', inBox_cons]
            constructor
            · intro h5; exact ⟨⟨by linarith, by linarith⟩, h5⟩
            · exact fun h5 => h5.2

/-- A point with too many coordinates is compared with memory behind the vectors, unless one of its
leading coordinates is outside. -/
theorem insideLoop_long : ∀ (x c w : List K), c.length = w.length → c.length < x.length →
    InBox c w (x.take c.length) →
    insideLoop x ((higherOf c w).map some) ((lowerOf c w).map some) = .ub := by
  intro x
  induction x with
  | nil => intro c w _ h; simp at h
  | cons x xs ih =>
    intro c w h1 h2 h3
    cases c with
    | nil => cases w <;> simp [higherOf, lowerOf, insideLoop]
    | cons c cs =>
      cases w with
      | nil => simp at h1
      | cons w ws =>
        simp only [List.length_cons, List.take_succ_cons] at h3
        rw [inBox_cons] at h3
        simp only [higherOf, lowerOf, List.zipWith_cons_cons, List.map_cons, insideLoop, readMember,
          Outcome.ok_bind]
        rw [if_neg (by linarith [h3.1.2]), if_neg (by linarith [h3.1.1])]
        exact ih cs ws (by simpa using h1) (by simpa using h2) h3.2

/-- The sample drawn with numbers `us`. -/
def drawn : List K → List K → List K → List K
  | c :: cs, w :: ws, u :: us => (c - w / 2 + u * w) :: drawn cs ws us
  | _, _, _ => []

theorem drawLoop_ok : ∀ (c w us : List K), c.length = w.length → us.length = c.length →
    drawLoop c.length ((lowerOf c w).map some) ((higherOf c w).map some) us = .ok (drawn c w us) := by
  intro c
  induction c with
  | nil => intro w us _ _; rfl
  | cons c cs ih =>
    intro w us h1 h2
    cases w with
    | nil => simp at h1
    | cons w ws =>
      cases us with
      | nil => simp at h2
      | cons u us =>
        simp only [lowerOf, higherOf, List.zipWith_cons_cons, List.map_cons, List.length_cons, drawLoop,
          readMember, Outcome.ok_bind]
        have := ih ws us (by simpa using h1) (by simpa using h2)
        rw [lowerOf, higherOf] at this
        rw [this]
        simp only [Outcome.ok_bind, Outcome.pure_eq, drawn, runif, Outcome.ok.injEq, List.cons.injEq,
          and_true]
        ring

theorem drawn_inBox : ∀ (c w us : List K), (∀ x ∈ w, 0 ≤ x) → (∀ u ∈ us, 0 ≤ u ∧ u ≤ 1) →
    InBox c w (drawn c w us) := by
  intro c
  induction c with
  | nil => intro w us _ _ i ci wi xi h; simp at h
  | cons c cs ih =>
    intro w us hw hu
    cases w with
    | nil => intro i ci wi xi _ h; simp at h
    | cons w ws =>
      cases us with
      | nil => exact inBox_nil _ _
      | cons u us =>
        rw [drawn, inBox_cons]
        have h1 := hw w (by simp)
        have h2 := hu u (by simp)
        refine ⟨⟨by nlinarith, by nlinarith⟩, ih ws us (fun x hx => hw x (by simp [hx]))
          fun x hx => hu x (by simp [hx])⟩

theorem drawn_length : ∀ (c w us : List K), c.length = w.length → us.length = c.length →
    (drawn c w us).length = c.length := by
  intro c
  induction c with
  | nil => intro w us _ _; rfl
  | cons c cs ih =>
    intro w us h1 h2
    cases w with
    | nil => simp at h1
    | cons w ws =>
      cases us with
      | nil => simp at h2
      | cons u us => simp [drawn, ih ws us (by simpa using h1) (by simpa using h2)]

theorem readAll (l : List K) : mapOutcome readMember (l.map some) = .ok l := by
  induction l with
  | nil => rfl
  | cons a l ih =>
    simp only [List.map_cons, mapOutcome, readMember, Outcome.ok_bind]
    rw [ih]; rfl

theorem center_zip : ∀ (c w : List K), c.length = w.length →
    List.zipWith (fun a b => (a + b) / 2) (higherOf c w) (lowerOf c w) = c := by
  intro c
  induction c with
  | nil => intro w _; simp [higherOf, lowerOf]
  | cons c cs ih =>
    intro w h
    cases w with
    | nil => simp at h
    | cons w ws =>
      have := ih ws (by simpa using h)
      simp only [higherOf, lowerOf, List.zipWith_cons_cons, List.cons.injEq] at this ⊢
      exact ⟨by ring, this⟩

theorem width_zip : ∀ (c w : List K), c.length = w.length →
    List.zipWith (· - ·) (higherOf c w) (lowerOf c w) = w := by
  intro c
  induction c with
  | nil => intro w h; cases w with
    | nil => simp [higherOf, lowerOf]
    | cons w ws => simp at h
  | cons c cs ih =>
    intro w h
    cases w with
    | nil => simp at h
    | cons w ws =>
      have := ih ws (by simpa using h)
      simp only [higherOf, lowerOf, List.zipWith_cons_cons, List.cons.injEq] at this ⊢
      exact ⟨by ring, this⟩

theorem uniformSet_eq_ok {f f' : Uniform K} {c w : List K} (h : f.uniformSet c w = .ok f') :
    c.length = w.length ∧ (f.dim = 0 ∨ f.dim = c.length) ∧
      f' = ⟨c.length, (lowerOf c w).map some, (higherOf c w).map some, heightOf w, f.scratch⟩ := by
  simp only [uniformSet, Outcome.bind_eq_ok, cassert_eq_ok, Outcome.pure_eq, Outcome.ok.injEq] at h
  obtain ⟨_, h1, _, h2, h3⟩ := h
  refine ⟨h1, ?_, ?_⟩
  · split at h2
    · left; assumption
    · right; exact h2
  · rw [← h3, h2]

end Uniform

end BFL
