import Verif.Model.Models
import Mathlib.Data.Rat.Defs
import Mathlib.Algebra.Order.Ring.Rat

/-!
# Property C45 of `SystemModel` and `MeasurementModel`

One model serves both classes (see `Verif/Model/Models.lean`), so each theorem is about both.
-/

set_option linter.unusedSectionVars false

namespace BFL.Props

variable {A X K : Type}

/-- The constructor accepts a pdf exactly if it has one or two conditional arguments. -/
theorem C45_make_iff (p : CondPdf A X K) :
    ((∃ m, Model.make (some p) = .ok m) ↔ p.numArgs = 1 ∨ p.numArgs = 2) ∧
    (¬ (p.numArgs = 1 ∨ p.numArgs = 2) → Model.make (some p) = .abort) := by
  by_cases h1 : p.numArgs = 1
  · simp [Model.make, Model.assign, h1]
  · by_cases h2 : p.numArgs = 2
    · simp [Model.make, Model.assign, h2]
    · simp [Model.make, Model.assign, h1, h2]

/-- So does the pdf setter, whatever the model held before; a NULL pointer is rejected. -/
theorem C45_set_iff (m : Model A X K) (p : CondPdf A X K) :
    ((∃ m', m.pdfSet (some p) = .ok m') ↔ p.numArgs = 1 ∨ p.numArgs = 2) ∧
    (¬ (p.numArgs = 1 ∨ p.numArgs = 2) → m.pdfSet (some p) = .abort) ∧
    m.pdfSet none = .abort :=
  ⟨(C45_make_iff p).1, (C45_make_iff p).2, rfl⟩

/-- A model in use: built from a pdf, or built empty and then given a pdf, followed by any
reassignments that returned normally. `p` is the pdf passed last. -/
inductive ModelHistory : Model A X K → CondPdf A X K → Prop
  | make {p m} : Model.make (some p) = .ok m → ModelHistory m p
  | first {m0 p m} : Model.make none = .ok m0 → m0.pdfSet (some p) = .ok m → ModelHistory m p
  | set {m p p' m'} : ModelHistory m p → m.pdfSet (some p') = .ok m' → ModelHistory m' p'

theorem ModelHistory.state {m : Model A X K} {p : CondPdf A X K} (h : ModelHistory m p) :
    (p.numArgs = 1 ∧ m = { pdf := some p, without := some true }) ∨
    (p.numArgs = 2 ∧ m = { pdf := some p, without := some false }) := by
  have key : ∀ {m : Model A X K} {p : CondPdf A X K}, Model.assign p = .ok m →
      (p.numArgs = 1 ∧ m = { pdf := some p, without := some true }) ∨
      (p.numArgs = 2 ∧ m = { pdf := some p, without := some false }) := by
    intro m p h
    unfold Model.assign at h
    split at h
    · rename_i h1
      simp only [Outcome.ok.injEq] at h
      exact Or.inl ⟨h1, h.symm⟩
    · split at h
      · rename_i h1
        simp only [Outcome.ok.injEq] at h
        exact Or.inr ⟨h1, h.symm⟩
      · simp at h
  cases h with
  | make h => exact key h
  | first _ h => exact key h
  | set _ h => exact key h

/-- Partial: models that were given a pdf; missing are models built with NULL, see `C45_empty`.
After any history, queries and calls agree with the number of arguments of the pdf passed last:
with one argument the model says it has no input, the short overloads evaluate that pdf at the state
and the long ones abort; with two arguments it is the other way round. -/
theorem C45_agreement_partial {m : Model A X K} {p : CondPdf A X K} (h : ModelHistory m p) :
    (p.numArgs = 1 ∧ m.withoutInputs = .ok true ∧
      (∀ x a, m.prob1 x a = p.prob [a] x) ∧ (∀ a, m.simulate1 a = p.draw [a]) ∧
      (∀ x a u, m.prob2 x a u = .abort) ∧ (∀ a u, m.simulate2 a u = .abort)) ∨
    (p.numArgs = 2 ∧ m.withoutInputs = .ok false ∧
      (∀ x a u, m.prob2 x a u = p.prob [a, u] x) ∧ (∀ a u, m.simulate2 a u = p.draw [a, u]) ∧
      (∀ x a, m.prob1 x a = .abort) ∧ (∀ a, m.simulate1 a = .abort)) := by
  rcases h.state with ⟨hn, rfl⟩ | ⟨hn, rfl⟩
  · exact Or.inl ⟨hn, rfl, fun x a => by simp [Model.prob1, Model.withoutInputs, Model.pdfGet, hn,
      cassert], fun a => by simp [Model.simulate1, Model.withoutInputs, Model.pdfGet, hn, cassert],
      fun x a u => by simp [Model.prob2, Model.withoutInputs, cassert],
      fun a u => by simp [Model.simulate2, Model.withoutInputs, cassert]⟩
  · exact Or.inr ⟨hn, rfl, fun x a u => by simp [Model.prob2, Model.withoutInputs, Model.pdfGet, hn,
      cassert], fun a u => by
      simp [Model.simulate2, Model.withoutInputs, Model.pdfGet, hn, cassert],
      fun x a => by simp [Model.prob1, Model.withoutInputs, cassert],
      fun a => by simp [Model.simulate1, Model.withoutInputs, cassert]⟩

/-- Every sequence of setter calls that returns normally ends in the state given by its last
element. -/
theorem C45_sequence {m m' : Model A X K} {p : CondPdf A X K} (h : ModelHistory m p)
    (qs : List (CondPdf A X K)) (hm : m.pdfSets (qs.map some) = .ok m') :
    ModelHistory m' ((p :: qs).getLast (by simp)) := by
  induction qs generalizing m p with
  | nil =>
    simp only [List.map_nil, Model.pdfSets, Outcome.ok.injEq] at hm
    exact hm ▸ h
  | cons q qs ih =>
    simp only [List.map_cons, Model.pdfSets, Outcome.bind_eq_ok] at hm
    obtain ⟨m1, h1, h2⟩ := hm
    have := ih (.set h h1) h2
    simpa using this

/-- An empty model (the default constructor argument NULL) leaves both members uninitialised: every
query or call before the first setter call is undefined behaviour. -/
theorem C45_empty {m : Model A X K} (h : Model.make (none : Option (CondPdf A X K)) = .ok m) :
    m.withoutInputs = .ub ∧ (∀ x a, m.prob1 x a = .ub) ∧ (∀ x a u, m.prob2 x a u = .ub) ∧
      (∀ a, m.simulate1 a = .ub) ∧ ∀ a u, m.simulate2 a u = .ub := by
  simp only [Model.make, Outcome.ok.injEq] at h
  subst h
  exact ⟨rfl, fun _ _ => rfl, fun _ _ _ => rfl, fun _ => rfl, fun _ _ => rfl⟩

/-- A concrete history: built empty, given a pdf with one argument, then one with two. -/
example : ∃ (m : Model Int Int ℚ) (p : CondPdf Int Int ℚ),
    ModelHistory m p ∧ p.numArgs = 2 ∧ m.prob2 3 1 2 = .ok 6 ∧ m.prob1 3 1 = .abort := by
  let p1 : CondPdf Int Int ℚ := ⟨1, fun _ _ => .ok 1, fun _ => .ok 0⟩
  let p2 : CondPdf Int Int ℚ := ⟨2, fun cs x => .ok ((cs.sum + x : Int) : ℚ), fun _ => .ok 0⟩
  exact ⟨⟨some p2, some false⟩, p2, .set (.first (p := p1) rfl rfl) rfl, rfl, by decide +kernel,
    by decide +kernel⟩

end BFL.Props
