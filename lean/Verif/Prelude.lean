import Mathlib.Algebra.Order.Field.Basic

/-!
# Outcomes of modelled C++ functions

`ok a`   the function returned `a`;
`abort`  an `assert` failed or `exit` was called (asserts are enabled: the default CMake build
         type is Debug, `orocos_bfl/CMakeLists.txt:41-44`);
`ub`     undefined behaviour was reached (out-of-range index or iterator, NULL dereference,
         use of an uninitialised object).
-/

universe u

namespace BFL

/-- Result of running a modelled C++ function. -/
inductive Outcome (α : Type u) where
  | ok (a : α)
  | abort
  | ub
  deriving DecidableEq, Repr

namespace Outcome

variable {α β : Type u}

/-- Sequencing: the first `abort` or `ub` ends the computation. -/
def bind (x : Outcome α) (f : α → Outcome β) : Outcome β :=
  match x with
  | ok a => f a
  | abort => abort
  | ub => ub

instance : Monad Outcome where
  pure := ok
  bind := bind

@[simp] theorem pure_eq (a : α) : (pure a : Outcome α) = ok a := rfl
@[simp] theorem ok_bind (a : α) (f : α → Outcome β) : (ok a >>= f) = f a := rfl
@[simp] theorem abort_bind (f : α → Outcome β) : ((abort : Outcome α) >>= f) = abort := rfl
@[simp] theorem ub_bind (f : α → Outcome β) : ((ub : Outcome α) >>= f) = ub := rfl

theorem bind_eq_ok {x : Outcome α} {f : α → Outcome β} {b : β} :
    (x >>= f) = ok b ↔ ∃ a, x = ok a ∧ f a = ok b := by
  cases x <;> simp

instance : LawfulMonad Outcome := LawfulMonad.mk'
  (id_map := by intro α x; cases x <;> rfl)
  (pure_bind := by intros; rfl)
  (bind_assoc := by intro α β γ x f g; cases x <;> rfl)

end Outcome

/-- C `assert(c)`. -/
def cassert (c : Prop) [Decidable c] : Outcome Unit := if c then .ok () else .abort

/-- `std::vector` element access without range check: out of range is undefined behaviour. -/
def vget {α : Type*} (v : List α) (i : Nat) : Outcome α :=
  match v[i]? with
  | some a => .ok a
  | none => .ub

/-- `std::vector` element write without range check: out of range is undefined behaviour. -/
def vset {α : Type*} (v : List α) (i : Nat) (a : α) : Outcome (List α) :=
  if i < v.length then .ok (v.set i a) else .ub

/-- Reading a member that may never have been assigned. -/
def readMember {α : Type} : Option α → Outcome α
  | none => .ub
  | some a => .ok a

/-- Apply a fallible function to every element from left to right, stopping at the first failure
(a `for` loop over a vector that constructs a checked value in every iteration). -/
def mapOutcome {α β : Type u} (f : α → Outcome β) : List α → Outcome (List β)
  | [] => .ok []
  | a :: as => do
      let b ← f a
      let bs ← mapOutcome f as
      return b :: bs

section lemmas
variable {α β : Type u}

@[simp] theorem cassert_eq_ok {c : Prop} [Decidable c] {x : Unit} : cassert c = .ok x ↔ c := by
  unfold cassert; split <;> simp_all

theorem cassert_true {c : Prop} [Decidable c] (h : c) : cassert c = .ok () := by simp [h]

theorem cassert_false {c : Prop} [Decidable c] (h : ¬ c) : cassert c = .abort := by
  simp [cassert, h]

theorem vget_eq_ok {v : List α} {i : Nat} {a : α} : vget v i = .ok a ↔ v[i]? = some a := by
  unfold vget; split <;> simp_all

theorem vget_of_lt {v : List α} {i : Nat} (h : i < v.length) : vget v i = .ok v[i] := by
  simp [vget, h]

theorem vget_of_ge {v : List α} {i : Nat} (h : v.length ≤ i) : vget v i = .ub := by
  simp [vget, h]

theorem vset_of_lt {v : List α} {i : Nat} {a : α} (h : i < v.length) :
    vset v i a = .ok (v.set i a) := by simp [vset, h]

theorem mapOutcome_eq_ok {f : α → Outcome β} {g : α → β} {l : List α}
    (h : ∀ a ∈ l, f a = .ok (g a)) : mapOutcome f l = .ok (l.map g) := by
  induction l with
  | nil => rfl
  | cons a l ih =>
    have h1 := h a (by simp)
    have h2 := ih (fun b hb => h b (by simp [hb]))
    simp [mapOutcome, h1, h2]

theorem mapOutcome_ok_length {f : α → Outcome β} {l : List α} {r : List β}
    (h : mapOutcome f l = .ok r) : r.length = l.length := by
  induction l generalizing r with
  | nil => simp [mapOutcome] at h; simp [← h]
  | cons a l ih =>
    simp only [mapOutcome, Outcome.bind_eq_ok, Outcome.pure_eq, Outcome.ok.injEq] at h
    obtain ⟨b, _, bs, h2, rfl⟩ := h
    simp [ih h2]

theorem mapOutcome_eq_abort {f : α → Outcome β} {l : List α} (hl : l ≠ [])
    (h : ∀ a ∈ l, f a = .abort) : mapOutcome f l = .abort := by
  cases l with
  | nil => exact absurd rfl hl
  | cons a l => simp [mapOutcome, h a (by simp)]

end lemmas

end BFL
