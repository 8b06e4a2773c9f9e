import Verif.Spec.Bayes
import Mathlib.Algebra.Order.Field.Basic

/-!
# Histories with slightly wrong tables

Nothing in this file mentions the model of the C++ code.
-/

namespace BFL.Spec

variable {K : Type} [Field K] [LinearOrder K]

/-- The tables of the second step are those of the first up to a relative error `ε`; a likelihood may also be scaled. -/
def Step.Alike (n : Nat) (ε : K) : Step K → Step K → Prop
  | .move T, .move T' => ∀ y < n, ∀ x < n, (1 - ε) * T y x ≤ T' y x ∧ (1 - ε) * T' y x ≤ T y x
  | .observe L, .observe L' => ∃ c > 0, ∀ x < n, (1 - ε) * (c * L x) ≤ L' x ∧ (1 - ε) * L' x ≤ c * L x
  | _, _ => False

/-- One error is made at every step, and every later move leaves the fraction `1 - σ` of it: what is left of all. -/
def remembered (σ : K) : List (Step K) → K
  | [] => 0
  | _ :: ss => (1 - σ) ^ moves ss + remembered σ ss

end BFL.Spec
