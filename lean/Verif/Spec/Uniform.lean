import Mathlib.Algebra.Order.Field.Basic
import Mathlib.Algebra.BigOperators.Group.List.Basic

/-!
# Boxes, independent of the model
-/

namespace BFL.Spec

variable {K : Type} [Field K] [LinearOrder K]

/-- The point `x` lies in the closed box around `c` with edge lengths `w`. -/
def InBox (c w x : List K) : Prop :=
  ∀ (i : Nat) (ci wi xi : K), c[i]? = some ci → w[i]? = some wi → x[i]? = some xi →
    ci - wi / 2 ≤ xi ∧ xi ≤ ci + wi / 2

/-- Volume of a box with edge lengths `w`. -/
def boxVolume (w : List K) : K := w.prod

end BFL.Spec
