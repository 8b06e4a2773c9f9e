import Verif.Spec.Innovations

/-! # Estimates computed from what the sensors have read -/

namespace BFL.Spec

open MeasureTheory

variable {Ω : Type} {n : Nat} {U : Type}

/-- The list of everything that the sensors have read. -/
def heard (es : List (Event Ω n U)) (X : Ω → Fin n → ℝ) (ω : Ω) : readings es X → ℝ := fun Y => Y.1 ω

end BFL.Spec
