import Verif.Spec.Linear

/-!
# Lower triangular factorisations, independent of the model
-/

namespace BFL.Spec

variable {K : Type} [Field K] [LinearOrder K] {n : Nat}

/-- `sqrt` returns the non-negative square root of every non-negative number. -/
def IsSqrt (sqrt : K → K) : Prop := ∀ x, 0 ≤ x → 0 ≤ sqrt x ∧ sqrt x * sqrt x = x

/-- All entries above the diagonal are zero. -/
def LowerTriangular (L : Matrix (Fin n) (Fin n) K) : Prop := ∀ i j, i < j → L i j = 0

end BFL.Spec
