import Mathlib.Algebra.Order.Field.Basic
import Mathlib.Algebra.BigOperators.Group.List.Basic
import Mathlib.Data.Matrix.Basic

/-!
# Weighted moments of a list of samples

Nothing in this file mentions the model of the C++ code.
-/

namespace BFL.Spec

variable {K X : Type} [Field K]

/-- Weighted average `Σ w_i g(x_i)` of a function of the samples. -/
def average (xs : List X) (ws : List K) (g : X → K) : K :=
  (List.zipWith (fun x w => w * g x) xs ws).sum

/-- Weighted mean vector. -/
def meanVector {n : Nat} (xs : List (Fin n → K)) (ws : List K) : Fin n → K :=
  fun k => average xs ws (fun x => x k)

/-- Weighted central second moments. -/
def covMatrix {n : Nat} (xs : List (Fin n → K)) (ws : List K) : Matrix (Fin n) (Fin n) K :=
  Matrix.of fun i j => average xs ws
    (fun x => (x i - meanVector xs ws i) * (x j - meanVector xs ws j))

end BFL.Spec
