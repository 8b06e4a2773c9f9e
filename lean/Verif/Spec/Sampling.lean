import Mathlib.MeasureTheory.Constructions.Pi
import Mathlib.MeasureTheory.Measure.Lebesgue.Basic
import Mathlib.Analysis.SpecialFunctions.Pow.Real

/-!
# Random draws and averages over particles

Nothing in this file mentions the model of the C++ code.
-/

namespace BFL.Spec

open MeasureTheory

/-- `N` independent random numbers, uniform on `[0, 1)`. -/
noncomputable def uniforms (N : Nat) : Measure (Fin N → ℝ) :=
  Measure.pi fun _ => (volume : Measure ℝ).restrict (Set.Ico 0 1)

/-- `pow(x, 1.0/k)`. -/
noncomputable def kthRoot (k : Nat) (x : ℝ) : ℝ := x ^ (1 / (k : ℝ))

/-- Average of `φ` over weighted particles (value, weight). -/
def averageOver {X : Type} (φ : X → ℝ) (ps : List (X × ℝ)) : ℝ := (ps.map fun a => a.2 * φ a.1).sum

/-- Variance of `φ` over weighted particles of total weight 1. -/
def spread {X : Type} (φ : X → ℝ) (ps : List (X × ℝ)) : ℝ :=
  averageOver (fun x => φ x ^ 2) ps - averageOver φ ps ^ 2

end BFL.Spec
