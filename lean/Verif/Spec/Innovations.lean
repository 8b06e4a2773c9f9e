import Verif.Spec.LinearWorld
import Mathlib.Probability.Distributions.Gaussian.Real
import Mathlib.MeasureTheory.Constructions.Pi

/-!
# A linear world with Gaussian noise, and the chi-square distribution
-/

namespace BFL.Spec

open MeasureTheory ProbabilityTheory

variable {Ω : Type} [MeasurableSpace Ω] {n : Nat} {U : Type}

/-- Everything that is random in the world: the coordinates of the initial state and of the noises. -/
def sources (es : List (Event Ω n U)) (X : Ω → Fin n → ℝ) : Set (Ω → ℝ) :=
  {Y | (∃ i, Y = fun ω => X ω i) ∨ ∃ e ∈ es, ∃ i, Y = fun ω => e.noise ω i}

/-- Random numbers are jointly normal: every linear combination is normal. -/
def JointlyNormal (μ : Measure Ω) (S : Set (Ω → ℝ)) : Prop :=
  ∀ Y ∈ Submodule.span ℝ S, ∃ mean var, μ.map Y = gaussianReal mean var

/-- The distribution of the sum of the squares of `d` independent standard normal numbers. -/
noncomputable def chiSquare (d : Nat) : Measure ℝ :=
  (Measure.pi fun _ : Fin d => gaussianReal 0 1).map fun g => ∑ i, g i ^ 2

/-- A sensor without parameter, or a motion. -/
def Event.Plain : Event Ω n U → Prop
  | .move .. => True
  | .read _ _ s .. => s = none

/-- The numbers of values that the sensors measure. -/
def readingSizes : List (Event Ω n U) → List Nat
  | [] => []
  | .move .. :: es => readingSizes es
  | .read m .. :: es => m :: readingSizes es

end BFL.Spec
