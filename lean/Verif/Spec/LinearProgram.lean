import Verif.Spec.DiscreteProgram

/-!
# Bounded noise of the simulated robot
-/

namespace BFL.Spec

open ExamplePdfs

/-- The robot is told `u`, its moves in `y` differ by at most `β` from the expected `e`, and its readings by at
most `ν` from the expected ones. -/
def WithinBounds (robot : Robot) (u : Fin 2 → ℝ) (ds : List ((Fin 3 → ℝ) × (Fin 1 → ℝ))) (e m β ν : ℝ) : Prop :=
  ∀ k d, ds[k]? = some d →
    |(robotAfter robot u (ds.take (k + 1))).state 1 - (robotAfter robot u (ds.take k)).state 1 - e| ≤ β ∧
    ∃ z, (robotAfter robot u (ds.take (k + 1))).measure d.2 = .ok ![z] ∧
      |z + 2 * (robotAfter robot u (ds.take (k + 1))).state 1 - m| ≤ ν

end BFL.Spec
