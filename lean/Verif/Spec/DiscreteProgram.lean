import Verif.Spec.Bayes
import Verif.Spec.GaussianDensity
import Verif.Model.ExamplePdfs

/-!
# What the example program for the histogram filter should report

A robot is in one of `n` places. In each step it stays with probability `diag` and otherwise goes to one of the
other places, each with the same probability. The sensor reads twice the number of the place, with normal noise.
-/

namespace BFL.Spec

open ExamplePdfs

/-- `P(new | old)`. -/
noncomputable def stays (n : Nat) (diag : ℝ) (new old : Nat) : ℝ :=
  if new = old then diag else (1 - diag) / ((n : ℝ) - 1)

/-- The density of the reading `z` in the place `x`. -/
noncomputable def sensor (mu var z : ℝ) (x : Nat) : ℝ := normalDensity ![2 * (x : ℝ) - mu] !![var] ![z]

/-- What happens: before each reading, a move. -/
noncomputable def wander (n : Nat) (diag mu var : ℝ) (zs : List ℝ) : List (Step ℝ) :=
  zs.flatMap fun z => [.move (stays n diag), .observe (sensor mu var z)]

/-- The simulated robot after the moves with the given noise. -/
noncomputable def robotAfter (r : Robot) (u : Fin 2 → ℝ) (ds : List ((Fin 3 → ℝ) × (Fin 1 → ℝ))) : Robot :=
  ds.foldl (fun r d => r.move u d.1) r

/-- `zs` are the negated readings of the simulated robot after each of its moves. -/
def Records (r : Robot) (u : Fin 2 → ℝ) (ds : List ((Fin 3 → ℝ) × (Fin 1 → ℝ))) (zs : List ℝ) : Prop :=
  zs.length = ds.length ∧ ∀ k z d, zs[k]? = some z → ds[k]? = some d →
    (robotAfter r u (ds.take (k + 1))).measure d.2 = .ok ![-z]

end BFL.Spec
