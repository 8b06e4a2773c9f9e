import Verif.Spec.Coordinates
import Verif.Spec.Superposition
import Verif.Model.RauchTungStriebel

/-!
# Changes of coordinates and several runs, for the smoother
-/

namespace BFL.Spec

variable {K : Type} [Field K] [LinearOrder K] {n : Nat} {U ι : Type}

/-- The same smoothed estimate in new coordinates. -/
def Coord.smoother (c : Coord K n) (g : RTS K n) : RTS K n := ⟨c.vec g.mu, c.cov g.sigma, g.timestep⟩

/-- If the state moves, then with noise in all directions. -/
def NoisyMove (st : Props.KStep K n U) : Prop :=
  ∀ sys u, st.sys = some (sys, u) → ∀ x, ∃ J F Q, sys.Evaluates u x J F Q ∧ PD Q

/-- The same for a step of several runs. -/
def JointStep.NoisyMoves (a : JointStep K n U ι) : Prop := ∀ i, NoisyMove (a.call i)

end BFL.Spec
