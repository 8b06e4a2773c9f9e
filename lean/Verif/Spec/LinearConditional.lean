import Mathlib.Data.Matrix.Mul

/-!
# What "set most recently" means
-/

namespace BFL.Spec

/-- The value set last in a history of calls, oldest call first: `sets call` is the value that `call`
sets, if it sets any; before the first such call the value is `initial`. -/
def latest {C V : Type} (sets : C → Option V) (history : List C) (initial : V) : V :=
  (history.reverse.findSome? sets).getD initial

end BFL.Spec
