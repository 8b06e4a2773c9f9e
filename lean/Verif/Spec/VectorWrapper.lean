import Mathlib.Data.List.Basic

/-!
# Specification of the vector operations

Nothing of the model is used here.
-/

namespace BFL.Spec

/-- The entries number `s` to `t` of a vector, both included, counted from one: entry number `i` of
the result is entry number `s + i - 1` of the vector. -/
def block {K : Type} (l : List K) (s t : Nat) : List K := (l.take t).drop (s - 1)

example : block [10, 20, 30, 40, 50] 2 4 = [20, 30, 40] := rfl

end BFL.Spec
