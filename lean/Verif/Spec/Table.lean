import Mathlib.Data.List.Forall2

/-!
# What a conditional probability table is

A table with `n` states and one argument per entry of `dims` is a function of a state and an
argument list. Nothing in this file mentions the model of the C++ code.
-/

namespace BFL.Spec

/-- The state and all conditional arguments are within their ranges. -/
def InRange (n : Nat) (dims : List Nat) (s : Nat) (cs : List Nat) : Prop :=
  s < n ∧ List.Forall₂ (· < ·) cs dims

/-- The value most recently written for `(s, cs)` in a chronological list of writes. -/
def lastWrite {V : Type} (ws : List (V × Nat × List Nat)) (s : Nat) (cs : List Nat) : Option V :=
  (ws.reverse.find? fun w => w.2 = (s, cs)).map (·.1)

end BFL.Spec
