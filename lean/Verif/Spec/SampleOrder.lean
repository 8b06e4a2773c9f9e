import Mathlib.Algebra.BigOperators.Group.List.Basic
import Mathlib.Algebra.Order.Field.Basic

/-!
# How much weight lies where

Two lists of weighted samples say the same if every value carries the same weight in both, whatever the order of the
samples, however the weight of a value is divided among equal samples, and however many samples carry no weight.
-/

namespace BFL.Spec

variable {K X : Type} [Field K] [DecidableEq X]

/-- The weight of all samples with value `x`. -/
def weightAt (ps : List (X × K)) (x : X) : K := ((ps.filter fun a => a.1 = x).map Prod.snd).sum

/-- Every value carries the same weight in both lists. -/
def SameWeights (ps qs : List (X × K)) : Prop := ∀ x, weightAt ps x = weightAt qs x

/-- Where a sample is after `t` moves `mv 0`, `mv 1`, ..., made with the random numbers `ρ 0`, `ρ 1`, .... -/
def placeAfter {R : Type} (mv : Nat → R → X → X) (ρ : Nat → R) (x : X) : Nat → X
  | 0 => x
  | t + 1 => mv t (ρ t) (placeAfter mv ρ x t)

end BFL.Spec
