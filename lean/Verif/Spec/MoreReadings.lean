import Verif.Spec.HiddenWorld
import Mathlib.Algebra.Order.Field.Basic

/-!
# Looking more often

Nothing in this file mentions the model of the C++ code.
-/

namespace BFL.Spec

open Finset Plan

variable {Z K : Type} [Field K]

/-- `More p q`: the plan `q` takes all readings of the plan `p`, and possibly others in between. What the
process does, and what is read according to `p`, does not depend on the additional readings. Which
additional readings are taken may depend on everything read so far. -/
inductive Plan.More : Plan Z K → Plan Z K → Prop
  | stop : More .stop .stop
  | move {T : Nat → Nat → K} {p q : Plan Z K} : More p q → More (.move T p) (.move T q)
  | sense {L : Z → Nat → K} {p q : Z → Plan Z K} : (∀ z, More (p z) (q z)) →
      More (.sense L p) (.sense L q)
  | extra {L : Z → Nat → K} {p : Plan Z K} {q : Z → Plan Z K} : (∀ z, More p (q z)) →
      More p (.sense L q)

/-- The function `φ` of lists of `n` probabilities is convex: for a mixture of two distributions it is at most
the mixture of the values. -/
def ConvexReport [LE K] (n : Nat) (φ : List K → K) : Prop :=
  ∀ (f g : Nat → K) (a b : K), (∀ x < n, 0 ≤ f x) → (∀ x < n, 0 ≤ g x) →
    ∑ x ∈ range n, f x = 1 → ∑ x ∈ range n, g x = 1 → 0 ≤ a → 0 ≤ b → a + b = 1 →
    φ (tab n fun x => a * f x + b * g x) ≤ a * φ (tab n f) + b * φ (tab n g)

/-- Expected gain of the decision `a` if the state has the distribution `q` and the decision `a` gains
`gain a x` in the state `x`. -/
def expectedGain {A : Type} (gain : A → Nat → K) (q : List K) (a : A) : K :=
  (q.mapIdx fun x w => w * gain a x).sum

/-- Expected squared distance of the quantity `h` from its expected value. -/
def reportVariance (h : Nat → K) (q : List K) : K :=
  (q.mapIdx fun x w => w * h x ^ 2).sum - ((q.mapIdx fun x w => w * h x).sum) ^ 2

end BFL.Spec
