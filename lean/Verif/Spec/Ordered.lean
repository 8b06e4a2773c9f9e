import Verif.Spec.Bayes

/-! # States in an order: which of two distributions lies higher -/

namespace BFL.Spec

variable {K : Type} [Field K] [LE K]

/-- Likelihood ratio order: the ratio of `q` to `p` grows with the state. -/
def Below (n : Nat) (p q : Nat → K) : Prop := ∀ x y, x < y → y < n → p y * q x ≤ p x * q y

/-- From a higher state the process goes to higher states (`T y x` is the probability of going from `x` to `y`). -/
def Orderly (n : Nat) (T : Nat → Nat → K) : Prop := ∀ x x', x < x' → x' < n → Below n (T · x) (T · x')

/-- The second history makes the same orderly moves, and its readings point to higher states, or to the same ones. -/
def Step.Rises (n : Nat) : Step K → Step K → Prop
  | .move T, .move T' => Orderly n T ∧ ∀ y < n, ∀ x < n, T' y x = T y x
  | .observe L, .observe L' => Below n L L'
  | _, _ => False

end BFL.Spec
