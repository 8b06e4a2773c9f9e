import Verif.Model.Kalman
import Verif.Props.KalmanSetup
import Verif.Spec.Bayes

/-!
# Leaving out what does not matter

A part of the state, `A x`, that evolves by itself and is all that the sensors react to. `A` may pick
some components of the state, or form any linear functions of them.
-/

namespace BFL.Spec

open Matrix

variable {K : Type} [Field K] [LinearOrder K] {n n' m : Nat} {U : Type}

/-- The small motion model says about the part what the full one says: the part of the prediction is
the prediction of the part, likewise for the slopes, and the part's noise is the part of the noise. -/
def PartMoves (A : Matrix (Fin n') (Fin n) K) (u : Option U) (full : AnalyticModel K n n U)
    (small : AnalyticModel K n' n' U) : Prop :=
  ∀ x J F Q, full.Evaluates u x J F Q →
    ∃ F', small.Evaluates u (A *ᵥ x) (A *ᵥ J) F' (A * Q * Aᵀ) ∧ F' * A = A * F

/-- The sensor reacts to the part only. -/
def PartSeen (A : Matrix (Fin n') (Fin n) K) (s : Option U) (full : AnalyticModel K n m U)
    (small : AnalyticModel K n' m U) : Prop :=
  ∀ x Z H R, full.Evaluates s x Z H R → ∃ H', small.Evaluates s (A *ᵥ x) Z H' R ∧ H = H' * A

/-- What a filter reports about the part. -/
def partOf (A : Matrix (Fin n') (Fin n) K) (f : KF K n) : KF K n' :=
  ⟨A *ᵥ f.mu, A * f.sigma * Aᵀ, f.timestep⟩

/-- The same kind of filter for the full state; a convergence check looks at the step of the part. -/
def fullKind (A : Matrix (Fin n') (Fin n) K) : KF.Kind K n' → KF.Kind K n
  | .extended => .extended
  | .iterated k chk => .iterated k (chk.map fun c d => c (A *ᵥ d))

/-- One call of `Update`, with the models of the full state and the models of the part. -/
structure TwoViews (K : Type) (n n' : Nat) (U : Type) where
  m : Nat
  sys : Option (AnalyticModel K n n U × AnalyticModel K n' n' U × Option U)
  meas : Option (AnalyticModel K n m U × AnalyticModel K n' m U × (Fin m → K) × Option U)

namespace TwoViews

/-- What a filter for the full state is told. -/
def full (v : TwoViews K n n' U) : Props.KStep K n U :=
  ⟨v.m, v.sys.map fun a => (a.1, a.2.2), v.meas.map fun a => (a.1, a.2.2.1, a.2.2.2)⟩

/-- What a filter for the part is told. -/
def small (v : TwoViews K n n' U) : Props.KStep K n' U :=
  ⟨v.m, v.sys.map fun a => (a.2.1, a.2.2), v.meas.map fun a => (a.2.1, a.2.2.1, a.2.2.2)⟩

/-- The models of the part agree with the models of the full state. -/
def Agree (A : Matrix (Fin n') (Fin n) K) (v : TwoViews K n n' U) : Prop :=
  (∀ a b u, v.sys = some (a, b, u) → PartMoves A u a b) ∧
  ∀ a b z s, v.meas = some (a, b, z, s) → PartSeen A s a b

end TwoViews

end BFL.Spec

namespace BFL.Spec

open Finset

variable {K : Type} [Field K]

/-! ## Finitely many states, put into groups -/

/-- Probability of group `y`. -/
def grouped (n : Nat) (c : Nat → Nat) (p : Nat → K) (y : Nat) : K :=
  ∑ x ∈ range n, if c x = y then p x else 0

/-- One thing that happens, seen in detail and seen by groups: the probability of moving to a group
depends only on the present group; a likelihood depends only on the group. -/
inductive SameByGroup (n n' : Nat) (c : Nat → Nat) : Step K → Step K → Prop
  | move {T T' : Nat → Nat → K} (h : ∀ x < n, ∀ y < n', grouped n c (fun x' => T x' x) y = T' y (c x)) :
      SameByGroup n n' c (.move T) (.move T')
  | observe {L L' : Nat → K} (h : ∀ x < n, L x = L' (c x)) :
      SameByGroup n n' c (.observe L) (.observe L')

end BFL.Spec
