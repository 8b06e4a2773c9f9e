import Verif.Model.Kalman
import Verif.Props.KalmanSetup
import Verif.Spec.Bayes

/-!
# Two unrelated systems, seen as one

The state of the pair is the state of the first system followed by the state of the second one. The
two have nothing to do with each other: neither state enters the other's models, and their noises are
independent.
-/

namespace BFL.Spec

open Matrix

variable {K : Type} [Field K] [LinearOrder K] {n n' m m' : Nat} {U : Type}

/-- `A` and `B` on the diagonal, zeros elsewhere. -/
def diag2 (A : Matrix (Fin m) (Fin n) K) (B : Matrix (Fin m') (Fin n') K) :
    Matrix (Fin (m + m')) (Fin (n + n')) K :=
  Matrix.of fun i j =>
    Fin.addCases (fun i => Fin.addCases (fun j => A i j) (fun _ => 0) j)
      (fun i => Fin.addCases (fun _ => 0) (fun j => B i j) j) i

/-- A matrix for the first system, with zeros for the second one. -/
def onFirst (A : Matrix (Fin m) (Fin n) K) : Matrix (Fin m) (Fin (n + n')) K :=
  Matrix.of fun i j => Fin.addCases (fun j => A i j) (fun _ => 0) j

/-- A matrix for the second system, with zeros for the first one. -/
def onSecond (A : Matrix (Fin m) (Fin n') K) : Matrix (Fin m) (Fin (n + n')) K :=
  Matrix.of fun i j => Fin.addCases (fun _ => 0) (fun j => A i j) j

/-- State of the first system. -/
def fstPart (x : Fin (n + n') → K) : Fin n → K := fun i => x (Fin.castAdd n' i)

/-- State of the second system. -/
def sndPart (x : Fin (n + n') → K) : Fin n' → K := fun i => x (Fin.natAdd n i)

/-- Both models at once. They get the same input, of which each may read what it wants. -/
def bothModels : AnalyticModel K n m U → AnalyticModel K n' m' U →
    AnalyticModel K (n + n') (m + m') U
  | .noInput f j r, .noInput f' j' r' =>
    .noInput (fun x => stackV (f (fstPart x)) (f' (sndPart x)))
      (fun x => diag2 (j (fstPart x)) (j' (sndPart x)))
      fun x => diag2 (r (fstPart x)) (r' (sndPart x))
  | .noInput f j r, .withInput f' j' r' =>
    .withInput (fun u x => stackV (f (fstPart x)) (f' u (sndPart x)))
      (fun u x => diag2 (j (fstPart x)) (j' u (sndPart x)))
      fun u x => diag2 (r (fstPart x)) (r' u (sndPart x))
  | .withInput f j r, .noInput f' j' r' =>
    .withInput (fun u x => stackV (f u (fstPart x)) (f' (sndPart x)))
      (fun u x => diag2 (j u (fstPart x)) (j' (sndPart x)))
      fun u x => diag2 (r u (fstPart x)) (r' (sndPart x))
  | .withInput f j r, .withInput f' j' r' =>
    .withInput (fun u x => stackV (f u (fstPart x)) (f' u (sndPart x)))
      (fun u x => diag2 (j u (fstPart x)) (j' u (sndPart x)))
      fun u x => diag2 (r u (fstPart x)) (r' u (sndPart x))

/-- A measurement of the first system only. -/
def firstModel : AnalyticModel K n m U → AnalyticModel K (n + n') m U
  | .noInput f j r => .noInput (fun x => f (fstPart x)) (fun x => onFirst (j (fstPart x)))
      fun x => r (fstPart x)
  | .withInput f j r => .withInput (fun u x => f u (fstPart x))
      (fun u x => onFirst (j u (fstPart x))) fun u x => r u (fstPart x)

/-- A measurement of the second system only. -/
def secondModel : AnalyticModel K n' m U → AnalyticModel K (n + n') m U
  | .noInput f j r => .noInput (fun x => f (sndPart x)) (fun x => onSecond (j (sndPart x)))
      fun x => r (sndPart x)
  | .withInput f j r => .withInput (fun u x => f u (sndPart x))
      (fun u x => onSecond (j u (sndPart x))) fun u x => r u (sndPart x)

/-- One filter for the pair: its mean is both means, its covariance has both covariances on the
diagonal. -/
def bothFilters (f : KF K n) (f' : KF K n') : KF K (n + n') :=
  ⟨stackV f.mu f'.mu, diag2 f.sigma f'.sigma, f.timestep⟩

/-- What is measured in one call of `Update`: nothing, one of the systems, or both. -/
inductive PairMeas (K : Type) (n n' : Nat) (U : Type) where
  | nothing
  | first {m : Nat} (meas : AnalyticModel K n m U) (z : Fin m → K) (s : Option U)
  | second {m : Nat} (meas : AnalyticModel K n' m U) (z : Fin m → K) (s : Option U)
  | both {m m' : Nat} (meas : AnalyticModel K n m U) (meas' : AnalyticModel K n' m' U)
      (z : Fin m → K) (z' : Fin m' → K) (s : Option U)

/-- One call of `Update` for the pair: perhaps both systems move, then something is measured. -/
structure PairStep (K : Type) (n n' : Nat) (U : Type) where
  sys : Option (AnalyticModel K n n U × AnalyticModel K n' n' U × Option U)
  meas : PairMeas K n n' U

namespace PairStep

/-- What the first system's own filter is told. -/
def first (st : PairStep K n n' U) : Props.KStep K n U :=
  let sys := st.sys.map fun a => (a.1, a.2.2)
  match st.meas with
  | .nothing => ⟨0, sys, none⟩
  | .first (m := m) meas z s => ⟨m, sys, some (meas, z, s)⟩
  | .second _ _ _ => ⟨0, sys, none⟩
  | .both (m := m) meas _ z _ s => ⟨m, sys, some (meas, z, s)⟩

/-- What the second system's own filter is told. -/
def second (st : PairStep K n n' U) : Props.KStep K n' U :=
  let sys := st.sys.map fun a => (a.2.1, a.2.2)
  match st.meas with
  | .nothing => ⟨0, sys, none⟩
  | .first _ _ _ => ⟨0, sys, none⟩
  | .second (m := m) meas z s => ⟨m, sys, some (meas, z, s)⟩
  | .both (m' := m') _ meas' _ z' s => ⟨m', sys, some (meas', z', s)⟩

/-- What the one filter for the pair is told. -/
def joint (st : PairStep K n n' U) : Props.KStep K (n + n') U :=
  let sys := st.sys.map fun a => (bothModels a.1 a.2.1, a.2.2)
  match st.meas with
  | .nothing => ⟨0, sys, none⟩
  | .first (m := m) meas z s => ⟨m, sys, some (firstModel meas, z, s)⟩
  | .second (m := m) meas z s => ⟨m, sys, some (secondModel meas, z, s)⟩
  | .both (m := m) (m' := m') meas meas' z z' s =>
    ⟨m + m', sys, some (bothModels meas meas', stackV z z', s)⟩

end PairStep

end BFL.Spec

namespace BFL.Spec

variable {K : Type} [Field K]

/-! ## Finitely many states

State `a` of the first system (of `n`) and state `b` of the second one (of `n'`) are numbered
`a * n' + b`. -/

/-- Something that depends on both states. -/
def onPair {V : Type} (n' : Nat) (g : Nat → Nat → V) (x : Nat) : V := g (x / n') (x % n')

/-- One thing that happens to the pair: both systems move, on their own; or one of them or both are
observed. -/
inductive TwoStep (K : Type) where
  | move (T T' : Nat → Nat → K)
  | first (L : Nat → K)
  | second (L' : Nat → K)
  | both (L L' : Nat → K)

namespace TwoStep

/-- What happens to the first system. -/
def one : TwoStep K → List (Step K)
  | .move T _ => [.move T]
  | .first L => [.observe L]
  | .second _ => []
  | .both L _ => [.observe L]

/-- What happens to the second system. -/
def two : TwoStep K → List (Step K)
  | .move _ T' => [.move T']
  | .first _ => []
  | .second L' => [.observe L']
  | .both _ L' => [.observe L']

/-- What happens to the pair: probabilities of independent events are multiplied. -/
def pair (n' : Nat) : TwoStep K → Step K
  | .move T T' => .move fun y x => T (y / n') (x / n') * T' (y % n') (x % n')
  | .first L => .observe (onPair n' fun a _ => L a)
  | .second L' => .observe (onPair n' fun _ b => L' b)
  | .both L L' => .observe (onPair n' fun a b => L a * L' b)

/-- Probabilities are not negative. -/
def Nonneg [LE K] (n n' : Nat) : TwoStep K → Prop
  | .move T T' => (∀ y < n, ∀ x < n, 0 ≤ T y x) ∧ ∀ y < n', ∀ x < n', 0 ≤ T' y x
  | .first L => ∀ a < n, 0 ≤ L a
  | .second L' => ∀ b < n', 0 ≤ L' b
  | .both L L' => (∀ a < n, 0 ≤ L a) ∧ ∀ b < n', 0 ≤ L' b

end TwoStep

end BFL.Spec
