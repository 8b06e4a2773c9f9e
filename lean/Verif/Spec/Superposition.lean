import Verif.Spec.PriorMean

/-!
# Several runs with the same matrices

Several Kalman filters process histories of the same shape: in every step the same transition matrix,
sensor matrix and noise covariances, but different inputs, offsets, readings and prior means.
-/

namespace BFL.Spec

open Matrix

variable {K : Type} [Field K] [LinearOrder K] {n : Nat} {U ι : Type}

/-- One step of several runs: run `i` gives its filter the system model `sys i` with its input and the
measurement model `meas i` with its reading and sensor parameter. Either all runs have a system part or
none has one, and the same for the measurement part. -/
structure JointStep (K : Type) (n : Nat) (U ι : Type) where
  m : Nat
  sys : Option (ι → AnalyticModel K n n U × Option U)
  meas : Option (ι → AnalyticModel K n m U × (Fin m → K) × Option U)

namespace JointStep

/-- The call of `Update` in run `i`. -/
def call (a : JointStep K n U ι) (i : ι) : Props.KStep K n U :=
  ⟨a.m, a.sys.map (fun g => g i), a.meas.map (fun g => g i)⟩

/-- All runs move the state by the same `A` with noise `Q` and see it through the same `H` with noise
`R`. The offsets `b i` (effects of inputs) and `c i` of the models may differ; `Ok` is required of the
offsets of the system, and `Ok'` of offsets and readings of the sensor. -/
def Shared (a : JointStep K n U ι) (Ok : (ι → Fin n → K) → Prop)
    (Ok' : ∀ m, (ι → Fin m → K) → (ι → Fin m → K) → Prop) : Prop :=
  (∀ g, a.sys = some g → ∃ A Q, ∃ b : ι → Fin n → K, PSD Q ∧
    (∀ i, (g i).1.IsLinear (g i).2 A (b i) Q) ∧ Ok b) ∧
  (∀ g, a.meas = some g → ∃ H R, ∃ c : ι → Fin a.m → K, PD R ∧
    (∀ i, (g i).1.IsLinear (g i).2.2 H (c i) R) ∧ Ok' a.m c (fun i => (g i).2.1))

/-- Same matrices, nothing said about inputs, offsets and readings. -/
def SameMatrices (a : JointStep K n U ι) : Prop := a.Shared (fun _ => True) (fun _ _ _ => True)

end JointStep

/-- The run `none` gets the weighted sum of what the other runs get. -/
def IsSum {κ V : Type} [Fintype κ] [AddCommMonoid V] [Module K V] (w : κ → K) (x : Option κ → V) : Prop :=
  x none = ∑ i, w i • x (some i)

/-- Same matrices; the inputs (as offsets of the models) and the readings of the run `none` are the
weighted sums of those of the other runs. The weights need not sum to one. -/
def JointStep.Superposed {κ : Type} [Fintype κ] (w : κ → K) (a : JointStep K n U (Option κ)) : Prop :=
  a.Shared (IsSum w) (fun _ c z => IsSum w c ∧ IsSum w z)

end BFL.Spec
