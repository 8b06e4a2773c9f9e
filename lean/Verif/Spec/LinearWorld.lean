import Verif.Props.KalmanSetup
import Mathlib.MeasureTheory.Integral.Bochner.Basic
import Mathlib.MeasureTheory.Function.L2Space

/-!
# A linear world observed through noisy sensors

Everything here is about the world, not about the filter: random vectors, their second moments, and
a state that moves and is measured with noise. No distribution is assumed, only second moments.
-/

namespace BFL.Spec

open Matrix MeasureTheory

variable {Ω : Type} [MeasurableSpace Ω] {n m : Nat} {U : Type}

/-- The second moment `E[X Yᵀ]`. -/
noncomputable def moment (μ : Measure Ω) (X : Ω → Fin n → ℝ) (Y : Ω → Fin m → ℝ) :
    Matrix (Fin n) (Fin m) ℝ :=
  Matrix.of fun i j => ∫ ω, X ω i * Y ω j ∂μ

/-- Every coordinate has a finite second moment. -/
def Square (μ : Measure Ω) (X : Ω → Fin n → ℝ) : Prop := ∀ i, MemLp (fun ω => X ω i) 2 μ

/-- Every coordinate has expectation zero. -/
def Centred (μ : Measure Ω) (X : Ω → Fin n → ℝ) : Prop := ∀ i, ∫ ω, X ω i ∂μ = 0

/-- What happens in the world: the state moves to `A x + b + w`, or a sensor reads
`H x + c + v`. The model is what the filter is told about it. -/
inductive Event (Ω : Type) (n : Nat) (U : Type) where
  | move (model : AnalyticModel ℝ n n U) (u : Option U) (A : Matrix (Fin n) (Fin n) ℝ)
      (b : Fin n → ℝ) (Q : Matrix (Fin n) (Fin n) ℝ) (w : Ω → Fin n → ℝ)
  | read (m : Nat) (model : AnalyticModel ℝ n m U) (s : Option U) (H : Matrix (Fin m) (Fin n) ℝ)
      (c : Fin m → ℝ) (R : Matrix (Fin m) (Fin m) ℝ) (v : Ω → Fin m → ℝ)

namespace Event

/-- Size of the noise vector. -/
def dim : Event Ω n U → Nat
  | .move .. => n
  | .read m .. => m

/-- The noise. -/
def noise : (e : Event Ω n U) → Ω → Fin e.dim → ℝ
  | .move _ _ _ _ _ w => w
  | .read _ _ _ _ _ _ v => v

/-- The filter is told the truth about this event: the matrices and the covariance of the noise. A
sensor has no exactly known direction. -/
def Told (μ : Measure Ω) : Event Ω n U → Prop
  | .move model u A b Q w => model.IsLinear u A b Q ∧ Square μ w ∧ Centred μ w ∧ moment μ w w = Q
  | .read _ model s H c R v =>
    model.IsLinear s H c R ∧ Square μ v ∧ Centred μ v ∧ moment μ v v = R ∧ PD R

/-- The state after the event. -/
def next : Event Ω n U → (Ω → Fin n → ℝ) → Ω → Fin n → ℝ
  | .move _ _ A b _ w, X => fun ω => A *ᵥ X ω + b + w ω
  | .read .., X => X

/-- What the filter is called with. -/
def call : Event Ω n U → (Ω → Fin n → ℝ) → Ω → Props.KStep ℝ n U
  | .move model u .., _, _ => ⟨0, some (model, u), none⟩
  | .read m model s H c _ v, X, ω => ⟨m, none, some (model, H *ᵥ X ω + c + v ω, s)⟩

/-- The numbers read by the sensor. -/
def numbers : Event Ω n U → (Ω → Fin n → ℝ) → Set (Ω → ℝ)
  | .move .., _ => ∅
  | .read m _ _ H c _ v, X => {Y | ∃ i : Fin m, Y = fun ω => (H *ᵥ X ω + c + v ω) i}

end Event

/-- The state after all events. -/
def lastState : List (Event Ω n U) → (Ω → Fin n → ℝ) → Ω → Fin n → ℝ
  | [], X => X
  | e :: es, X => lastState es (e.next X)

/-- All calls of the filter. -/
def calls : List (Event Ω n U) → (Ω → Fin n → ℝ) → Ω → List (Props.KStep ℝ n U)
  | [], _, _ => []
  | e :: es, X, ω => e.call X ω :: calls es (e.next X) ω

/-- All numbers read by the sensors. -/
def readings : List (Event Ω n U) → (Ω → Fin n → ℝ) → Set (Ω → ℝ)
  | [], _ => ∅
  | e :: es, X => e.numbers X ∪ readings es (e.next X)

/-- An estimate computed from the readings by a linear formula with a constant term. -/
def AffineIn (S : Set (Ω → ℝ)) (Y : Ω → Fin n → ℝ) : Prop :=
  ∀ i, (fun ω => Y ω i) ∈ Submodule.span ℝ (insert (fun _ => 1) S)

/-- The prior is right: its mean is the expected state, its covariance that of the state. -/
def PriorRight (μ : Measure Ω) (X : Ω → Fin n → ℝ) (f : KF ℝ n) : Prop :=
  Square μ (fun ω => X ω - f.mu) ∧ Centred μ (fun ω => X ω - f.mu) ∧
    moment μ (fun ω => X ω - f.mu) (fun ω => X ω - f.mu) = f.sigma

/-- No noise is correlated with the initial state or with another noise. -/
def Uncorrelated (μ : Measure Ω) (X : Ω → Fin n → ℝ) (f : KF ℝ n) (es : List (Event Ω n U)) : Prop :=
  (∀ e ∈ es, moment μ (fun ω => X ω - f.mu) e.noise = 0) ∧
    es.Pairwise fun a b => moment μ a.noise b.noise = 0

end BFL.Spec
