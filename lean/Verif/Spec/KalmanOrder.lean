import Verif.Props.KalmanSetup
import Verif.Spec.LinearWorld

/-!
# Who knows more

Two filters on the same linear world, of which the first is told at least as much as the second; and a
filter that is told the truth or something more pessimistic.
-/

namespace BFL.Spec

open Matrix MeasureTheory

section order

variable {K : Type} [Field K] [LinearOrder K] {n : Nat} {U : Type}

/-- `A` is at most `B`: every linear combination of the coordinates has at most the variance under `A`
that it has under `B`. -/
def AtMost (A B : Matrix (Fin n) (Fin n) K) : Prop := PSD (B - A)

/-- Both filters predict with the same matrix, or neither predicts; the first is told at most the
process noise of the second. The constant terms and inputs may differ. -/
inductive SysLe : Option (AnalyticModel K n n U × Option U) → Option (AnalyticModel K n n U × Option U) →
    Prop
  | none : SysLe none none
  | both {a b : AnalyticModel K n n U} {u v : Option U} {A Q Q' : Matrix (Fin n) (Fin n) K}
      {c d : Fin n → K} (ha : a.IsLinear u A c Q) (hb : b.IsLinear v A d Q') (hQ : PSD Q)
      (hle : AtMost Q Q') : SysLe (some (a, u)) (some (b, v))

/-- Both filters use a sensor with the same matrix, and the first is told at most the measurement noise
of the second; or only the first uses a sensor; or neither does. What the sensors read, the constant
terms and the sensor parameters may differ. -/
inductive MeasLe : {m k : Nat} → Option (AnalyticModel K n m U × (Fin m → K) × Option U) →
    Option (AnalyticModel K n k U × (Fin k → K) × Option U) → Prop
  | none {m k : Nat} : MeasLe (m := m) (k := k) none none
  | extra {m k : Nat} {a : AnalyticModel K n m U} {s : Option U} {H : Matrix (Fin m) (Fin n) K}
      {R : Matrix (Fin m) (Fin m) K} {c z : Fin m → K} (ha : a.IsLinear s H c R) (hR : PD R) :
      MeasLe (k := k) (some (a, z, s)) none
  | both {m : Nat} {a b : AnalyticModel K n m U} {s t : Option U} {H : Matrix (Fin m) (Fin n) K}
      {R R' : Matrix (Fin m) (Fin m) K} {c d z y : Fin m → K} (ha : a.IsLinear s H c R)
      (hb : b.IsLinear t H d R') (hR : PD R) (hle : AtMost R R') :
      MeasLe (some (a, z, s)) (some (b, y, t))

/-- Two lists of calls of `Update`: the first filter gets everything the second gets, in the same
order, each time at least as good, and perhaps further measurements at any moment. -/
inductive ToldMore : List (Props.KStep K n U) → List (Props.KStep K n U) → Prop
  | nil : ToldMore [] []
  | step {a b : Props.KStep K n U} {as bs : List (Props.KStep K n U)} (hs : SysLe a.sys b.sys)
      (hm : MeasLe a.meas b.meas) (h : ToldMore as bs) : ToldMore (a :: as) (b :: bs)
  | extra {a : Props.KStep K n U} {as bs : List (Props.KStep K n U)} (hs : a.sys = Option.none)
      (hm : MeasLe (k := 0) a.meas Option.none) (h : ToldMore as bs) : ToldMore (a :: as) bs

/-- A call with linear models. -/
def LinearCall (st : Props.KStep K n U) : Prop :=
  (∀ sys u, st.sys = some (sys, u) → ∃ A b Q, sys.IsLinear u A b Q ∧ PSD Q) ∧
  (∀ meas z s, st.meas = some (meas, z, s) → ∃ H c R, meas.IsLinear s H c R ∧ PD R)

/-- The same call with another reading. -/
def reread (st : Props.KStep K n U) (z : Fin st.m → K) : Props.KStep K n U :=
  { st with meas := st.meas.map fun p => (p.1, z, p.2.2) }

end order

section pessimism

variable {Ω : Type} [MeasurableSpace Ω] {n : Nat} {U : Type}

/-- The filter is told the right matrices, and a noise covariance that is at least the true one. -/
def ToldAtLeast (μ : Measure Ω) : Event Ω n U → Prop
  | .move model u A b Q w => model.IsLinear u A b Q ∧ Square μ w ∧ AtMost (moment μ w w) Q
  | .read _ model s H c R v =>
    model.IsLinear s H c R ∧ Square μ v ∧ AtMost (moment μ v v) R ∧ PD R

/-- The prior is pessimistic: its covariance is at least the second moment of the initial error. -/
def PriorAtLeast (μ : Measure Ω) (X : Ω → Fin n → ℝ) (f : KF ℝ n) : Prop :=
  Square μ (fun ω => X ω - f.mu) ∧
    AtMost (moment μ (fun ω => X ω - f.mu) (fun ω => X ω - f.mu)) f.sigma

end pessimism

end BFL.Spec
