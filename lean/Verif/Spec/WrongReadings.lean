import Verif.Spec.Superposition

/-! # Two runs with slightly different inputs and readings -/

namespace BFL.Spec

open Matrix

variable {K : Type} [Field K] [LinearOrder K] {n : Nat} {U : Type}

/-- One step of two runs (`true` and `false`) with the same matrices. The effects of their inputs differ by at most `√p`
standard deviations of the system noise, and their readings (less the offsets of the sensor) differ by at most `√r`
standard deviations of the sensor noise, in every direction. -/
def JointStep.Off (a : JointStep K n U Bool) (p r : K) : Prop :=
  (∀ g, a.sys = some g → ∃ A Q, ∃ b : Bool → Fin n → K, PSD Q ∧
    (∀ i, (g i).1.IsLinear (g i).2 A (b i) Q) ∧ WithinSigmas p Q (b true - b false)) ∧
  (∀ g, a.meas = some g → ∃ H R, ∃ c : Bool → Fin a.m → K, PD R ∧
    (∀ i, (g i).1.IsLinear (g i).2.2 H (c i) R) ∧
    WithinSigmas r R (((g true).2.1 - c true) - ((g false).2.1 - c false)))

end BFL.Spec
