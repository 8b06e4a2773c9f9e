import Verif.Model.RoundedParticle
import Verif.Spec.RoundedSampling
import Verif.Props.Discrete

/-!
# Words for C93: resampling steps that rounding cannot disturb

The conditions speak about the filter with exact arithmetic only. A resampling decision depends on
comparisons: of the effective number of samples with the threshold, and of each random number with the
running sums of the weights. They are required to be decided with a margin `δ`.
-/

namespace BFL

open Spec

variable {R SV MV K : Type} [Field K] [LinearOrder K] [IsStrictOrderedRing K]

/-- Draws that resampling must decide as exact arithmetic does. -/
def SafeDraws (root : Nat → K → K) (us : Nat → K) (δ : K) (scheme : Scheme) (ws : List K) : Prop :=
  scheme = .multinomial → ∀ i < ws.length,
    AwayFromJumps ws δ (Props.orderedUniform root ((List.range ws.length).map us) i)

/-- Roundings of one weight in a call, apart from those common to all weights: a motion divides, a
reading divides by the proposal density, multiplies twice and divides by the sum. -/
def UpdateCall.cost (c : UpdateCall R SV MV K) : Nat :=
  (if c.sys.isSome then 1 else 0) + (if c.meas.isSome then 4 else 0)

/-- The weights of the posterior. -/
def ParticleFilter.weights (f : ParticleFilter R SV K) : List K := f.postGet.listGet.filterMap (·.weight)

/-- The resampling after a fixed number of motions. -/
def SafeStatic (root : Nat → K → K) (us : Nat → K) (δ : K) (f : ParticleFilter R SV K) : Prop :=
  f.dynamic = false → f.timestep % f.period = 0 → f.timestep ≠ 0 →
    SafeDraws root us δ f.scheme f.weights

/-- The resampling when there are too few effective samples. -/
def SafeDynamic (root : Nat → K → K) (us : Nat → K) (δ : K) (f : ParticleFilter R SV K) : Prop :=
  f.dynamic = true → δ * (1 / (f.weights.map (· ^ 2)).sum) <
      |1 / (f.weights.map (· ^ 2)).sum - f.threshold| ∧
    (1 / (f.weights.map (· ^ 2)).sum < f.threshold → SafeDraws root us δ f.scheme f.weights)

/-- The resampling steps in an update of the exact filter. -/
def ClearUpdate (dflt : SV) (root : Nat → K → K) (δ : K) (noise : Noise R K)
    (c : UpdateCall R SV MV K) (f : ParticleFilter R SV K) : Prop :=
  (c.sys.isSome → SafeStatic root noise.static δ f) ∧
  ∀ mm f2 f3, c.meas = some mm → ParticleFilter.sysPart dflt root noise c (true, f) = .ok (true, f2) →
    f2.weightStep c mm = .ok (true, f3) → SafeDynamic root noise.dynamic δ f3

/-- The resampling steps in an update of the exact bootstrap filter. -/
def ClearBoot (dflt : SV) (root : Nat → K → K) (δ : K) (noise : Noise R K)
    (c : UpdateCall R SV MV K) (f : ParticleFilter R SV K) : Prop :=
  (∀ m, c.sys = some m →
    ClearUpdate dflt root δ noise { c with meas := none } { f with proposal := m.proposal }) ∧
  ∀ f2, f.bootSys dflt root noise c = .ok (true, f2) →
    ClearUpdate dflt root δ noise { c with sys := none } f2

/-- The resampling steps in a history of the exact filter. -/
def ClearRun (step : Noise R K → UpdateCall R SV MV K → ParticleFilter R SV K →
      Outcome (Bool × ParticleFilter R SV K))
    (clear : Noise R K → UpdateCall R SV MV K → ParticleFilter R SV K → Prop) :
    List (Noise R K × UpdateCall R SV MV K) → ParticleFilter R SV K → Prop
  | [], _ => True
  | (noise, c) :: calls, f => clear noise c f ∧
      ∀ f1, step noise c f = .ok (true, f1) → ClearRun step clear calls f1

/-- Number of roundings of a weight in a history of a filter with `n` particles. -/
def historyRoundings (n : Nat) (calls : List (Noise R K × UpdateCall R SV MV K)) : Nat :=
  4 * (1 + (calls.map (·.2.cost)).sum) + 3 * n + 4

/-- Same particles, and weights with relative error at most `ε`. -/
def CloseTo (ε : K) (ps qs : List (SV × K)) : Prop :=
  List.Forall₂ (fun p q => q.1 = p.1 ∧ |q.2 - p.2| ≤ ε * p.2) ps qs

end BFL
