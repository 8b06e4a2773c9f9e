import Verif.Spec.LinearWorld
import Verif.Model.RauchTungStriebel

/-!
# A client program: filtering forward and smoothing backward
-/

namespace BFL.Spec

/-- Every motion has noise in all directions (there is nothing to ask of a reading). -/
def Event.Stirred {Ω : Type} {n : Nat} {U : Type} : Event Ω n U → Prop
  | .move _ _ _ _ Q _ => PD Q
  | .read .. => True

end BFL.Spec

namespace BFL.Props

open Spec

variable {K : Type} [Field K] [LinearOrder K] {n : Nat} {U : Type}

/-- One step backward: if the state has moved, the smoother is updated with the system model and the filtered estimate
from before the motion. Otherwise there is nothing to do, because the state is the same. -/
def backward (be : Backend) (sys : Option (AnalyticModel K n n U × Option U)) (f : KF K n) (g : RTS K n) :
    Outcome (RTS K n) :=
  match sys with
  | none => .ok g
  | some (model, u) => do
    let r ← g.update be model u f.mu f.sigma
    return r.2

/-- Run the filter over all calls, remembering every filtered estimate, construct a `RauchTungStriebel` from the last
one and update it backwards in time (in the manner of examples/smoother, as `smoothRun` for C55, but with any sequence
of predictions and corrections). The result is the smoothed estimate of the first state and the list of the smoothed
estimates after each call. -/
def smoothCalls (be : Backend) (kind : KF.Kind K n) : List (KStep K n U) → KF K n →
    Outcome (RTS K n × List (RTS K n))
  | [], f => .ok (RTS.make f.mu f.sigma, [])
  | st :: rest, f => do
    let r ← f.update be kind st.sys st.meas
    let l ← smoothCalls be kind rest r.2
    let g ← backward be st.sys f l.1
    return (g, l.1 :: l.2)

end BFL.Props
