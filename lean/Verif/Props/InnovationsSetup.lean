import Verif.Props.KalmanSetup

/-!
# A client that checks its filter

Before every reading is used, the client asks for the normalised innovation squared, as in
`/repo/orocos_bfl/src/filter/extendedkalmanfilter.h:69-70`. Only the
extended Kalman filter has this function.
-/

namespace BFL.Props

variable {K : Type} [Field K] [LinearOrder K] {n : Nat} {U : Type}

/-- `NisGet` for the reading of a call, if it has one: its values and the filter afterwards. -/
def nisOf (be : Backend) (st : KStep K n U) (f : KF K n) : Outcome (List K × KF K n) :=
  match st.meas with
  | none => .ok ([], f)
  | some (model, z, _) => do
    let r ← f.nisGet be model z
    return ([r.1], r.2)

/-- `NisGet` before every reading, then `Update`. The result are the values of `NisGet`. -/
def nisRun (be : Backend) : List (KStep K n U) → KF K n → Outcome (List K)
  | [], _ => .ok []
  | st :: rest, f => do
    let a ← nisOf be st f
    let r ← a.2.update be .extended st.sys st.meas
    let more ← nisRun be rest r.2
    return a.1 ++ more

end BFL.Props
