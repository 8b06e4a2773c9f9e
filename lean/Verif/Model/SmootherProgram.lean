import Verif.Model.RauchTungStriebel
import Verif.Model.Ginac

/-!
# Model of the example programs for the smoother

`/repo/orocos_bfl/examples/smoother/test_kalman_smoother.cpp` (the same loops are in
`/repo/orocos_bfl/tests/smoother_test.cpp:150-211` and, for the argument `kalman_filter`, in
`examples/smoother/test_nonlinear_smoother.cpp`). Only what is computed is modelled, not the files written.
-/

namespace BFL

namespace SmootherProgram

variable {K : Type} [Field K] [LinearOrder K] {n : Nat} {U : Type}

/-- A reading with its measurement model and sensor parameter. -/
abbrev ProgramReading (K : Type) (n : Nat) (U : Type) : Type :=
  (m : Nat) × (AnalyticModel K n m U × (Fin m → K) × Option U)

/-- Lines 214-223: one update with or without a reading; the system model and the input are the same in every
step. -/
def filterStep (be : Backend) (kind : KF.Kind K n) (sys : AnalyticModel K n n U) (u : Option U)
    (r : Option (ProgramReading K n U)) (f : KF K n) : Outcome (Bool × KF K n) :=
  match r with
  | none => f.update be kind (m := 0) (some (sys, u)) none
  | some r => f.update be kind (some (sys, u)) (some r.2)

/-- The estimation loop, lines 195-230. `posterior` (line 204) is a pointer to the posterior of the filter
(filter/filter.cpp:126-129, kalmanfilter.cpp:179-182), which the update on lines 219 and 222 overwrites
(kalmanfilter.cpp:165-177), so that the copy on line 227 is the estimate after the update. Returns the vector
`posteriors` and the filter. -/
def forward (be : Backend) (kind : KF.Kind K n) (sys : AnalyticModel K n n U) (u : Option U) :
    List (Option (ProgramReading K n U)) → KF K n → Outcome (List (KF K n) × KF K n)
  | [], f => .ok ([], f)
  | r :: rest, f => do
    let f' ← filterStep be kind sys u r f
    let l ← forward be kind sys u rest f'.2
    return (f'.2 :: l.1, l.2)

/-- The loop of the smoother, lines 278-298, over the stored estimates, last first. The loop ends when the
unsigned `time_step` has wrapped around, after one pass per stored estimate. -/
def backwardLoop (be : Backend) (sys : AnalyticModel K n n U) (u : Option U) :
    List (KF K n) → RTS K n → Outcome (List (RTS K n))
  | [], _ => .ok []
  | p :: ps, g => do
    let g' ← g.update be sys u p.mu p.sigma
    let l ← backwardLoop be sys u ps g'.2
    return g'.2 :: l

/-- Lines 170-302: filter, smoother (line 261), and the smoothed estimates by which the stored ones are
replaced (lines 295-296), first time step first. -/
def program (be : Backend) (kind : KF.Kind K n) (sys : AnalyticModel K n n U) (u : Option U)
    (rs : List (Option (ProgramReading K n U))) (f : KF K n) : Outcome (KF K n × List (RTS K n)) := do
  let r ← forward be kind sys u rs f
  let l ← backwardLoop be sys u r.1.reverse (RTS.make r.2.mu r.2.sigma)
  return (r.2, l.reverse)

/-- The mean of the prior, lines 152-155: the third entry is not assigned; `junk` is what the memory holds
(`ColumnVector(int)` does not initialise, wrappers/matrix/vector_BOOST.cpp:29, vector_EIGEN.cpp:10). The
constants are those of examples/mobile_robot_wall_cts.h. -/
noncomputable def priorMean (junk : ℝ) : Fin 3 → ℝ := ![-1 / 10, 1 / 10, junk]

/-- The input, lines 180-182. -/
noncomputable def input : Fin 2 → ℝ := ![1 / 10, 0]

/-- The choice of the program's argument, test_nonlinear_smoother.cpp:85-104: the arguments that select a
smoother. -/
def accepts (argument : String) : Bool := argument == "kalman_filter" || argument == "bootstrap_filter"

/-- The arguments advised when none is given, test_nonlinear_smoother.cpp:88-90. -/
def advised : List String := ["kalman_smoother", "bootstrap_smoother"]

end SmootherProgram

end BFL
